import Verif.Model.Rounded

/-! With exact arithmetic the functions of `Model/Rounded` are those of `Model/Sim` and `Model/Exp`. -/

noncomputable section
namespace Qir.Rnd
open Sim Spec

variable (env : Env)

@[simp] theorem exact_mul (z w : ℂ) : (Arith.exact env).mul z w = z * w := by
  apply Complex.ext <;> simp [Arith.mul, Arith.exact]

@[simp] theorem exact_scale (z : ℂ) (r : ℝ) : (Arith.exact env).scale z r = z * r := by
  apply Complex.ext <;> simp [Arith.scale, Arith.exact]

@[simp] theorem exact_add (z w : ℂ) : (Arith.exact env).add z w = z + w := by
  apply Complex.ext <;> simp [Arith.add, Arith.exact]

@[simp] theorem exact_sub (z w : ℂ) : (Arith.exact env).sub z w = z - w := by
  apply Complex.ext <;> simp [Arith.sub, Arith.exact]

@[simp] theorem exact_normSqr (z : ℂ) : (Arith.exact env).normSqr z = Complex.normSq z := by
  simp [Arith.normSqr, Arith.exact, Complex.normSq_apply]

@[simp] theorem exact_fracSqrt2 : (Arith.exact env).fracSqrt2 = fracSqrt2 := rfl
@[simp] theorem exact_fl (x : ℝ) : (Arith.exact env).fl x = x := rfl
@[simp] theorem exact_cos (x : ℝ) : (Arith.exact env).cos x = Real.cos x := rfl
@[simp] theorem exact_sin (x : ℝ) : (Arith.exact env).sin x = Real.sin x := rfl
@[simp] theorem exact_eps : (Arith.exact env).eps = env.eps := rfl
@[simp] theorem exact_shuffle : (Arith.exact env).shuffle = env.shuffle := rfl

@[simp] theorem applyOp_exact : applyOp (Arith.exact env) = Sim.applyOp := by
  funext op e
  obtain ⟨cs, t, op⟩ := op
  unfold applyOp Sim.applyOp
  split
  · cases op <;> simp only [yTransform, phaseTransform, rzTransform, Sim.yTransform, Sim.zTransform, Sim.sTransform,
      Sim.sadjTransform, Sim.tTransform, Sim.tadjTransform, Sim.phaseTransform, Sim.rzTransform, exact_mul, exact_fracSqrt2,
      exact_cos, exact_sin]
    congr 2
    apply Complex.ext <;> simp [Complex.exp_re, Complex.exp_im]
  · rfl

@[simp] theorem applyOps_exact : applyOps (Arith.exact env) = Sim.applyOps := by
  funext ops e; simp only [applyOps, Sim.applyOps, applyOp_exact]

@[simp] theorem flushOps_exact : flushOps (Arith.exact env) = Sim.flushOps := by
  funext s; simp only [flushOps, Sim.flushOps, applyOps_exact]

@[simp] theorem enqueueOp_exact : enqueueOp (Arith.exact env) = Sim.enqueueOp := by
  funext t cs op s; simp only [enqueueOp, Sim.enqueueOp, flushOps_exact]

@[simp] theorem mchEntry_exact : mchEntry (Arith.exact env) = Sim.mchEntry env.eps := by
  funext m cs t e
  unfold mchEntry Sim.mchEntry
  simp only [exact_scale, exact_fracSqrt2, exact_add, exact_sub, exact_eps]
  split
  · cases lookupMap m (e.1 ^^^ setBit 0 t true) with
    | none => by_cases h : e.1.testBit t <;> simp [h]
    | some v => rfl
  · rfl

@[simp] theorem applyMch_exact : applyMch (Arith.exact env) = Sim.applyMch env := by
  funext cs t s
  simp only [applyMch, Sim.applyMch, applyOps_exact, mchEntry_exact, exact_shuffle]

@[simp] theorem rotM00_exact : rotM00 (Arith.exact env) = Sim.rotM00 := by
  funext θ; simp only [rotM00, Sim.rotM00, exact_cos]

@[simp] theorem rotM01_exact : rotM01 (Arith.exact env) = Sim.rotM01 := by
  funext θ b; simp only [rotM01, Sim.rotM01, exact_sin, exact_mul]

@[simp] theorem rotEntry_exact : rotEntry (Arith.exact env) = Sim.rotEntry env.eps := by
  funext m cs t a b c e
  unfold rotEntry Sim.rotEntry
  simp only [exact_mul, exact_add, exact_eps]
  split
  · cases lookupMap m (e.1 ^^^ setBit 0 t true) <;> rfl
  · rfl

@[simp] theorem scaleIf_exact : scaleIf (Arith.exact env) = Sim.scaleIf := by
  funext cs f e; simp only [scaleIf, Sim.scaleIf, exact_mul]

@[simp] theorem mcrotation_exact : mcrotation (Arith.exact env) = Sim.mcrotation env := by
  funext p cs θ t b s
  have e : (((if b then -1 else 1 : ℝ)) : ℂ) = if b then -1 else 1 := by cases b <;> simp
  simp only [mcrotation, Sim.mcrotation, rotM00_exact, rotM01_exact, rotEntry_exact, scaleIf_exact, applyOps_exact,
    exact_mul, exact_add, exact_scale, exact_eps, exact_shuffle, e]

@[simp] theorem x_exact : x (Arith.exact env) = Sim.x := by
  funext t s; simp only [x, Sim.x, enqueueOp_exact]

@[simp] theorem y_exact : y (Arith.exact env) = Sim.y := by
  funext t s; simp only [y, Sim.y, enqueueOp_exact]

@[simp] theorem flushRx_exact : flushRx (Arith.exact env) = Sim.flushRx env := by
  funext t s; unfold flushRx Sim.flushRx; cases s.rxQ.get t <;> simp only [mcrotation_exact, x_exact]

@[simp] theorem flushRy_exact : flushRy (Arith.exact env) = Sim.flushRy env := by
  funext t s; unfold flushRy Sim.flushRy; cases s.ryQ.get t <;> simp only [mcrotation_exact, y_exact]

@[simp] theorem flushH_exact : flushH (Arith.exact env) = Sim.flushH env := by
  funext t s; simp only [flushH, Sim.flushH, applyMch_exact]

@[simp] theorem flushOne_exact : flushOne (Arith.exact env) = Sim.flushOne env := by
  funext l t s; cases l <;> simp only [flushOne, Sim.flushOne, flushH_exact, flushRx_exact, flushRy_exact]

@[simp] theorem flushLoop_exact : flushLoop (Arith.exact env) = Sim.flushLoop env := by
  funext l qs s
  induction qs generalizing s with
  | nil => rfl
  | cons q qs ih => simp only [flushLoop, Sim.flushLoop, flushOne_exact, ih]

@[simp] theorem flushQueue_exact : flushQueue (Arith.exact env) = Sim.flushQueue env := by
  funext qs l s; simp only [flushQueue, Sim.flushQueue, flushLoop_exact, flushOps_exact]

@[simp] theorem maybeFlush_exact : maybeFlush (Arith.exact env) = Sim.maybeFlush env := by
  funext qs l s; simp only [maybeFlush, Sim.maybeFlush, flushQueue_exact]

@[simp] theorem flushIf_exact : flushIf (Arith.exact env) = Sim.flushIf env := by
  funext c qs l s; simp only [flushIf, Sim.flushIf, flushQueue_exact]

@[simp] theorem mcxFlushCtls_exact : mcxFlushCtls (Arith.exact env) = Sim.mcxFlushCtls env := by
  funext c cs t s; simp only [mcxFlushCtls, Sim.mcxFlushCtls, flushIf_exact, maybeFlush_exact]

@[simp] theorem mcx_exact : mcx (Arith.exact env) = Sim.mcx env := by
  funext cs t s
  cases cs <;> simp only [mcx, Sim.mcx, x_exact, flushIf_exact, mcxFlushCtls_exact, enqueueOp_exact]

@[simp] theorem enqueueIf_exact : enqueueIf (Arith.exact env) = Sim.enqueueIf := by
  funext c t cs op s; simp only [enqueueIf, Sim.enqueueIf, enqueueOp_exact]

@[simp] theorem mcy_exact : mcy (Arith.exact env) = Sim.mcy env := by
  funext cs t s
  cases cs <;> simp only [mcy, Sim.mcy, y_exact, flushIf_exact, maybeFlush_exact, enqueueOp_exact, enqueueIf_exact]

@[simp] theorem mcphase_exact : mcphase (Arith.exact env) = Sim.mcphase env := by
  funext cs p t s
  simp only [mcphase, Sim.mcphase, flushQueue_exact, phaseTransform, Sim.phaseTransform, exact_mul]

@[simp] theorem z_exact : z (Arith.exact env) = Sim.z := by
  funext t s; simp only [z, Sim.z, enqueueOp_exact]

@[simp] theorem mcz_exact : mcz (Arith.exact env) = Sim.mcz env := by
  funext cs t s
  cases cs with
  | nil => simp only [mcz, Sim.mcz, z_exact]
  | cons c cs =>
    simp only [mcz, Sim.mcz, flushQueue_exact, enqueueOp_exact]
    split
    · cases (c :: cs).find? (fun c => s.hFlag.testBit c) <;> rfl
    · rfl

@[simp] theorem diagGate_exact : diagGate (Arith.exact env) = Sim.diagGate env := by
  funext op t s; simp only [diagGate, Sim.diagGate, maybeFlush_exact, enqueueOp_exact]

@[simp] theorem mcDiagGate_exact : mcDiagGate (Arith.exact env) = Sim.mcDiagGate env := by
  funext op cs t s; simp only [mcDiagGate, Sim.mcDiagGate, maybeFlush_exact, enqueueOp_exact]

@[simp] theorem h_exact : h (Arith.exact env) = Sim.h env := by
  funext t s; simp only [h, Sim.h, flushIf_exact]

@[simp] theorem mch_exact : mch (Arith.exact env) = Sim.mch env := by
  funext cs t s; simp only [mch, Sim.mch, flushIf_exact, flushQueue_exact, applyMch_exact]

@[simp] theorem addAngle_exact : addAngle (Arith.exact env) = Sim.addAngle env.eps := by
  funext q t θ
  unfold addAngle Sim.addAngle
  cases q.get t <;> rfl

@[simp] theorem rx_exact : rx (Arith.exact env) = Sim.rx env := by
  funext θ t s; simp only [rx, Sim.rx, flushIf_exact, addAngle_exact]

@[simp] theorem ry_exact : ry (Arith.exact env) = Sim.ry env := by
  funext θ t s; simp only [ry, Sim.ry, addAngle_exact]

@[simp] theorem mcrx_exact : mcrx (Arith.exact env) = Sim.mcrx env := by
  funext cs θ t s; simp only [mcrx, Sim.mcrx, flushIf_exact, flushQueue_exact, mcrotation_exact, mcx_exact]

@[simp] theorem mcry_exact : mcry (Arith.exact env) = Sim.mcry env := by
  funext cs θ t s; simp only [mcry, Sim.mcry, flushIf_exact, flushQueue_exact, mcrotation_exact, mcy_exact]

@[simp] theorem expDiag_exact : expDiag (Arith.exact env) = Sim.expDiag env.eps := by
  funext cs yz a b st
  have e : a * ((2 : ℝ) : ℂ) = 2 * a := by push_cast; ring
  simp only [expDiag, Sim.expDiag, exact_add, exact_sub, exact_mul, exact_scale, exact_eps, e]

@[simp] theorem expEntry_exact : expEntry (Arith.exact env) = Sim.expEntry env.eps := by
  funext m cs xy yz a b c e
  unfold expEntry Sim.expEntry
  simp only [exact_mul, exact_add, exact_eps]
  split
  · cases lookupMap m (e.1 ^^^ xy) <;> rfl
  · rfl

@[simp] theorem expState_exact : expState (Arith.exact env) = Sim.expState env := by
  funext cs mk θ st
  simp only [expState, Sim.expState, expDiag_exact, expEntry_exact, exact_mul, exact_cos, exact_sin, exact_shuffle]

@[simp] theorem mcexp_exact : mcexp (Arith.exact env) = Sim.mcexp env := by
  funext cs ps θ ts s; simp only [mcexp, Sim.mcexp, flushQueue_exact, expState_exact]

@[simp] theorem swapQubitIds_exact : swapQubitIds (Arith.exact env) = Sim.swapQubitIds := by
  funext a b s; simp only [swapQubitIds, Sim.swapQubitIds, flushOps_exact]

@[simp] theorem checkJointProbability_exact :
    checkJointProbability (Arith.exact env) = Sim.checkJointProbability := by
  funext l s; simp only [checkJointProbability, Sim.checkJointProbability, applyOps_exact, exact_fl, exact_normSqr]

@[simp] theorem jointProbability_exact : jointProbability (Arith.exact env) = Sim.jointProbability env := by
  funext l s; simp only [jointProbability, Sim.jointProbability, maybeFlush_exact, checkJointProbability_exact]

@[simp] theorem qubitIsZero_exact : qubitIsZero (Arith.exact env) = Sim.qubitIsZero env := by
  funext q s; simp only [qubitIsZero, Sim.qubitIsZero, jointProbability_exact]; rfl

@[simp] theorem jointCollapse_exact : jointCollapse (Arith.exact env) = Sim.jointCollapse := by
  funext l v p s; simp only [jointCollapse, Sim.jointCollapse, exact_fl, exact_scale]

@[simp] theorem measure_exact : measure (Arith.exact env) = Sim.measure env := by
  funext q s
  simp only [measure, Sim.measure, maybeFlush_exact, checkJointProbability_exact, jointCollapse_exact]

@[simp] theorem forceCollapse_exact : forceCollapse (Arith.exact env) = Sim.forceCollapse env := by
  funext v q s
  simp only [forceCollapse, Sim.forceCollapse, maybeFlush_exact, checkJointProbability_exact, jointCollapse_exact,
    exact_fl, exact_eps]

@[simp] theorem jointMeasure_exact : jointMeasure (Arith.exact env) = Sim.jointMeasure env := by
  funext qs s
  simp only [jointMeasure, Sim.jointMeasure, maybeFlush_exact, checkJointProbability_exact, jointCollapse_exact]

@[simp] theorem releaseState_exact : releaseState (Arith.exact env) = Sim.releaseState env := by
  funext q s; simp only [releaseState, Sim.releaseState, measure_exact]

@[simp] theorem release_exact : release (Arith.exact env) = Sim.release env := by
  funext q s; simp only [release, Sim.release, releaseState_exact]

@[simp] theorem swapQubitState_exact : swapQubitState (Arith.exact env) = Sim.swapQubitState env := by
  funext a b s; simp only [swapQubitState, Sim.swapQubitState, flushQueue_exact]

@[simp] theorem relocateOne_exact : relocateOne (Arith.exact env) = Sim.relocateOne env := by
  funext i k s; simp only [relocateOne, Sim.relocateOne, swapQubitState_exact]; rfl

@[simp] theorem relocate_exact : relocate (Arith.exact env) = Sim.relocate env := by
  funext i ks s
  induction ks generalizing i s with
  | nil => rfl
  | cons k ks ih => simp only [relocate, Sim.relocate, relocateOne_exact, ih]

@[simp] theorem getState_exact : getState (Arith.exact env) = Sim.getState env := by
  funext s; simp only [getState, Sim.getState, flushQueue_exact, relocate_exact]

@[simp] theorem dump_exact : dump (Arith.exact env) = Sim.dump env := by
  funext f s; simp only [dump, Sim.dump, flushQueue_exact, relocate_exact]

theorem call_exact : call (Arith.exact env) = Sim.call env := by
  funext c s
  cases c with
  | gate g q => cases g <;> simp only [call, Sim.call, gateCall, Sim.gateCall, x_exact, y_exact, z_exact, h_exact,
      diagGate_exact, rx_exact, ry_exact, sGate, sadj, t, tadj, rz]
  | ctrl g cs q => cases g <;> simp only [call, Sim.call, ctrlCall, Sim.ctrlCall, mcx_exact, mcy_exact, mcz_exact, mch_exact,
      mcDiagGate_exact, mcrx_exact, mcry_exact, mcs, mcsadj, mct, mctadj, mcrz]
  | _ => simp only [call, Sim.call, mcphase_exact, mcexp_exact, swapQubitIds_exact, release_exact, measure_exact,
      jointMeasure_exact, jointProbability_exact, qubitIsZero_exact, forceCollapse_exact, getState_exact, dump_exact]

theorem runCalls_exact : runCalls (Arith.exact env) = Sim.runCalls env := by
  funext cs s
  induction cs generalizing s with
  | nil => rfl
  | cons c cs ih => simp only [runCalls, Sim.runCalls, call_exact, ih]

end Qir.Rnd
