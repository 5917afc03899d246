import Verif.Model.RoundedBackend
import Verif.Proof.RoundedExact

/-! With exact arithmetic the backend with rounded arithmetic is the backend. -/

noncomputable section
namespace Qir.RBack
open Spec

variable {env : Env} {fmt : Back.Fmt}

@[simp] theorem gateCall_exact : Rnd.gateCall (Arith.exact env) = Sim.gateCall env := by
  funext q g s
  cases g <;> simp only [Rnd.gateCall, Sim.gateCall, Rnd.x_exact, Rnd.y_exact, Rnd.z_exact, Rnd.h_exact,
      Rnd.diagGate_exact, Rnd.rx_exact, Rnd.ry_exact, Sim.sGate, Sim.sadj, Sim.t, Sim.tadj, Sim.rz]

@[simp] theorem ctrlCall_exact : Rnd.ctrlCall (Arith.exact env) = Sim.ctrlCall env := by
  funext cs q g s
  cases g <;> simp only [Rnd.ctrlCall, Sim.ctrlCall, Rnd.mcx_exact, Rnd.mcy_exact, Rnd.mcz_exact, Rnd.mch_exact,
      Rnd.mcDiagGate_exact, Rnd.mcrx_exact, Rnd.mcry_exact, Sim.mcs, Sim.mcsadj, Sim.mct, Sim.mctadj, Sim.mcrz]

@[simp] theorem gate_exact : gate (Arith.exact env) = Back.gate env := by
  funext g q s; simp only [gate, Back.gate, gateCall_exact]

@[simp] theorem ctl_exact : ctl (Arith.exact env) = Back.ctl env := by
  funext g cs q s; simp only [ctl, Back.ctl, ctrlCall_exact]

@[simp] theorem sx_exact : sx (Arith.exact env) = Back.sx env := by
  funext q s; simp only [sx, Back.sx, gate_exact]

@[simp] theorem rzz_exact : rzz (Arith.exact env) = Back.rzz env := by
  funext θ a b s; simp only [rzz, Back.rzz, gate_exact, ctl_exact]

@[simp] theorem rxx_exact : rxx (Arith.exact env) = Back.rxx env := by
  funext θ a b s; simp only [rxx, Back.rxx, gate_exact, rzz_exact]

@[simp] theorem ryy_exact : ryy (Arith.exact env) = Back.ryy env := by
  funext θ a b s; simp only [ryy, Back.ryy, gate_exact, rzz_exact]

@[simp] theorem r_exact : r (Arith.exact env) = Back.r env := by
  funext p θ q s; cases p <;> simp only [r, Back.r, gate_exact]

theorem phase_eq (θ : ℝ) : (⟨Real.cos θ, Real.sin θ⟩ : ℂ) = Complex.exp ⟨0, θ⟩ := by
  have : (⟨0, θ⟩ : ℂ) = θ * Complex.I := by apply Complex.ext <;> simp
  rw [this, Complex.exp_mul_I]
  apply Complex.ext <;> simp [Complex.cos_ofReal_re, Complex.sin_ofReal_re]

@[simp] theorem rCtl_exact : rCtl (Arith.exact env) = Back.rCtl env := by
  funext cs p θ q s
  cases p
  case I => simp only [rCtl, Back.rCtl, Rnd.mcphase_exact, Rnd.exact_cos, Rnd.exact_sin, phase_eq]; rfl
  all_goals simp only [rCtl, Back.rCtl, ctl_exact]

@[simp] theorem exp_exact : exp (Arith.exact env) = Back.exp env := by
  funext ps θ qs s; simp only [exp, Back.exp, Rnd.mcexp_exact]

@[simp] theorem expCtl_exact : expCtl (Arith.exact env) = Back.expCtl env := by
  funext cs ps θ qs s; simp only [expCtl, Back.expCtl, Rnd.mcexp_exact]

@[simp] theorem mapOne_exact : mapOne (Arith.exact env) = Back.mapOne env := by
  funext ⟨p, q⟩ s; cases p <;> simp only [mapOne, Back.mapOne, Rnd.h_exact, gateCall_exact]; rfl

@[simp] theorem unmapOne_exact : unmapOne (Arith.exact env) = Back.unmapOne env := by
  funext ⟨p, q⟩ s; cases p <;> simp only [unmapOne, Back.unmapOne, Rnd.h_exact, gateCall_exact]; rfl

@[simp] theorem mapToZ_exact : mapToZ (Arith.exact env) = Back.mapToZ env := by
  funext ps qs s; simp only [mapToZ, Back.mapToZ, mapOne_exact]

@[simp] theorem unmapFromZ_exact : unmapFromZ (Arith.exact env) = Back.unmapFromZ env := by
  funext l s; simp only [unmapFromZ, Back.unmapFromZ, unmapOne_exact]

theorem qstep_exact : qstep (Arith.exact env) fmt = Back.qstep env fmt := by
  funext c s
  cases c
  case drawInt => rfl
  case drawDouble => rfl
  all_goals simp only [qstep, Back.qstep, gate_exact, ctl_exact, sx_exact, rxx_exact, ryy_exact, rzz_exact, r_exact,
    rAdj, Back.rAdj, rCtl_exact, rCtlAdj, Back.rCtlAdj, exp_exact, expAdj, Back.expAdj, expCtl_exact, expCtlAdj,
    Back.expCtlAdj, swap, Back.swap, Rnd.swapQubitIds_exact, reset, Back.reset, mresetz, Back.mresetz, mz, Back.mz,
    m, Back.m, Rnd.measure_exact, Rnd.x_exact, measure, Back.measure, mapToZ_exact, unmapFromZ_exact,
    Rnd.jointMeasure_exact, qubitIsZero, Back.qubitIsZero, Rnd.qubitIsZero_exact, assertProb, Back.assertProb,
    Rnd.jointProbability_exact, Rnd.exact_fl, qubitRelease, Back.qubitRelease, Rnd.release_exact, dumpMachine,
    Back.dumpMachine, Rnd.dump_exact]

theorem step_exact : step (Arith.exact env) fmt = Back.step env fmt := by
  funext c s; simp only [step, Back.step, qstep_exact]; rfl

end Qir.RBack
