import Verif.Props.RearrangeDefs
import Verif.Proof.Within
import Verif.Proof.Chance

/-!
# Calls on different qubits may be exchanged

Every movable call is described by two operators, one for each value it may find; the operators of calls that are
apart commute.
-/

noncomputable section
namespace Qir.Back.Arr
open Spec Sim Qir.Out Run

/-! ### One call as a pair of operators -/

/-- The operator of a call that does not measure. -/
def turning : QCall → Module.End ℂ Wave
  | .gate g q => ctrlL [] g.mat q
  | .ctl g cs q => ctrlL cs g.mat q
  | .sx q => ctrlL [] matSx q
  | .rxx θ a b => expL [] [(.X, a), (.X, b)] (-(θ / 2))
  | .ryy θ a b => expL [] [(.Y, a), (.Y, b)] (-(θ / 2))
  | .rzz θ a b => expL [] [(.Z, a), (.Z, b)] (-(θ / 2))
  | .r p θ q => expL [] [(p, q)] (-(θ / 2))
  | .rAdj p θ q => expL [] [(p, q)] (θ / 2)
  | .rCtl cs p θ q => expL cs [(p, q)] (-(θ / 2))
  | .rCtlAdj cs p θ q => expL cs [(p, q)] (θ / 2)
  | .exp ps θ qs => expL [] (ps.zip qs) θ
  | .expAdj ps θ qs => expL [] (ps.zip qs) (-θ)
  | .expCtl cs ps θ qs => expL cs (ps.zip qs) θ
  | .expCtlAdj cs ps θ qs => expL cs (ps.zip qs) (-θ)
  | .swap a b => swapL a b
  | _ => 1

/-- The operator of a call that finds `v`; those that do not measure find one. -/
def kraus (c : QCall) (v : Bool) : Module.End ℂ Wave :=
  match c with
  | .reset q | .mresetz q _ => (if v then gateL matX q else 1) * pauliProjL [(.Z, q)] v
  | .mz q _ | .m q => pauliProjL [(.Z, q)] v
  | .measure ps qs => pauliProjL (support ps qs) v
  | c => if v then turning c else 0

/-- The answer. -/
def reply (c : QCall) (v : Bool) (δ : Device) : QAns :=
  match c with
  | .m _ | .measure _ _ => .ptr (Device.pointer v)
  | .readResult r => .bit (δ.reg r)
  | _ => .unit

/-- What is recorded. -/
def noted (c : QCall) (δ : Device) : List Event :=
  match c with
  | .recordResult r tag => [.record (.result (δ.resultValue r) tag)]
  | .legacyResult r => [.legacy (.result (δ.resultValue r))]
  | .record e _ => [.record e]
  | .legacy e _ => [.legacy e]
  | _ => []

/-- The registers afterwards. -/
def kept (c : QCall) (v : Bool) (g : ℕ → Bool) : ℕ → Bool :=
  match c with
  | .mresetz _ r | .mz _ r => Function.update g r v
  | .writeResult b r => Function.update g r b
  | _ => g

/-- Whether any has been used. -/
def marked (c : QCall) (t : Bool) : Bool :=
  match c with
  | .mresetz _ _ | .mz _ _ | .writeResult _ _ | .readResult _ => true
  | _ => t

/-- The probability of finding `v`. -/
def weight (c : QCall) (v : Bool) (δ : Device) : ℝ := Spec.normSq (kraus c v δ.psi)

/-- Replace state vector and registers. -/
def put (φ : Wave) (g : ℕ → Bool) (t : Bool) (δ : Device) : Device := { δ with psi := φ, reg := g, touched := t }

/-- The device after `v` has been found. -/
def next (c : QCall) (v : Bool) (δ : Device) : Device :=
  put ((1 / Real.sqrt (weight c v δ) : ℝ) • kraus c v δ.psi) (kept c v δ.reg) (marked c δ.touched) (δ.useAll c.uses)

theorem use_put (q : ℕ) (φ : Wave) (g : ℕ → Bool) (t : Bool) (δ : Device) :
    (put φ g t δ).use q = put φ g t (δ.use q) := by
  unfold Device.use put
  dsimp only
  split <;> rfl

theorem useAll_put (qs : List ℕ) (φ : Wave) (g : ℕ → Bool) (t : Bool) :
    ∀ δ : Device, (put φ g t δ).useAll qs = put φ g t (δ.useAll qs) := by
  induction qs with
  | nil => intro δ; rfl
  | cons q qs ih =>
    intro δ
    show ((put φ g t δ).use q).useAll qs = put φ g t ((δ.use q).useAll qs)
    rw [use_put, ih]

theorem use_comm (a b : ℕ) (δ : Device) : (δ.use a).use b = (δ.use b).use a := by
  unfold Device.use
  by_cases ha : a < δ.high
  · by_cases hb : b < δ.high
    · simp [ha, hb]
    · have : a < b + 1 := by omega
      simp [ha, hb, this]
  · by_cases hb : b < δ.high
    · have : b < a + 1 := by omega
      simp [ha, hb, this]
    · simp only [if_neg ha, if_neg hb]
      rcases lt_trichotomy a b with h | h | h
      · have h1 : ¬ b < a + 1 := by omega
        have h2 : a < b + 1 := by omega
        simp [h1, h2]
      · subst h; rfl
      · have h1 : b < a + 1 := by omega
        have h2 : ¬ a < b + 1 := by omega
        simp [h1, h2]

theorem useAll_use (a : ℕ) (qs : List ℕ) : ∀ δ : Device, (δ.use a).useAll qs = (δ.useAll qs).use a := by
  induction qs with
  | nil => intro δ; rfl
  | cons q qs ih =>
    intro δ
    show ((δ.use a).use q).useAll qs = ((δ.use q).useAll qs).use a
    rw [use_comm, ih]

theorem useAll_comm (ps : List ℕ) (qs : List ℕ) : ∀ δ : Device, (δ.useAll ps).useAll qs = (δ.useAll qs).useAll ps := by
  induction ps with
  | nil => intro δ; rfl
  | cons p ps ih =>
    intro δ
    show ((δ.use p).useAll ps).useAll qs = ((δ.useAll qs).use p).useAll ps
    rw [ih, useAll_use]

theorem put_put (φ φ' : Wave) (g g' : ℕ → Bool) (t t' : Bool) (δ : Device) :
    put φ g t (put φ' g' t' δ) = put φ g t δ := rfl

theorem useAll_reg (qs : List ℕ) : ∀ δ : Device, (δ.useAll qs).reg = δ.reg := by
  induction qs with
  | nil => intro δ; rfl
  | cons q qs ih => intro δ; rw [useAll_cons, ih, use_reg]

theorem useAll_touched (qs : List ℕ) : ∀ δ : Device, (δ.useAll qs).touched = δ.touched := by
  induction qs with
  | nil => intro δ; rfl
  | cons q qs ih => intro δ; rw [useAll_cons, ih, use_touched]

/-! ### The description is right -/

theorem fit_proper {δ δ' : Device} (h : Fit δ.psi) {c : QCall} (hm : measures δ c = none) (hv : c.Distinct)
    {a : QAns} {es : List Event} (hs : δ.step c = .ok (a, es, δ')) : Fit δ'.psi := by
  cases c with
  | gate g q => cases hs; exact h.ctrl (isom_gate g) List.not_mem_nil
  | ctl g cs q => cases hs; exact h.ctrl (isom_gate g) fun hc => (List.nodup_append.1 hv).2.2 q hc q (by simp) rfl
  | sx q => cases hs; exact h.ctrl isom_Sx List.not_mem_nil
  | rxx θ a b | ryy θ a b | rzz θ a b =>
    cases hs
    refine Fit.exp (cs := []) h ?_ (fun c hc => nomatch hc) _
    simpa [QCall.Distinct] using hv
  | r p θ q | rAdj p θ q => cases hs; exact Fit.exp (cs := []) (ps := [(p, q)]) h (List.nodup_singleton q) (fun c hc => nomatch hc) _
  | rCtl cs p θ q | rCtlAdj cs p θ q =>
    cases hs
    exact h.exp (by simp) (fun c hc hq => by
      have := List.nodup_append.1 hv
      exact this.2.2 c hc c (by simpa using hq) rfl) _
  | exp ps θ qs | expAdj ps θ qs => cases hs; exact Fit.exp (cs := []) h (hv.1.sublist (zip_sublist ps qs)) (fun c hc => nomatch hc) _
  | expCtl cs ps θ qs | expCtlAdj cs ps θ qs =>
    cases hs
    have := List.nodup_append.1 hv.1
    exact h.exp (this.2.1.sublist (zip_sublist ps qs)) (fun c hc hq =>
      this.2.2 c hc c ((zip_sublist ps qs).subset hq) rfl) _
  | swap a b => cases hs; exact h.swap a b
  | release q =>
    have hl : δ.live = {q} := by
      by_contra hl
      simp [measures, hl] at hm
    simp only [Device.step, if_pos hl] at hs
    cases hs
    exact Fit.ket _
  | measure ps qs =>
    have hl : ¬ ps.length = qs.length := fun hl => by simp [measures, hl] at hm
    simp only [Device.step, if_neg hl] at hs
    cases hs
  | isZero q => cases hs; rw [use_psi]; exact h
  | assertProb ps qs result prob msg tol =>
    simp only [Device.step] at hs
    split at hs
    · split at hs
      · cases hs; rw [useAll_psi]; exact h
      · cases hs
    · cases hs
  | reset | mresetz | mz | m => cases hm
  | reinit => cases hs; exact Fit.ket _
  | fail => cases hs
  | _ => cases hs; exact h

theorem kraus_within {c : QCall} (hm : Movable c) (v : Bool) : kraus c v ∈ OnQubits c.uses := by
  have h2 : ∀ (F : Module.End ℂ Wave) (A : List ℕ), F ∈ OnQubits A → (if v then F else 0) ∈ OnQubits A := by
    intro F A hF
    split
    · exact hF
    · exact zero_mem _
  have hz : ∀ q, pauliProjL [(.Z, q)] v ∈ OnQubits [q] := fun q => proj_within (by simp) v
  have hx : ∀ q, (if v then gateL matX q else 1) ∈ OnQubits [q] := fun q => by
    split
    · exact gate_within (by simp) _
    · exact one_mem _
  cases c with
  | gate g q => exact h2 _ _ (ctrl_within (by simp) (by simp [QCall.uses]) _)
  | ctl g cs q => exact h2 _ _ (ctrl_within (by simp +contextual [QCall.uses]) (by simp [QCall.uses]) _)
  | sx q => exact h2 _ _ (ctrl_within (by simp) (by simp [QCall.uses]) _)
  | rxx θ a b | ryy θ a b | rzz θ a b => exact h2 _ _ (exp_within (by simp) (by simp [QCall.uses]) _)
  | r p θ q | rAdj p θ q =>
    refine h2 _ _ (exp_within (by simp) (fun p' hp hI => ?_) _)
    rw [List.mem_singleton] at hp
    subst hp
    simp [QCall.uses, hI]
  | rCtl cs p θ q | rCtlAdj cs p θ q =>
    refine h2 _ _ (exp_within (fun c hc => ?_) (fun p' hp hI => ?_) _)
    · have : cs ≠ [] := List.ne_nil_of_mem hc
      simp [QCall.uses, this, hc]
    · rw [List.mem_singleton] at hp
      subst hp
      simp [QCall.uses, hI]
  | exp ps θ qs | expAdj ps θ qs =>
    refine h2 _ _ (exp_within (by simp) (fun p' hp _ => ?_) _)
    exact (zip_sublist ps qs).subset (List.mem_map_of_mem hp)
  | expCtl cs ps θ qs | expCtlAdj cs ps θ qs =>
    refine h2 _ _ (exp_within (fun c hc => ?_) (fun p' hp _ => ?_) _)
    · exact List.mem_append_left _ hc
    · exact List.mem_append_right _ ((zip_sublist ps qs).subset (List.mem_map_of_mem hp))
  | swap a b => exact h2 _ _ (swap_within (by simp [QCall.uses]) (by simp [QCall.uses]))
  | reset q | mresetz q r => exact mul_mem (hx q) (hz q)
  | mz q r | m q => exact hz q
  | measure ps qs => exact proj_within (fun p hp _ => List.mem_map_of_mem hp) v
  | _ => exact h2 _ _ (one_mem _)

theorem apply_put (qs : List ℕ) (U : Wave → Wave) (δ : Device) :
    δ.apply qs U = put (U δ.psi) δ.reg δ.touched (δ.useAll qs) := by
  unfold Device.apply put
  rw [← useAll_reg qs δ, ← useAll_touched qs δ]

/-- A call that does not measure. -/
theorem calm_step {c : QCall} {δ : Device} (hm : Movable c) (hn : measures δ c = none) :
    δ.step c = .ok (reply c true δ, noted c δ,
      put (turning c δ.psi) (kept c true δ.reg) (marked c δ.touched) (δ.useAll c.uses)) := by
  cases c with
  | gate | ctl | sx | rxx | ryy | rzz | r | rAdj | rCtl | rCtlAdj | exp | expAdj | expCtl | expCtlAdj | swap =>
    simp only [Device.step, apply_put]
    rfl
  | measure ps qs =>
    rw [measures, if_pos (show _ = _ from hm)] at hn
    cases hn
  | reset | mresetz | mz | m => cases hn
  | isZero | assertProb | allocate | release | fail | dump | reinit | drawInt | drawDouble => exact hm.elim
  | readResult | writeResult | recordResult | legacyResult | record | legacy | barrier => rfl

theorem kraus_calm {c : QCall} {δ : Device} (hm : Movable c) (hn : measures δ c = none) (v : Bool) :
    kraus c v = if v then turning c else 0 := by
  cases c with
  | measure ps qs =>
    rw [measures, if_pos (show _ = _ from hm)] at hn
    cases hn
  | reset | mresetz | mz | m => cases hn
  | _ => rfl

theorem arm_calm {c : QCall} {δ : Device} (hm : Movable c) (hd : c.Distinct) (hf : Fit δ.psi)
    (hn : measures δ c = none) : δ.step c = .ok (reply c true δ, noted c δ, next c true δ) ∧ weight c true δ = 1 ∧
      weight c false δ = 0 := by
  have hs := calm_step hm hn
  have h1 : Spec.normSq (turning c δ.psi) = 1 := (fit_proper hf hn hd hs).norm
  have hw : weight c true δ = 1 := by
    unfold weight
    rw [kraus_calm hm hn, if_pos rfl, h1]
  refine ⟨?_, hw, ?_⟩
  · unfold next
    rw [hw, kraus_calm hm hn, if_pos rfl, Real.sqrt_one, div_one, one_smul, hs]
  · unfold weight
    rw [kraus_calm hm hn, if_neg (by simp)]
    show Spec.normSq (0 : Wave) = 0
    have := normSq_smul 0 (0 : Wave)
    rwa [zero_smul, map_zero, zero_mul] at this

theorem found_put (ps : List (Pauli × ℕ)) (v : Bool) (δ : Device) :
    found ps v δ = put (pauliPost ps v δ.psi) δ.reg δ.touched (δ.useAll (ps.map Prod.snd)) := by
  unfold found put
  rw [← useAll_reg (ps.map Prod.snd) δ, ← useAll_touched (ps.map Prod.snd) δ]

/-- A call that measures. -/
theorem arm_measures {c : QCall} {δ : Device} {ps : List (Pauli × ℕ)} (hm : Movable c) (hf : Fit δ.psi)
    (hn : measures δ c = some ps) (v : Bool) : finding v δ c = (reply c v δ, next c v δ) ∧
      weight c v δ = pauliProb ps v δ.psi ∧ noted c δ = [] := by
  have hx : ∀ q, Spec.normSq ((if v then gateL matX q else 1) (pauliProjL [(.Z, q)] v δ.psi)) =
      pauliProb [(.Z, q)] v δ.psi := by
    intro q
    rw [pauliProjL_apply]
    cases v
    · rfl
    · exact normSq_ctrl (hf.fin.pauliProj _ _) isom_X List.not_mem_nil
  have hc : ∀ q, (if v then Spec.ctrl [] matX q (pauliPost [(.Z, q)] v δ.psi) else pauliPost [(.Z, q)] v δ.psi) =
      (1 / Real.sqrt (pauliProb [(.Z, q)] v δ.psi) : ℝ) •
        (if v then gateL matX q else 1) (pauliProjL [(.Z, q)] v δ.psi) := by
    intro q
    rw [pauliProjL_apply, pauliPost, real_smul_wave, real_smul_wave]
    cases v
    · rfl
    · exact (gateL matX q).map_smul _ _
  cases c with
  | reset q =>
    cases hn
    have hw : weight (.reset q) v δ = pauliProb [(.Z, q)] v δ.psi := hx q
    refine ⟨?_, hw, rfl⟩
    show (QAns.unit, (found [(.Z, q)] v δ).clear v q) = (QAns.unit, next (.reset q) v δ)
    rw [next, hw, found_put]
    exact congrArg (fun φ => (QAns.unit, put φ δ.reg δ.touched (δ.useAll [q]))) (hc q)
  | mresetz q r =>
    cases hn
    have hw : weight (.mresetz q r) v δ = pauliProb [(.Z, q)] v δ.psi := hx q
    refine ⟨?_, hw, rfl⟩
    show (QAns.unit, ((found [(.Z, q)] v δ).clear v q).store r v) = (QAns.unit, next (.mresetz q r) v δ)
    rw [next, hw, found_put]
    exact congrArg (fun φ => (QAns.unit, put φ (Function.update δ.reg r v) true (δ.useAll [q]))) (hc q)
  | mz q r =>
    cases hn
    have hw : weight (.mz q r) v δ = pauliProb [(.Z, q)] v δ.psi := congrArg Spec.normSq (pauliProjL_apply _ _ _)
    refine ⟨?_, hw, rfl⟩
    show (QAns.unit, (found [(.Z, q)] v δ).store r v) = (QAns.unit, next (.mz q r) v δ)
    rw [next, hw, found_put]
    exact congrArg (fun φ => (QAns.unit, put ((1 / Real.sqrt (pauliProb [(.Z, q)] v δ.psi) : ℝ) • φ)
      (Function.update δ.reg r v) true (δ.useAll [q]))) (pauliProjL_apply _ _ _).symm
  | m q =>
    cases hn
    have hw : weight (.m q) v δ = pauliProb [(.Z, q)] v δ.psi := congrArg Spec.normSq (pauliProjL_apply _ _ _)
    refine ⟨?_, hw, rfl⟩
    show (QAns.ptr (Device.pointer v), found [(.Z, q)] v δ) = (QAns.ptr (Device.pointer v), next (.m q) v δ)
    rw [next, hw, found_put]
    exact congrArg (fun φ => (QAns.ptr (Device.pointer v), put ((1 / Real.sqrt (pauliProb [(.Z, q)] v δ.psi) : ℝ) • φ)
      δ.reg δ.touched (δ.useAll [q]))) (pauliProjL_apply _ _ _).symm
  | measure ps' qs =>
    rw [measures, if_pos (show _ = _ from hm)] at hn
    cases hn
    have hw : weight (.measure ps' qs) v δ = pauliProb (support ps' qs) v δ.psi :=
      congrArg Spec.normSq (pauliProjL_apply _ _ _)
    refine ⟨?_, hw, rfl⟩
    show (QAns.ptr (Device.pointer v), found (support ps' qs) v δ) =
      (QAns.ptr (Device.pointer v), next (.measure ps' qs) v δ)
    rw [next, hw, found_put]
    exact congrArg (fun φ => (QAns.ptr (Device.pointer v),
      put ((1 / Real.sqrt (pauliProb (support ps' qs) v δ.psi) : ℝ) • φ)
      δ.reg δ.touched (δ.useAll ((support ps' qs).map Prod.snd)))) (pauliProjL_apply _ _ _).symm
  | release => exact hm.elim
  | _ => cases hn

/-- What is left of a set of outcomes once something has been recorded. -/
def shifted (es : List Event) (S : Set (List Event × Bool)) : Set (List Event × Bool) := {o | (es ++ o.1, o.2) ∈ S}

/-- **The law of a movable call.** -/
theorem chance_arm {c : QCall} (hm : Movable c) (hd : c.Distinct) {δ : Device} (hf : Fit δ.psi)
    (k : QAns → Prog QCall QAns) (S : Set (List Event × Bool)) : chance (.call c k) δ S =
      weight c true δ * chance (k (reply c true δ)) (next c true δ) (shifted (noted c δ) S) +
        weight c false δ * chance (k (reply c false δ)) (next c false δ) (shifted (noted c δ) S) := by
  cases hn : measures δ c with
  | some ps =>
    obtain ⟨h1, h2, h3⟩ := arm_measures hm hf hn true
    obtain ⟨h4, h5, -⟩ := arm_measures hm hf hn false
    rw [chance, hn, h2, h5, h3]
    dsimp only
    rw [h1, h4]
    rfl
  | none =>
    obtain ⟨h1, h2, h3⟩ := arm_calm hm hd hf hn
    rw [chance, hn]
    dsimp only
    rw [h1, h2, h3, one_mul, zero_mul, add_zero]
    rfl

/-- The weights of a movable call add up to one. -/
theorem weight_add {c : QCall} (hm : Movable c) (hd : c.Distinct) {δ : Device} (hf : Fit δ.psi) :
    weight c true δ + weight c false δ = 1 := by
  cases hn : measures δ c with
  | some ps =>
    rw [(arm_measures hm hf hn true).2.1, (arm_measures hm hf hn false).2.1]
    have hp : (ps.map Prod.snd).Nodup ∧ ∀ p ∈ ps, p.1 ≠ .I := by
      cases c with
      | measure ps' qs =>
        rw [measures, if_pos (show _ = _ from hm)] at hn
        cases hn
        exact ⟨hd, fun p hp => by simpa [support] using (List.mem_filter.1 hp).2⟩
      | release => exact hm.elim
      | reset | mresetz | mz | m => cases hn; simp
      | _ => cases hn
    exact hf.add hp.1 hp.2
  | none =>
    obtain ⟨h1, h2, h3⟩ := arm_calm hm hd hf hn
    rw [h2, h3, add_zero]

/-! ### Two calls -/

theorem weight_nonneg (c : QCall) (v : Bool) (δ : Device) : 0 ≤ weight c v δ := by
  unfold weight
  rw [normSq_eq]
  exact sumIf_nonneg _ _

theorem fit_next {c : QCall} (hm : Movable c) {v : Bool} {δ : Device} (hf : Fit δ.psi) (hw : weight c v δ ≠ 0) :
    Fit (next c v δ).psi := by
  refine ⟨?_, ?_⟩
  · show FinSupp ((1 / Real.sqrt (weight c v δ) : ℝ) • kraus c v δ.psi)
    rw [real_smul_wave]
    exact (OnQubits.finSupp (kraus_within hm v) hf.fin).smul _
  · show Spec.normSq ((1 / Real.sqrt (weight c v δ) : ℝ) • kraus c v δ.psi) = 1
    rw [real_smul_wave, normSq_smul]
    show _ * weight c v δ = 1
    have hp := (weight_nonneg c v δ)
    rw [Complex.normSq_ofReal, div_mul_div_comm, one_mul, Real.mul_self_sqrt hp, one_div, inv_mul_cancel₀ hw]

/-- The weight of one call after another. -/
theorem weight_next {c d : QCall} {v w : Bool} {δ : Device} (hw : weight c v δ ≠ 0) :
    weight c v δ * weight d w (next c v δ) = Spec.normSq (kraus d w (kraus c v δ.psi)) := by
  have h : weight d w (next c v δ) = Spec.normSq (kraus d w ((1 / Real.sqrt (weight c v δ) : ℝ) • kraus c v δ.psi)) :=
    rfl
  rw [h, real_smul_wave, map_smul, normSq_smul, Complex.normSq_ofReal, div_mul_div_comm, one_mul,
    Real.mul_self_sqrt (weight_nonneg c v δ), ← mul_assoc, mul_one_div_cancel hw, one_mul]

theorem weight_zero {c d : QCall} (hm : Movable c) {v w : Bool} {δ : Device} (hf : Fit δ.psi) (hw : weight c v δ = 0) :
    Spec.normSq (kraus d w (kraus c v δ.psi)) = 0 := by
  have h0 : kraus c v δ.psi = 0 := by
    have hfin := OnQubits.finSupp (kraus_within hm v) hf.fin
    funext b
    have hz : ∑ᶠ b, Complex.normSq (kraus c v δ.psi b) = 0 := hw
    have hs : (Function.support fun b => Complex.normSq (kraus c v δ.psi b)).Finite := by
      refine hfin.subset fun b hb => ?_
      simp only [Function.mem_support] at hb ⊢
      intro h0
      exact hb (by rw [h0, map_zero])
    have h1 := single_le_finsum b hs fun b => Complex.normSq_nonneg _
    rw [hz] at h1
    exact Complex.normSq_eq_zero.1 (le_antisymm h1 (Complex.normSq_nonneg _))
  rw [h0, map_zero]
  have := normSq_smul 0 (0 : Wave)
  rwa [zero_smul, map_zero, zero_mul] at this

theorem weight_swap {c d : QCall} (h : Apart c d) {δ : Device} (hf : Fit δ.psi) (v w : Bool) :
    weight c v δ * weight d w (next c v δ) = weight d w δ * weight c v (next d w δ) := by
  have hc : kraus d w (kraus c v δ.psi) = kraus c v (kraus d w δ.psi) :=
    (LinearMap.congr_fun (OnQubits.commute h.qubits (kraus_within h.left v) (kraus_within h.right w)) δ.psi).symm
  have h1 : weight c v δ * weight d w (next c v δ) = Spec.normSq (kraus d w (kraus c v δ.psi)) := by
    by_cases h0 : weight c v δ = 0
    · rw [h0, zero_mul, weight_zero h.left hf h0]
    · exact weight_next h0
  have h2 : weight d w δ * weight c v (next d w δ) = Spec.normSq (kraus c v (kraus d w δ.psi)) := by
    by_cases h0 : weight d w δ = 0
    · rw [h0, zero_mul, weight_zero h.right hf h0]
    · exact weight_next h0
  rw [h1, h2, hc]

theorem psi_next {c d : QCall} {v w : Bool} {δ : Device} (hw : weight c v δ ≠ 0) :
    (next d w (next c v δ)).psi = (1 / Real.sqrt (Spec.normSq (kraus d w (kraus c v δ.psi))) : ℝ) •
      kraus d w (kraus c v δ.psi) := by
  have hp := (weight_nonneg c v δ)
  rw [← weight_next hw, Real.sqrt_mul hp]
  show (1 / Real.sqrt (weight d w (next c v δ)) : ℝ) • kraus d w ((1 / Real.sqrt (weight c v δ) : ℝ) • kraus c v δ.psi) = _
  rw [real_smul_wave, real_smul_wave, real_smul_wave, map_smul, smul_smul]
  congr 1
  rw [← Complex.ofReal_mul, div_mul_div_comm, one_mul, mul_comm (Real.sqrt _)]

theorem kept_comm {c d : QCall} (h : Disjoint (registers c) (registers d)) (v w : Bool) (g : ℕ → Bool) :
    kept d w (kept c v g) = kept c v (kept d w g) := by
  cases c <;> try rfl
  all_goals cases d <;> try rfl
  all_goals
    simp only [registers, Set.disjoint_singleton] at h
    simp only [kept]
    exact Function.update_comm h _ _ _

theorem marked_comm (c d : QCall) (t : Bool) : marked d (marked c t) = marked c (marked d t) := by
  cases c <;> cases d <;> rfl

theorem reply_next {c d : QCall} (h : Disjoint (registers c) (registers d)) (v w : Bool) (δ : Device) :
    reply d w (next c v δ) = reply d w δ := by
  cases d with
  | readResult r =>
    show QAns.bit (kept c v δ.reg r) = QAns.bit (δ.reg r)
    cases c <;> try rfl
    all_goals
      simp only [registers, Set.disjoint_singleton] at h
      simp only [kept, Function.update_of_ne h.symm]
  | _ => rfl

theorem noted_next {c d : QCall} (h : Disjoint (registers c) (registers d)) (v : Bool) (δ : Device) :
    noted d (next c v δ) = noted d δ := by
  have hu : registers d = Set.univ → kept c v δ.reg = δ.reg ∧ marked c δ.touched = δ.touched := by
    intro hd
    rw [hd, Set.disjoint_univ] at h
    cases c with
    | mresetz | mz | writeResult | readResult => exact absurd h (Set.singleton_ne_empty _)
    | _ => exact ⟨rfl, rfl⟩
  cases d with
  | recordResult r tag =>
    obtain ⟨h1, h2⟩ := hu rfl
    show [Event.record (.result (if marked c δ.touched then kept c v δ.reg r else decide (r = 1)) tag)] = _
    rw [h1, h2]
    rfl
  | legacyResult r =>
    obtain ⟨h1, h2⟩ := hu rfl
    show [Event.legacy (.result (if marked c δ.touched then kept c v δ.reg r else decide (r = 1)))] = _
    rw [h1, h2]
    rfl
  | _ => rfl

theorem noted_quiet {c : QCall} (h : Quiet c) (δ : Device) : noted c δ = [] := by
  cases c with
  | recordResult | legacyResult | record | legacy => exact h.elim
  | _ => rfl

theorem next_swap {c d : QCall} (h : Apart c d) {v w : Bool} {δ : Device} (hf : Fit δ.psi)
    (hw : weight c v δ * weight d w (next c v δ) ≠ 0) : next d w (next c v δ) = next c v (next d w δ) := by
  have hc : kraus d w (kraus c v δ.psi) = kraus c v (kraus d w δ.psi) :=
    (LinearMap.congr_fun (OnQubits.commute h.qubits (kraus_within h.left v) (kraus_within h.right w)) δ.psi).symm
  have hw' := hw
  rw [weight_swap h hf] at hw'
  have hp : (next d w (next c v δ)).psi = (next c v (next d w δ)).psi := by
    rw [psi_next (left_ne_zero_of_mul hw), psi_next (left_ne_zero_of_mul hw'), hc]
  have h1 : ∀ (c d : QCall) (v w : Bool), next d w (next c v δ) = put (next d w (next c v δ)).psi
      (kept d w (kept c v δ.reg)) (marked d (marked c δ.touched)) ((δ.useAll c.uses).useAll d.uses) := by
    intro c d v w
    unfold next
    rw [useAll_put, put_put]
    rfl
  rw [h1 c d, h1 d c, hp, kept_comm h.results, marked_comm c d, useAll_comm]

theorem chance_swap {c d : QCall} (h : Apart c d) (k : QAns → QAns → Prog QCall QAns) {δ : Device} (hf : Fit δ.psi)
    (S : Set (List Event × Bool)) : chance (.call c fun a => .call d fun b => k a b) δ S =
      chance (.call d fun b => .call c fun a => k a b) δ S := by
  have hs : ∀ {c d : QCall}, Apart c d → ∀ (k : QAns → QAns → Prog QCall QAns),
      chance (.call c fun a => .call d fun b => k a b) δ S = ∑ v : Bool, ∑ w : Bool,
        (weight c v δ * weight d w (next c v δ)) * chance (k (reply c v δ) (reply d w δ)) (next d w (next c v δ))
          (shifted (noted c δ ++ noted d δ) S) := by
    intro c d h k
    have hv : ∀ v, weight c v δ * chance (.call d fun b => k (reply c v δ) b) (next c v δ) (shifted (noted c δ) S) =
        ∑ w : Bool, (weight c v δ * weight d w (next c v δ)) * chance (k (reply c v δ) (reply d w δ))
          (next d w (next c v δ)) (shifted (noted c δ ++ noted d δ) S) := by
      intro v
      rw [Fintype.sum_bool]
      by_cases h0 : weight c v δ = 0
      · rw [h0]; simp
      · rw [chance_arm h.right h.proper' (fit_next h.left hf h0), mul_add, ← mul_assoc, ← mul_assoc,
          reply_next h.results, reply_next h.results, noted_next h.results]
        simp only [shifted, List.append_assoc]
        rfl
    rw [chance_arm h.left h.proper hf, Fintype.sum_bool, ← hv, ← hv]
  have h' : Apart d c := ⟨h.right, h.left, h.proper', h.proper, h.qubits.symm, h.results.symm, h.quiet.symm⟩
  rw [hs h, hs h' (fun b a => k a b), Finset.sum_comm]
  refine Finset.sum_congr rfl fun w _ => Finset.sum_congr rfl fun v _ => ?_
  have hn : noted c δ ++ noted d δ = noted d δ ++ noted c δ := by
    rcases h.quiet with hq | hq <;> simp [noted_quiet hq]
  rw [← weight_swap h hf, hn]
  by_cases h0 : weight c v δ * weight d w (next c v δ) = 0
  · rw [h0, zero_mul, zero_mul]
  · rw [next_swap h hf h0]

theorem chance_drop {c : QCall} (hm : Movable c) (hd : c.Distinct) (hq : Quiet c) {δ : Device} (hf : Fit δ.psi)
    (S : Set (List Event × Bool)) : chance (.call c fun _ => .done) δ S = chance .done δ S := by
  rw [chance_arm hm hd hf, noted_quiet hq, show shifted [] S = S from rfl]
  show weight c true δ * chance .done δ S + weight c false δ * chance .done δ S = _
  rw [← add_mul, weight_add hm hd hf, one_mul]

theorem chance_under {c : QCall} (hd : c.Distinct) {k k' : QAns → Prog QCall QAns} {δ : Device} (hf : Fit δ.psi)
    (h : ∀ a (δ' : Device) S, Fit δ'.psi → chance (k a) δ' S = chance (k' a) δ' S) (S : Set (List Event × Bool)) :
    chance (.call c k) δ S = chance (.call c k') δ S := by
  rw [chance, chance]
  cases hn : measures δ c with
  | some ps =>
    dsimp only
    have hv : ∀ v, pauliProb ps v δ.psi * chance (k (finding v δ c).1) (finding v δ c).2 S =
        pauliProb ps v δ.psi * chance (k' (finding v δ c).1) (finding v δ c).2 S := by
      intro v
      rcases (pauliProb_nonneg ps v δ.psi).eq_or_lt with h0 | h0
      · rw [← h0, zero_mul, zero_mul]
      · rw [h _ _ _ (hf.finding hn h0)]
    rw [hv, hv]
  | none =>
    dsimp only
    cases hs : δ.step c with
    | error m => rfl
    | ok x => exact h _ _ _ (fit_proper hf hn hd hs)

theorem chance_rearranged {p p' : Prog QCall QAns} (h : Rearranged p p') : ∀ {δ : Device}, Fit δ.psi →
    ∀ S, chance p δ S = chance p' δ S := by
  induction h with
  | refl => intros; rfl
  | swap k h => exact fun hf S => chance_swap h k hf S
  | drop hm hd hq => exact fun hf S => chance_drop hm hd hq hf S
  | under hd _ ih => exact fun hf S => chance_under hd hf (fun a δ' S hf' => ih a hf' S) S
  | symm _ ih => exact fun hf S => (ih hf S).symm
  | trans _ _ ih ih' => exact fun hf S => (ih hf S).trans (ih' hf S)

end Qir.Back.Arr
