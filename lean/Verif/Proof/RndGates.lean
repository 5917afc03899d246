import Verif.Proof.RndFlush

/-! With rounded arithmetic every gate acts on the represented state as its textbook operator, up to a
bounded number of passes of error. -/

noncomputable section
namespace Qir.Rnd
open Spec Function Sim Tol

variable {A : Arith}

/-- `s'` stands for a state at most `d` passes away from `U` applied to the state `s` stands for, up
to a global phase. -/
structure Step (A : Arith) (s s' : Sim) (U : Module.End ℂ Wave) (d : ℕ) : Prop where
  wf : Qir.WF s'
  idMap : s'.idMap = s.idMap
  rng : s'.rng = s.rng
  near : ∃ c : ℂ, ‖c‖ = 1 ∧ Cost A s.idMap.keys.length d s'.opQ s.opQ (abs A s') (c • U (abs A s))

theorem Step.after {s s' s'' : Sim} {U : Module.End ℂ Wave} {d d' n : ℕ} (hf : Fine A) (hU : Iso U)
    (h : Same A s s' d) (h' : Step A s' s'' U d') (hd : d + d' ≤ n) : Step A s s'' U n := by
  refine ⟨h'.wf, h'.idMap.trans h.idMap, h'.rng.trans h.rng, ?_⟩
  obtain ⟨c, hc, hn⟩ := h'.near
  refine ⟨c, hc, ?_⟩
  rw [h.idMap] at hn
  exact (hn.trans ((h.near.map hU).smul hc) hf).mono (by omega)

theorem Step.mono {s s' : Sim} {U : Module.End ℂ Wave} {d d' : ℕ} (h : Step A s s' U d)
    (hd : d ≤ d') : Step A s s' U d' := by
  obtain ⟨c, hc, hn⟩ := h.near
  exact ⟨h.wf, h.idMap, h.rng, c, hc, hn.mono hd⟩

theorem Step.phase {s s' : Sim} {U : Module.End ℂ Wave} {d : ℕ} (hw : Qir.WF s')
    (hm : s'.idMap = s.idMap) (hr : s'.rng = s.rng) (c : ℂ) (hc : ‖c‖ = 1)
    (h : Cost A s.idMap.keys.length d s'.opQ s.opQ (abs A s') (c • U (abs A s))) : Step A s s' U d :=
  ⟨hw, hm, hr, c, hc, h⟩

theorem Step.one {s s' : Sim} {U : Module.End ℂ Wave} {d : ℕ} (hw : Qir.WF s')
    (hm : s'.idMap = s.idMap) (hr : s'.rng = s.rng)
    (h : Cost A s.idMap.keys.length d s'.opQ s.opQ (abs A s') (U (abs A s))) : Step A s s' U d :=
  ⟨hw, hm, hr, 1, by simp, by simpa using h⟩

theorem abs_gate_eq {s s' : Sim} (hm : s'.idMap = s.idMap) {t : ℕ} (ht : (s.idMap.get t).isSome)
    (ho : ∀ q, q ≠ t → pend A s' q = pend A s q) {U U' : Mat2} (c : ℂ)
    (hU : U * pend A s t = pend A s' t * U') (hb : base s' = c • gateL U' t (base s)) :
    abs A s' = c • gateL U t (abs A s) := by
  rw [pull_gate hm ht ho c hU, ← hb]; rfl

theorem Cost.of_eq {n : ℕ} {q : Queue} {ψ φ : Wave} (hφ : FinSupp φ) (e : ψ = φ) : Cost A n 0 q q ψ φ :=
  ⟨0, by omega, .of_eq hφ e⟩

/-- Only the gate pending on one qubit changes, and it becomes nearly `U` after the old one. -/
theorem abs_queue {s s' : Sim} (hm : s'.idMap = s.idMap) {t : ℕ} (ht : (s.idMap.get t).isSome)
    (ho : ∀ q, q ≠ t → pend A s' q = pend A s q) {U : Mat2} (hb : base s' = base s) {d : ℝ} (hd : 0 ≤ d)
    (hB : Bound (d ^ 2) (pend A s' t - U * pend A s t)) :
    Near (d * len (base s)) (abs A s') (gateL U t (abs A s)) := by
  have ht' : (s'.idMap.get t).isSome := by rw [hm]; exact ht
  have e1 : gateL U t (abs A s) = pendL (update (pend A s) t 1) s.idMap.keys
      (gateL (U * pend A s t) t (base s)) := by
    rw [abs_split ht, ← Module.End.mul_apply (gateL U t), pendL_update_comm, Module.End.mul_apply,
      ← Module.End.mul_apply (gateL U t), gateL_mul]
  rw [e1, abs_split ht', update_pend_congr ho, hm, hb]
  refine (near_ctrl (by simp) hd hB (finSupp_base s)).map (iso_pendL ?_ _)
  intro q
  by_cases hq : q = t
  · subst hq; rw [update_self]; exact isom_one
  · rw [update_of_ne hq]; exact isom_pend s q

/-- The same, counted in passes. -/
theorem queue_cost (hf : Fine A) {s s' : Sim} (hm : s'.idMap = s.idMap) {t : ℕ} (ht : (s.idMap.get t).isSome)
    (ho : ∀ q, q ≠ t → pend A s' q = pend A s q) {U : Mat2} (hb : base s' = base s)
    (hB : Bound (A.eps ^ 2) (pend A s' t - U * pend A s t)) {n : ℕ} {q q' : Queue} (hq : q' = q) (hU : Isom U) :
    Cost A n 1 q' q (abs A s') (gateL U t (abs A s)) := by
  have h := abs_queue hm ht ho hb hf.nonneg hB
  subst hq
  refine ⟨1, by omega, h.fin, h.fin', ?_⟩
  intro hl
  rw [(iso_gate hU t).len (finSupp_abs s), len_abs] at hl
  have h1 : 2 * A.eps * √2 ≤ cost A n := le_unit (by have := hf.pos; linarith) n
  have h2 : (1 : ℝ) ≤ √2 := Real.one_le_sqrt.2 (by norm_num)
  have h3 := hf.pos
  have h4 := h.le
  have h5 := cost_nonneg hf n
  have h6 : A.eps * len (base s) ≤ A.eps * (3 / 2) := mul_le_mul_of_nonneg_left (by push_cast at hl; linarith) h3.le
  push_cast
  nlinarith

theorem bound_turn {ε : ℝ} {φ : ℝ} (h : |φ| ≤ 2 * ε) (flip : Bool) : Bound (ε ^ 2) (1 - rotMat flip φ) := by
  rw [rotMat_rot, ← matRot_one flip, matRot_sub]
  refine (bound_rot _ _ _).mono ?_
  have h1 := Real.one_sub_sq_div_two_le_cos (x := φ / 2)
  have h2 := Real.sin_sq_add_cos_sq (φ / 2)
  have h3 := sq_le_sq' (abs_le.1 h).1 (abs_le.1 h).2
  nlinarith

/-- The angle stored by `rx` and `ry` is within the tolerance of the sum. -/
def AngleOk (A : Arith) (q : IMap ℝ) (t : ℕ) (θ : ℝ) : Prop :=
  ∀ a, q.get t = some a → A.u * |a + θ| + A.eta ≤ A.eps

theorem addAngle_get (q : IMap ℝ) (t : ℕ) (θ : ℝ) (r : ℕ) :
    (addAngle A q t θ).get r = if r = t then
      (match q.get t with
        | some a => if |A.fl (a + θ)| ≤ A.eps then none else some (A.fl (a + θ))
        | none => some θ)
      else q.get r := by
  unfold addAngle
  cases h : q.get t with
  | none => simp [IMap.get_insert]
  | some a =>
    simp only [nearlyZeroR_iff]
    by_cases h0 : |A.fl (a + θ)| ≤ A.eps
    · simp only [h0, if_true, IMap.get_remove, IMap.get_modify]
      split <;> simp
    · simp only [h0, if_false, IMap.get_modify, h, Option.map_some]

theorem optRx_add (q : IMap ℝ) (t : ℕ) (θ : ℝ) (hf : Fine A) (ha : AngleOk A q t θ) :
    Bound (A.eps ^ 2) (optRx ((addAngle A q t θ).get t) - matRx θ * optRx (q.get t)) := by
  rw [addAngle_get]
  simp only [if_true]
  have h0 := hf.pos
  cases hq : q.get t with
  | none => simp only [optRx_some, optRx_none, mul_one, sub_self]; exact bound_zero (by positivity)
  | some a =>
    have h1 := (A.fl_err (a + θ)).trans (ha a hq)
    simp only [optRx_some, Rx_Rx]
    rw [add_comm θ a]
    split
    · rename_i h
      rw [optRx_none]
      refine bound_turn (ε := A.eps) ?_ false
      rw [abs_le] at h1 h ⊢
      constructor <;> linarith [h1.1, h1.2, h.1, h.2]
    · rw [optRx_some]
      have e : matRx (A.fl (a + θ)) - matRx (a + θ) = (1 - matRx (a + θ - A.fl (a + θ))) * matRx (A.fl (a + θ)) := by
        rw [sub_mul, one_mul, Rx_Rx]; congr 2; ring
      rw [e]
      refine (bound_turn (ε := A.eps) ?_ false).mul (isom_Rx _)
      rw [abs_sub_comm]; linarith

theorem optRy_add (q : IMap ℝ) (t : ℕ) (θ : ℝ) (hf : Fine A) (ha : AngleOk A q t θ) :
    Bound (A.eps ^ 2) (optRy ((addAngle A q t θ).get t) - matRy θ * optRy (q.get t)) := by
  rw [addAngle_get]
  simp only [if_true]
  have h0 := hf.pos
  cases hq : q.get t with
  | none => simp only [optRy_some, optRy_none, mul_one, sub_self]; exact bound_zero (by positivity)
  | some a =>
    have h1 := (A.fl_err (a + θ)).trans (ha a hq)
    simp only [optRy_some, Ry_Ry]
    rw [add_comm θ a]
    split
    · rename_i h
      rw [optRy_none]
      refine bound_turn (ε := A.eps) ?_ true
      rw [abs_le] at h1 h ⊢
      constructor <;> linarith [h1.1, h1.2, h.1, h.2]
    · rw [optRy_some]
      have e : matRy (A.fl (a + θ)) - matRy (a + θ) = (1 - matRy (a + θ - A.fl (a + θ))) * matRy (A.fl (a + θ)) := by
        rw [sub_mul, one_mul, Ry_Ry]; congr 2; ring
      rw [e]
      refine (bound_turn (ε := A.eps) ?_ true).mul (isom_Ry _)
      rw [abs_sub_comm]; linarith

theorem x_step (hf : Fine A) {s : Sim} (hw : Qir.WF s) {t : ℕ} (ht : (s.idMap.get t).isSome) :
    ∃ s', Rnd.x A t s = .ok s' ∧ Step A s s' (gateL matX t) 1 := by
  unfold Rnd.x
  simp only
  have key : ∀ (op : OpCode) (U' : Mat2), opMat op = U' →
      U' = (if s.hFlag.testBit t then matZ else matX) →
      ∃ s', Rnd.enqueueOp A t [] op { s with ryQ := s.ryQ.modify t (fun a => a * (-1)) } = .ok s' ∧
        Step A s s' (gateL matX t) 1 := by
    intro op U' hop hU'
    obtain ⟨st, q, hs, hb, hv⟩ := enqueueOp_spec hf
      (s := { s with ryQ := s.ryQ.modify t (fun a => a * (-1)) }) hw.b op (single_ok ht)
    refine ⟨_, hs, Step.phase (d := 1) ?_ rfl rfl 1 (by simp) ?_⟩
    · exact hw.resign rfl hb rfl (fun q => Or.inl rfl) (fun q => isSome_neg _ _ _)
    · refine abs_gate ?_ ht (U := matX) (U' := U') (c := 1) ?_ ?_ ?_
      · rfl
      · intro r hr
        simp [pend, IMap.get_modify, hr]
      · simp only [pend, IMap.get_modify_same]
        rw [effRy_neg_right, optRy_anti X_Ry, optRx_X, optH_swap X_H, hU']
        simp only [mul_assoc]
      · rw [one_smul, ← hop]; exact hv
  cases hh : s.hFlag.testBit t
  · simpa using key .X matX rfl (by simp [hh])
  · simpa using key .Z matZ rfl (by simp [hh])

theorem y_step (hf : Fine A) {s : Sim} (hw : Qir.WF s) {t : ℕ} (ht : (s.idMap.get t).isSome) :
    ∃ s', Rnd.y A t s = .ok s' ∧ Step A s s' (gateL matY t) 1 := by
  unfold Rnd.y
  simp only
  obtain ⟨st, q, hs, hb, hv⟩ := enqueueOp_spec hf
    (s := { s with rxQ := s.rxQ.modify t (fun a => a * (-1)) }) hw.b .Y (single_ok ht)
  refine ⟨_, hs, Step.phase (d := 1) ?_ rfl rfl (if s.hFlag.testBit t then -1 else 1)
    (by split <;> simp) ?_⟩
  · exact hw.resign rfl hb rfl (fun q => get_neg _ _ _) (fun q => rfl)
  · refine abs_gate ?_ ht (U := matY) (U' := if s.hFlag.testBit t then -matY else matY) ?_ _ ?_ ?_
    · rfl
    · intro r hr
      simp [pend, IMap.get_modify, hr]
    · simp only [pend, IMap.get_modify_same]
      rw [effRy_neg_left, optRy_Y, optRx_anti Y_Rx, optH_swap Y_H]
      simp only [mul_assoc]
    · have hv' : (if s.hFlag.testBit t then (-1 : ℂ) else 1) •
          gateL (if s.hFlag.testBit t then -matY else matY) t (base s) = gateL matY t (base s) := by
        split
        · funext b
          simp only [gateL_apply_apply, Pi.smul_apply, smul_eq_mul, Matrix.neg_apply]
          ring
        · simp
      rw [hv']
      exact hv

theorem z_step (hf : Fine A) {s : Sim} (hw : Qir.WF s) {t : ℕ} (ht : (s.idMap.get t).isSome) :
    ∃ s', Rnd.z A t s = .ok s' ∧ Step A s s' (gateL matZ t) 1 := by
  unfold Rnd.z
  simp only
  have key : ∀ (op : OpCode) (U' : Mat2), opMat op = U' →
      U' = (if s.hFlag.testBit t then matX else matZ) →
      ∃ s', Rnd.enqueueOp A t [] op { s with
          ryQ := s.ryQ.modify t (fun a => a * (-1))
          rxQ := s.rxQ.modify t (fun a => a * (-1)) } = .ok s' ∧
        Step A s s' (gateL matZ t) 1 := by
    intro op U' hop hU'
    obtain ⟨st, q, hs, hb, hv⟩ := enqueueOp_spec hf
      (s := { s with
        ryQ := s.ryQ.modify t (fun a => a * (-1))
        rxQ := s.rxQ.modify t (fun a => a * (-1)) }) hw.b op (single_ok ht)
    refine ⟨_, hs, Step.phase (d := 1) ?_ rfl rfl 1 (by simp) ?_⟩
    · exact hw.resign rfl hb rfl (fun q => get_neg _ _ _) (fun q => isSome_neg _ _ _)
    · refine abs_gate ?_ ht (U := matZ) (U' := U') (c := 1) ?_ ?_ ?_
      · rfl
      · intro r hr
        simp [pend, IMap.get_modify, hr]
      · simp only [pend, IMap.get_modify_same]
        rw [effRy_neg_left, effRy_neg_right, optRy_anti Z_Ry, optRx_anti Z_Rx, optH_swap Z_H, hU']
        simp only [mul_assoc]
      · rw [one_smul, ← hop]; exact hv
  cases hh : s.hFlag.testBit t
  · simpa using key .Z matZ rfl (by simp [hh])
  · simpa using key .X matX rfl (by simp [hh])

/-! ### Hadamard -/

theorem h_step (hf : Fine A) {s : Sim} (hw : Qir.WF s) {t : ℕ}
    (ht : (s.idMap.get t).isSome) :
    ∃ s', Rnd.h A t s = .ok s' ∧ Step A s s' (gateL matH t) 5 := by
  unfold Rnd.h
  simp only
  have hw1 : Qir.WF { s with ryQ := s.ryQ.modify t (fun a => a * (-1)) } :=
    hw.resign rfl hw.b rfl (fun q => Or.inl rfl) (fun q => isSome_neg _ _ _)
  obtain ⟨s2, h2, hs2, hc2⟩ := flushIf_spec hf .HRx [t] (s.rxQ.containsKey t) hw1
  rw [h2]
  simp only [ok_bind, pure_ok]
  have hm2 : s2.idMap = s.idMap := hs2.idMap
  have hw3 : Qir.WF { s2 with hFlag := setBit s2.hFlag t (!s2.hFlag.testBit t) } := by
    refine ⟨hs2.wf.b, ?_⟩
    intro q hq
    by_cases hqt : q = t
    · subst hqt; simp only [hm2]; exact ht
    · apply hs2.wf.queued
      rw [hasQueued_eq] at hq ⊢
      simpa [testBit_setBit, hqt] using hq
  refine ⟨_, rfl, ?_⟩
  have ht2 : (s2.idMap.get t).isSome := by rw [hm2]; exact ht
  cases hrx : s.rxQ.get t with
  | none =>
    rw [IMap.containsKey_eq, hrx] at hc2
    simp only [Option.isSome_none, Bool.false_eq_true, if_false] at hc2
    subst hc2
    refine Step.mono (Step.one hw3 hm2 hs2.rng (Cost.of_eq ((iso_gate isom_H t).fin (finSupp_abs s)) ?_)) (by omega)
    rw [← one_smul ℂ (gateL matH t (abs A s))]
    refine abs_gate_eq ?_ ht (U := matH) (U' := 1) (c := 1) ?_ ?_ ?_
    · rfl
    · intro r hr
      simp [pend, IMap.get_modify, testBit_setBit, hr]
    · simp only [pend, IMap.get_modify_same, testBit_setBit, if_true, hrx, optRx_none, one_mul, effRy_none_left]
      rw [optRy_anti H_Ry, mul_one]
      congr 1
      cases s.hFlag.testBit t
      · simp
      · simpa using H_H
    · rw [one_smul, gateL_one]; rfl
  | some b =>
    rw [IMap.containsKey_eq, hrx] at hc2
    simp only [Option.isSome_some, if_true] at hc2
    have hh2 : s2.hFlag.testBit t = false := by rw [hc2.h]; simp
    have hrx2 : s2.rxQ.get t = none := by rw [hc2.rx]; simp
    have hry2 : s2.ryQ.get t =
        (effRy A (s.rxQ.get t) (s.ryQ.get t)).map (fun a => a * (-1)) := by
      rw [hc2.ry, ← effRy_neg_right]; simp [IMap.get_modify]
    generalize hE : effRy A (s.rxQ.get t) (s.ryQ.get t) = E at hry2
    obtain ⟨K, K', hK, hK2, hK3, hI⟩ : ∃ K K' : Mat2,
        K * optRy E = optRy (E.map (fun a => a * (-1))) ∧
        K' * optRy (E.map (fun a => a * (-1))) =
          optRy (E.map (fun a => a * (-1))) * matH ∧
        K' * K = matH ∧ Isom K' := by
      cases E with
      | none => exact ⟨1, matH, by simp, by simp, by simp, isom_H⟩
      | some a =>
        refine ⟨matRy (-(2 * a)), matH * matRy (2 * a), ?_, ?_, ?_, isom_H.mul (isom_Ry _)⟩
        · simp only [optRy_some, Option.map_some, Ry_Ry]; congr 1; ring
        · simp only [optRy_some, Option.map_some]
          rw [mul_assoc, Ry_Ry, show 2 * a + a * (-1) = a by ring, H_Ry, show a * (-1) = -a by ring]
        · rw [mul_assoc, Ry_Ry, show 2 * a + -(2 * a) = 0 by ring, Ry_zero, mul_one]
    have e1 : abs A { s with ryQ := s.ryQ.modify t (fun a => a * (-1)) } =
        (1 : ℂ) • gateL K t (abs A s) := by
      refine abs_gate_eq ?_ ht (U := K) (U' := 1) (c := 1) ?_ ?_ ?_
      · rfl
      · intro r hr
        simp [pend, IMap.get_modify, hr]
      · simp only [pend, IMap.get_modify_same, mul_one]
        rw [effRy_neg_right, hE, ← mul_assoc, hK]
      · rw [one_smul, gateL_one]; rfl
    have e2 : abs A { s2 with hFlag := setBit s2.hFlag t (!s2.hFlag.testBit t) } =
        (1 : ℂ) • gateL K' t (abs A s2) := by
      refine abs_gate_eq ?_ ht2 (U := K') (U' := 1) (c := 1) ?_ ?_ ?_
      · rfl
      · intro r hr
        simp [pend, testBit_setBit, hr]
      · simp only [pend, testBit_setBit, if_true, hh2, hrx2, hry2, optRx_none, optH_false, mul_one, effRy_none_left,
          Bool.not_false, optH_true, one_mul]
        exact hK2
      · rw [one_smul, gateL_one]; rfl
    refine ⟨hw3, hm2, hs2.rng, 1, by simp, ?_⟩
    have hn := hs2.near.map (iso_gate hI t)
    rw [e1, one_smul, ← Module.End.mul_apply, gateL_mul, hK3] at hn
    rw [e2, one_smul, one_smul]
    exact hn

/-! ### Rotations kept in the queues -/

theorem rx_step (hf : Fine A) {s : Sim} (hw : Qir.WF s) {t : ℕ}
    (ht : (s.idMap.get t).isSome) (θ : ℝ)
    (ha : s.hFlag.testBit t = false → s.ryQ.get t = none → AngleOk A s.rxQ t θ) :
    ∃ s', Rnd.rx A θ t s = .ok s' ∧ Step A s s' (gateL (matRx θ) t) 6 := by
  unfold Rnd.rx
  obtain ⟨s1, h1, hs1, hc1⟩ := flushIf_spec hf .HRxRy [t] (s.hFlag.testBit t || s.ryQ.containsKey t) hw
  rw [h1]
  simp only [ok_bind, pure_ok]
  have hq : s1.hFlag.testBit t = false ∧ s1.ryQ.get t = none ∧ AngleOk A s1.rxQ t θ := by
    split at hc1
    · refine ⟨by rw [hc1.h]; simp, by rw [hc1.ry]; simp, ?_⟩
      intro a h
      rw [hc1.rx] at h
      simp at h
    · rename_i h
      rw [hc1]
      simp only [IMap.containsKey_eq, Bool.or_eq_true, not_or, Bool.not_eq_true,
        Option.isSome_eq_false_iff, Option.isNone_iff_eq_none] at h
      exact ⟨h.1, h.2, ha h.1 h.2⟩
  have ht1 : (s1.idMap.get t).isSome := by rw [hs1.idMap]; exact ht
  refine ⟨_, rfl, Step.after hf (iso_gate (isom_Rx θ) t) hs1
    (Step.one (s' := { s1 with rxQ := addAngle A s1.rxQ t θ }) (d := 1) ⟨hs1.wf.b, ?_⟩ rfl rfl ?_) (by simp)⟩
  · intro q hq
    by_cases hqt : q = t
    · subst hqt; exact ht1
    · apply hs1.wf.queued
      rw [hasQueued_eq] at hq ⊢
      simpa [addAngle_get, hqt] using hq
  · refine queue_cost hf ?_ ht1 ?_ ?_ ?_ rfl (isom_Rx θ)
    · rfl
    · intro r hr
      simp [pend, addAngle_get, hr]
    · rfl
    · simp only [pend, hq.1, hq.2.1, effRy_none_right, optRy_none, optH_false, one_mul, mul_one]
      exact optRx_add _ _ _ hf hq.2.2

/-- `ry` when no computed half-turn about X is queued on the same qubit. -/
theorem ry_step (hf : Fine A) {s : Sim} (hw : Qir.WF s) {t : ℕ}
    (ht : (s.idMap.get t).isSome) (θ : ℝ) (hok : ¬ HalfTurn A (s.rxQ.get t)) (ha : AngleOk A s.ryQ t θ) :
    ∃ s', Rnd.ry A θ t s = .ok s' ∧ Step A s s' (gateL (matRy θ) t) 1 := by
  unfold Rnd.ry
  refine ⟨_, rfl, Step.one (s' := { s with ryQ := addAngle A s.ryQ t θ }) ⟨hw.b, ?_⟩ rfl rfl ?_⟩
  · intro q hq
    by_cases hqt : q = t
    · subst hqt; exact ht
    · apply hw.queued
      rw [hasQueued_eq] at hq ⊢
      simpa [addAngle_get, hqt] using hq
  · refine queue_cost hf ?_ ht ?_ ?_ ?_ rfl (isom_Ry θ)
    · rfl
    · intro r hr
      simp [pend, addAngle_get, hr]
    · rfl
    · simp only [pend, effRy, if_neg hok]
      rw [← mul_assoc (matRy θ), ← sub_mul]
      refine (optRy_add _ _ _ hf ha).mul (Isom.mul ?_ ?_)
      · cases s.rxQ.get t with
        | none => exact isom_one
        | some a => exact isom_Rx a
      · cases s.hFlag.testBit t
        · exact isom_one
        · exact isom_H

/-! ### Gates that flush their operands first -/

/-- Enqueue a controlled operation whose controls have nothing pending. -/
theorem enqueue_step (hf : Fine A) {s : Sim} (hw : Qir.WF s) {t : ℕ} {cs : List ℕ} (hok : OpndsOk s.idMap cs t)
    (op : OpCode) (hcs : ∀ c ∈ cs, pend A s c = 1) {U : Mat2}
    (hU : U * pend A s t = pend A s t * opMat op) :
    ∃ s', Rnd.enqueueOp A t cs op s = .ok s' ∧ Step A s s' (ctrlL cs U t) 1 := by
  obtain ⟨st, q, hs, hb, hv⟩ := enqueueOp_spec hf hw.b op hok
  refine ⟨_, hs, Step.one ⟨hb, hw.queued⟩ rfl rfl ?_⟩
  refine abs_ctrl ?_ (hok.2 t (by simp)) hok.not_mem ?_ hcs hU ?_
  · rfl
  · intro q; rfl
  · exact hv

theorem diagGate_step (hf : Fine A) {s : Sim} (hw : Qir.WF s) {t : ℕ}
    (ht : (s.idMap.get t).isSome) (op : OpCode) :
    ∃ s', Rnd.diagGate A op t s = .ok s' ∧ Step A s s' (gateL (opMat op) t) 6 := by
  unfold diagGate
  obtain ⟨s1, h1, hs1, hc1⟩ := maybeFlush_spec hf [t] hw
  have ht1 : (s1.idMap.get t).isSome := by rw [hs1.idMap]; exact ht
  obtain ⟨s2, h2, hs2⟩ := enqueue_step hf hs1.wf (single_ok ht1) op (U := opMat op) (by simp)
    (by rw [hc1.pend_eq_one (by simp)]; simp)
  rw [h1]
  exact ⟨s2, h2, Step.after hf (iso_gate (isom_opMat op) t) hs1 hs2 (by simp)⟩

theorem mcDiagGate_step (hf : Fine A) {s : Sim} (hw : Qir.WF s) {t : ℕ} {cs : List ℕ}
    (hok : OpndsOk s.idMap cs t) (op : OpCode) :
    ∃ s', Rnd.mcDiagGate A op cs t s = .ok s' ∧ Step A s s' (ctrlL cs (opMat op) t)
      (5 * cs.length + 6) := by
  unfold mcDiagGate
  obtain ⟨s1, h1, hs1, hc1⟩ := maybeFlush_spec hf cs hw
  obtain ⟨s2, h2, hs2, hc2⟩ := maybeFlush_spec hf [t] hs1.wf
  have hs := hs1.trans hs2 hf
  obtain ⟨s3, h3, hs3⟩ := enqueue_step hf hs2.wf (opndsOk_congr hs.idMap hok) op (U := opMat op)
    (fun c hc => pend_of_not_queued (hc2.mono_queued (hc1.not_queued hc)))
    (by rw [hc2.pend_eq_one (by simp)]; simp)
  simp only [h1, ok_bind, h2]
  exact ⟨s3, h3, Step.after hf (iso_ctrl (isom_opMat op) hok.not_mem) hs hs3 (by simp)⟩

theorem norm_of_isom_phase {φ : ℂ} (h : Isom (matPhase φ)) : ‖φ‖ = 1 := by
  have h1 := h 0 1
  simp [matPhase, mat] at h1
  have h2 := Complex.normSq_eq_norm_sq φ
  rw [h1] at h2
  nlinarith [norm_nonneg φ]

theorem phase_reach (hf : Fine A) {m : IMap ℕ} {st : List (ℕ × ℂ)} (hc : Core m st) {cs csl : List ℕ} {t tl : ℕ}
    (hcsl : List.Forall₂ (fun i l => m.get i = some l) cs csl) (htl : m.get t = some tl) (hn : t ∉ cs) (φ' φ : ℂ)
    (hd : ‖φ' - φ‖ ≤ 30 * A.v) (hφ : ‖φ‖ = 1) :
    Core m (st.map (fun e => if csl.all (fun c => e.1.testBit c) then phaseTransform A φ' e tl else e)) ∧
    Reach A m.keys.length 1
      (view m (st.map (fun e => if csl.all (fun c => e.1.testBit c) then phaseTransform A φ' e tl else e)))
      (ctrlL cs (matPhase φ) t (view m st)) := by
  have hst : view m (st.map (fun e =>
      if csl.all (fun c => e.1.testBit c) then Sim.phaseTransform φ e tl else e)) =
      ctrlL cs (matPhase φ) t (view m st) := by
    apply view_map_of
    intro e _
    exact entryWave_phase hcsl htl hn 1 φ e
  rw [← hst]
  refine noise_reach hf (Noise.map ?_) (hc.mapKey _ ?_)
  · intro e _
    split
    · exact noise_phase hf hd hφ e tl
    · exact noise_refl _
  · intro e; split <;> rfl

theorem mcphase_near (hf : Fine A) {s : Sim} (hw : Qir.WF s) {t : ℕ} {cs : List ℕ}
    (hok : OpndsOk s.idMap cs t) (φ' φ : ℂ) (hd : ‖φ' - φ‖ ≤ 30 * A.v) (hφ : Isom (matPhase φ)) :
    ∃ s', Rnd.mcphase A cs φ' t s = .ok s' ∧ Step A s s' (ctrlL cs (matPhase φ) t)
      (5 * cs.length + 6) := by
  unfold mcphase
  obtain ⟨s1, h1, hs1, hc1, _⟩ := flushQueue_spec hf .HRxRy cs hw
  obtain ⟨s2, h2, hs2, hc2, ho2⟩ := flushQueue_spec hf .HRxRy [t] hs1.wf
  have hs := hs1.trans hs2 hf
  have hok2 := opndsOk_congr hs.idMap hok
  obtain ⟨tl, csl, hr, htl, hcsl⟩ := resolveAndCheck_ok hok2
  simp only [h1, ok_bind, h2, hr, pure_ok]
  obtain ⟨hcore, hreach⟩ := phase_reach hf hs2.wf.b.core hcsl htl hok.not_mem φ' φ hd (norm_of_isom_phase hφ)
  refine ⟨_, rfl, Step.after hf (iso_ctrl hφ hok.not_mem) hs
    (Step.one (d := 1) ⟨⟨hcore, hs2.wf.b.ops⟩, hs2.wf.queued⟩ ?_ ?_ ?_)
    (by simp)⟩
  · rfl
  · rfl
  · refine abs_ctrl ?_ (hok2.2 t (by simp)) hok.not_mem ?_
      (fun c hc => pend_of_not_queued (hc2.mono_queued (hc1.not_queued hc))) ?_ ?_
      (U' := matPhase φ)
    · rfl
    · intro q; rfl
    · rw [hc2.pend_eq_one (by simp)]; simp
    · simp only [base, ho2, opsL_nil, Module.End.one_apply]
      exact ⟨1, by simp, hreach⟩

theorem mcphase_step (hf : Fine A) {s : Sim} (hw : Qir.WF s) {t : ℕ} {cs : List ℕ}
    (hok : OpndsOk s.idMap cs t) (φ : ℂ) (hφ : Isom (matPhase φ)) :
    ∃ s', Rnd.mcphase A cs φ t s = .ok s' ∧ Step A s s' (ctrlL cs (matPhase φ) t) (5 * cs.length + 6) :=
  mcphase_near hf hw hok φ φ (by rw [sub_self, norm_zero]; have := A.v_nonneg; linarith) hφ

theorem mch_step (hf : Fine A) {s : Sim} (hw : Qir.WF s) {t : ℕ} {cs : List ℕ}
    (hok : OpndsOk s.idMap cs t) :
    ∃ s', Rnd.mch A cs t s = .ok s' ∧ Step A s s' (ctrlL cs matH t) (5 * cs.length + 6) := by
  unfold mch
  obtain ⟨s1, h1, hs1, hc1, _⟩ := flushQueue_spec hf .HRxRy cs hw
  obtain ⟨s2, h2, hs2, hc2⟩ := flushIf_spec hf .HRxRy [t]
    (s1.ryQ.containsKey t || s1.rxQ.containsKey t) hs1.wf
  have hs := hs1.trans hs2 hf
  have hok2 := opndsOk_congr hs.idMap hok
  simp only [h1, ok_bind, h2]
  have hq : s2.rxQ.get t = none ∧ s2.ryQ.get t = none := by
    split at hc2
    · exact ⟨by rw [hc2.rx]; simp, by rw [hc2.ry]; simp⟩
    · rename_i h
      rw [hc2]
      simp only [IMap.containsKey_eq, Bool.or_eq_true, not_or, Bool.not_eq_true,
        Option.isSome_eq_false_iff, Option.isNone_iff_eq_none] at h
      exact ⟨h.2, h.1⟩
  have hcs : ∀ c ∈ cs, pend A s2 c = 1 := by
    intro c hc
    apply pend_of_not_queued
    split at hc2
    · exact hc2.mono_queued (hc1.not_queued hc)
    · rw [hc2]; exact hc1.not_queued hc
  obtain ⟨st, h3, hcore, hv⟩ := applyMch_spec hf hs2.wf.b hok2
  have hbase : base { s2 with state := st, opQ := [] } = view s2.idMap st := by simp [base]
  refine ⟨_, h3, Step.after hf (iso_ctrl isom_H hok.not_mem) hs
    (Step.one (d := 1) ⟨WFB.nil hcore, hs2.wf.queued⟩ ?_ ?_ ?_) (by simp)⟩
  · rfl
  · rfl
  refine abs_ctrl ?_ (hok2.2 t (by simp)) hok.not_mem ?_ hcs (U' := matH) ?_ ?_
  · rfl
  · intro q; rfl
  · simp only [pend, hq.1, hq.2, effRy_none_left, optRy_none, optRx_none, one_mul]
    cases s2.hFlag.testBit t <;> simp
  · rw [hbase]; exact hv

end Qir.Rnd
