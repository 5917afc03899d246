import Verif.Proof.TolFlush

/-! Every gate acts on the represented state as its textbook operator, up to a bounded number of
units of error. -/

noncomputable section
namespace Qir.Tol
open Spec Function Sim

variable {ε : ℝ}

/-- `s'` stands for a state at most `d` units away from `U` applied to the state `s` stands for, up
to a global phase. -/
structure Step (ε : ℝ) (s s' : Sim) (U : Module.End ℂ Wave) (d : ℕ) : Prop where
  wf : WF s'
  idMap : s'.idMap = s.idMap
  rng : s'.rng = s.rng
  near : ∃ c : ℂ, ‖c‖ = 1 ∧
    Near (d * unit ε s.idMap.keys.length) (abs ε s') (c • U (abs ε s))

theorem Step.of_same {s s' s'' : Sim} {U : Module.End ℂ Wave} {d d' : ℕ} (hU : Iso U)
    (h : Same ε s s' d) (h' : Step ε s' s'' U d') : Step ε s s'' U (d + d') := by
  refine ⟨h'.wf, h'.idMap.trans h.idMap, h'.rng.trans h.rng, ?_⟩
  obtain ⟨c, hc, hn⟩ := h'.near
  refine ⟨c, hc, ?_⟩
  rw [h.idMap] at hn
  have := hn.trans ((h.near.map hU).smul hc)
  rw [← add_mul, ← Nat.cast_add, Nat.add_comm] at this
  exact this

theorem Step.mono {s s' : Sim} {U : Module.End ℂ Wave} {d d' : ℕ} (h : Step ε s s' U d) (hε : 0 ≤ ε)
    (hd : d ≤ d') : Step ε s s' U d' := by
  obtain ⟨c, hc, hn⟩ := h.near
  exact ⟨h.wf, h.idMap, h.rng, c, hc, hn.mono (mul_le_mul_of_nonneg_right (by exact_mod_cast hd)
    (unit_nonneg hε _))⟩

theorem Step.after {s s' s'' : Sim} {U : Module.End ℂ Wave} {d d' n : ℕ} (hε : 0 ≤ ε) (hU : Iso U)
    (h : Same ε s s' d) (h' : Step ε s' s'' U d') (hd : d + d' ≤ n) : Step ε s s'' U n :=
  (Step.of_same hU h h').mono hε hd

theorem Step.phase {s s' : Sim} {U : Module.End ℂ Wave} (hs : WF s) (hU : Iso U) (hw : Qir.WF s')
    (hm : s'.idMap = s.idMap) (hr : s'.rng = s.rng) (c : ℂ) (hc : ‖c‖ = 1)
    (h : abs ε s' = c • U (abs ε s)) : Step ε s s' U 0 := by
  refine ⟨⟨hw, ?_⟩, hm, hr, c, hc, ?_⟩
  · rw [← len_abs (ε := ε) s', h, len_smul hc, hU.len (finSupp_abs s), len_abs]; exact hs.slim
  · rw [← h]; simpa using Near.refl (finSupp_abs s')

theorem Step.exact {s s' : Sim} {U : Module.End ℂ Wave} (hs : WF s) (hU : Iso U) (hw : Qir.WF s')
    (hm : s'.idMap = s.idMap) (hr : s'.rng = s.rng) (h : abs ε s' = U (abs ε s)) :
    Step ε s s' U 0 :=
  Step.phase hs hU hw hm hr 1 (by simp) (by simpa using h)

/-- One pass over the stored state. -/
theorem Step.one {s s' : Sim} {U : Module.End ℂ Wave} (hw : WF s')
    (hm : s'.idMap = s.idMap) (hr : s'.rng = s.rng)
    (h : Near (unit ε s.idMap.keys.length) (abs ε s') (U (abs ε s))) : Step ε s s' U 1 :=
  ⟨hw, hm, hr, 1, by simp, by simpa using h⟩

theorem abs_gate_eq {s s' : Sim} (hm : s'.idMap = s.idMap) {t : ℕ} (ht : (s.idMap.get t).isSome)
    (ho : ∀ q, q ≠ t → pend ε s' q = pend ε s q) {U U' : Mat2} (c : ℂ)
    (hU : U * pend ε s t = pend ε s' t * U') (hb : base s' = c • gateL U' t (base s)) :
    abs ε s' = c • gateL U t (abs ε s) := by
  rw [pull_gate hm ht ho c hU, ← hb]; rfl

theorem abs_ctrl_eq {s s' : Sim} (hm : s'.idMap = s.idMap) {t : ℕ} {cs : List ℕ}
    (ht : (s.idMap.get t).isSome) (hn : t ∉ cs)
    (ho : ∀ q, pend ε s' q = pend ε s q) (hcs : ∀ c ∈ cs, pend ε s c = 1) {U U' : Mat2}
    (hU : U * pend ε s t = pend ε s t * U') (hb : base s' = ctrlL cs U' t (base s)) :
    abs ε s' = ctrlL cs U t (abs ε s) := by
  rw [pull_ctrl hm ht hn ho hcs hU, ← hb]; rfl

theorem Bound.mul {k : ℝ} {N W : Mat2} (h : Bound k N) (hW : Isom W) : Bound k (N * W) := by
  intro x y
  have h1 := h (W false false * x + W false true * y) (W true false * x + W true true * y)
  rw [hW x y] at h1
  refine le_trans (le_of_eq ?_) h1
  simp only [Matrix.mul_apply, Fintype.sum_bool]
  congr 2 <;> ring

/-- Only the gate pending on one qubit changes, and it becomes nearly `U` after the old one. -/
theorem abs_queue {s s' : Sim} (hm : s'.idMap = s.idMap) {t : ℕ} (ht : (s.idMap.get t).isSome)
    (ho : ∀ q, q ≠ t → pend ε s' q = pend ε s q) {U : Mat2} (hb : base s' = base s) {d : ℝ} (hd : 0 ≤ d)
    (hB : Bound (d ^ 2) (pend ε s' t - U * pend ε s t)) :
    Near (d * len (base s)) (abs ε s') (gateL U t (abs ε s)) := by
  have ht' : (s'.idMap.get t).isSome := by rw [hm]; exact ht
  have e1 : gateL U t (abs ε s) = pendL (update (pend ε s) t 1) s.idMap.keys
      (gateL (U * pend ε s t) t (base s)) := by
    rw [abs_split ht, ← Module.End.mul_apply (gateL U t), pendL_update_comm, Module.End.mul_apply,
      ← Module.End.mul_apply (gateL U t), gateL_mul]
  rw [e1, abs_split ht', update_pend_congr ho, hm, hb]
  refine (near_ctrl (by simp) hd hB (finSupp_base s)).map (iso_pendL ?_ _)
  intro q
  by_cases hq : q = t
  · subst hq; rw [update_self]; exact isom_one
  · rw [update_of_ne hq]; exact isom_pend s q

theorem bound_zero {k : ℝ} (hk : 0 ≤ k) : Bound k 0 := by
  intro x y
  simp only [Matrix.zero_apply, zero_mul, add_zero, map_zero]
  have := Complex.normSq_nonneg x
  have := Complex.normSq_nonneg y
  positivity

theorem bound_turn {ε : ℝ} {φ : ℝ} (h : |φ| ≤ ε) (flip : Bool) :
    Bound ((ε * √2) ^ 2) (1 - rotMat flip φ) := by
  rw [rotMat_rot, ← matRot_one flip, matRot_sub]
  refine (bound_rot _ _ _).mono ?_
  rw [mul_pow, Real.sq_sqrt (by norm_num)]
  have h1 := Real.one_sub_sq_div_two_le_cos (x := φ / 2)
  have h2 := Real.sin_sq_add_cos_sq (φ / 2)
  have h3 := sq_le_sq' (abs_le.1 h).1 (abs_le.1 h).2
  nlinarith

theorem addAngle_get (q : IMap ℝ) (t : ℕ) (θ : ℝ) (r : ℕ) :
    (addAngle ε q t θ).get r = if r = t then
      (match q.get t with | some a => if |a + θ| ≤ ε then none else some (a + θ) | none => some θ)
      else q.get r := by
  unfold addAngle
  cases h : q.get t with
  | none => simp [IMap.get_insert]
  | some a =>
    simp only [nearlyZeroR_iff]
    by_cases h0 : |a + θ| ≤ ε
    · simp only [h0, if_true, IMap.get_remove, IMap.get_modify]
      split <;> simp
    · simp only [h0, if_false, IMap.get_modify, h, Option.map_some]

theorem optRx_add (q : IMap ℝ) (t : ℕ) (θ : ℝ) :
    Bound ((ε * √2) ^ 2) (optRx ((addAngle ε q t θ).get t) - matRx θ * optRx (q.get t)) := by
  rw [addAngle_get]
  simp only [if_true]
  cases q.get t with
  | none => simp only [optRx_some, optRx_none, mul_one, sub_self]; exact bound_zero (by positivity)
  | some a =>
    simp only [optRx_some, Rx_Rx]
    split
    · rename_i h; rw [optRx_none, add_comm θ a]; exact bound_turn h false
    · rw [optRx_some, add_comm, sub_self]; exact bound_zero (by positivity)

theorem optRy_add (q : IMap ℝ) (t : ℕ) (θ : ℝ) :
    Bound ((ε * √2) ^ 2) (optRy ((addAngle ε q t θ).get t) - matRy θ * optRy (q.get t)) := by
  rw [addAngle_get]
  simp only [if_true]
  cases q.get t with
  | none => simp only [optRy_some, optRy_none, mul_one, sub_self]; exact bound_zero (by positivity)
  | some a =>
    simp only [optRy_some, Ry_Ry]
    split
    · rename_i h; rw [optRy_none, add_comm θ a]; exact bound_turn h true
    · rw [optRy_some, add_comm, sub_self]; exact bound_zero (by positivity)

theorem x_step {s : Sim} (hw : WF s) {t : ℕ} (ht : (s.idMap.get t).isSome) :
    ∃ s', s.x t = .ok s' ∧ Step ε s s' (gateL matX t) 0 := by
  unfold Sim.x
  simp only
  have key : ∀ (op : OpCode) (U' : Mat2), opMat op = U' →
      U' = (if s.hFlag.testBit t then matZ else matX) →
      ∃ s', enqueueOp t [] op { s with ryQ := s.ryQ.modify t (fun a => a * (-1)) } = .ok s' ∧
        Step ε s s' (gateL matX t) 0 := by
    intro op U' hop hU'
    obtain ⟨st, q, hs, hb, hv⟩ := enqueueOp_spec
      (s := { s with ryQ := s.ryQ.modify t (fun a => a * (-1)) }) hw.b op (single_ok ht)
    refine ⟨_, hs, Step.exact hw (iso_gate isom_X t) ?_ rfl rfl ?_⟩
    · exact hw.toWF.resign rfl hb rfl (fun q => Or.inl rfl) (fun q => isSome_neg _ _ _)
    · rw [← one_smul ℂ (gateL matX t (abs ε s))]
      refine abs_gate_eq ?_ ht (U := matX) (U' := U') (c := 1) ?_ ?_ ?_
      · rfl
      · intro r hr
        simp [pend, IMap.get_modify, hr]
      · simp only [pend, IMap.get_modify_same]
        rw [effRy_neg_right, optRy_anti X_Ry, optRx_X, optH_swap X_H, hU']
        simp only [mul_assoc]
      · rw [one_smul, ← hop]; exact hv
  cases hh : s.hFlag.testBit t
  · simpa using key .X matX rfl (by simp [hh])
  · simpa using key .Z matZ rfl (by simp [hh])

theorem y_step {s : Sim} (hw : WF s) {t : ℕ} (ht : (s.idMap.get t).isSome) :
    ∃ s', s.y t = .ok s' ∧ Step ε s s' (gateL matY t) 0 := by
  unfold Sim.y
  simp only
  obtain ⟨st, q, hs, hb, hv⟩ := enqueueOp_spec
    (s := { s with rxQ := s.rxQ.modify t (fun a => a * (-1)) }) hw.b .Y (single_ok ht)
  refine ⟨_, hs, Step.phase hw (iso_gate isom_Y t) ?_ rfl rfl (if s.hFlag.testBit t then -1 else 1)
    (by split <;> simp) ?_⟩
  · exact hw.toWF.resign rfl hb rfl (fun q => get_neg _ _ _) (fun q => rfl)
  · refine abs_gate_eq ?_ ht (U := matY) (U' := if s.hFlag.testBit t then -matY else matY) ?_ _ ?_ ?_
    · rfl
    · intro r hr
      simp [pend, IMap.get_modify, hr]
    · simp only [pend, IMap.get_modify_same]
      rw [effRy_neg_left, optRy_Y, optRx_anti Y_Rx, optH_swap Y_H]
      simp only [mul_assoc]
    · have hv' : opsL q (view s.idMap st) = gateL matY t (base s) := hv
      refine hv'.trans ?_
      split
      · funext b
        simp only [gateL_apply_apply, Pi.smul_apply, smul_eq_mul, Matrix.neg_apply]
        ring
      · simp

theorem z_step {s : Sim} (hw : WF s) {t : ℕ} (ht : (s.idMap.get t).isSome) :
    ∃ s', s.z t = .ok s' ∧ Step ε s s' (gateL matZ t) 0 := by
  unfold Sim.z
  simp only
  have key : ∀ (op : OpCode) (U' : Mat2), opMat op = U' →
      U' = (if s.hFlag.testBit t then matX else matZ) →
      ∃ s', enqueueOp t [] op { s with
          ryQ := s.ryQ.modify t (fun a => a * (-1))
          rxQ := s.rxQ.modify t (fun a => a * (-1)) } = .ok s' ∧
        Step ε s s' (gateL matZ t) 0 := by
    intro op U' hop hU'
    obtain ⟨st, q, hs, hb, hv⟩ := enqueueOp_spec
      (s := { s with
        ryQ := s.ryQ.modify t (fun a => a * (-1))
        rxQ := s.rxQ.modify t (fun a => a * (-1)) }) hw.b op (single_ok ht)
    refine ⟨_, hs, Step.exact hw (iso_gate isom_Z t) ?_ rfl rfl ?_⟩
    · exact hw.toWF.resign rfl hb rfl (fun q => get_neg _ _ _) (fun q => isSome_neg _ _ _)
    · rw [← one_smul ℂ (gateL matZ t (abs ε s))]
      refine abs_gate_eq ?_ ht (U := matZ) (U' := U') (c := 1) ?_ ?_ ?_
      · rfl
      · intro r hr
        simp [pend, IMap.get_modify, hr]
      · simp only [pend, IMap.get_modify_same]
        rw [effRy_neg_left, effRy_neg_right, optRy_anti Z_Ry, optRx_anti Z_Rx, optH_swap Z_H, hU']
        simp only [mul_assoc]
      · rw [one_smul, ← hop]; exact hv
  cases hh : s.hFlag.testBit t
  · simpa using key .Z matZ rfl (by simp [hh])
  · simpa using key .X matX rfl (by simp [hh])

/-! ### Hadamard -/

theorem h_step {env : Env} (he : TolOk env) {s : Sim} (hw : WF s) {t : ℕ}
    (ht : (s.idMap.get t).isSome) :
    ∃ s', s.h env t = .ok s' ∧ Step env.eps s s' (gateL matH t) 3 := by
  unfold Sim.h
  simp only
  have hw1 : WF { s with ryQ := s.ryQ.modify t (fun a => a * (-1)) } :=
    ⟨hw.toWF.resign rfl hw.b rfl (fun q => Or.inl rfl) (fun q => isSome_neg _ _ _), hw.slim⟩
  obtain ⟨s2, h2, hs2, hc2⟩ := flushIf_spec he .HRx [t] (s.rxQ.containsKey t) hw1
  rw [h2]
  simp only [ok_bind, pure_ok]
  have hm2 : s2.idMap = s.idMap := hs2.idMap
  have hw3 : Qir.WF { s2 with hFlag := setBit s2.hFlag t (!s2.hFlag.testBit t) } := by
    refine ⟨hs2.wf.b, ?_⟩
    intro q hq
    by_cases hqt : q = t
    · subst hqt; simp only [hm2]; exact ht
    · apply hs2.wf.queued
      rw [hasQueued_eq] at hq ⊢
      simpa [testBit_setBit, hqt] using hq
  refine ⟨_, rfl, ?_⟩
  have ht2 : (s2.idMap.get t).isSome := by rw [hm2]; exact ht
  cases hrx : s.rxQ.get t with
  | none =>
    rw [IMap.containsKey_eq, hrx] at hc2
    simp only [Option.isSome_none, Bool.false_eq_true, if_false] at hc2
    subst hc2
    refine Step.mono (Step.exact hw (iso_gate isom_H t) hw3 hm2 hs2.rng ?_) he.nonneg (by omega)
    rw [← one_smul ℂ (gateL matH t (abs env.eps s))]
    refine abs_gate_eq ?_ ht (U := matH) (U' := 1) (c := 1) ?_ ?_ ?_
    · rfl
    · intro r hr
      simp [pend, IMap.get_modify, testBit_setBit, hr]
    · simp only [pend, IMap.get_modify_same, testBit_setBit, if_true, hrx, optRx_none, one_mul, effRy_none_left]
      rw [optRy_anti H_Ry, mul_one]
      congr 1
      cases s.hFlag.testBit t
      · simp
      · simpa using H_H
    · rw [one_smul, gateL_one]; rfl
  | some b =>
    rw [IMap.containsKey_eq, hrx] at hc2
    simp only [Option.isSome_some, if_true] at hc2
    have hh2 : s2.hFlag.testBit t = false := by rw [hc2.h]; simp
    have hrx2 : s2.rxQ.get t = none := by rw [hc2.rx]; simp
    have hry2 : s2.ryQ.get t =
        (effRy env.eps (s.rxQ.get t) (s.ryQ.get t)).map (fun a => a * (-1)) := by
      rw [hc2.ry, ← effRy_neg_right]; simp [IMap.get_modify]
    generalize hE : effRy env.eps (s.rxQ.get t) (s.ryQ.get t) = E at hry2
    obtain ⟨K, K', hK, hK2, hK3, hI⟩ : ∃ K K' : Mat2,
        K * optRy E = optRy (E.map (fun a => a * (-1))) ∧
        K' * optRy (E.map (fun a => a * (-1))) =
          optRy (E.map (fun a => a * (-1))) * matH ∧
        K' * K = matH ∧ Isom K' := by
      cases E with
      | none => exact ⟨1, matH, by simp, by simp, by simp, isom_H⟩
      | some a =>
        refine ⟨matRy (-(2 * a)), matH * matRy (2 * a), ?_, ?_, ?_, isom_H.mul (isom_Ry _)⟩
        · simp only [optRy_some, Option.map_some, Ry_Ry]; congr 1; ring
        · simp only [optRy_some, Option.map_some]
          rw [mul_assoc, Ry_Ry, show 2 * a + a * (-1) = a by ring, H_Ry, show a * (-1) = -a by ring]
        · rw [mul_assoc, Ry_Ry, show 2 * a + -(2 * a) = 0 by ring, Ry_zero, mul_one]
    have e1 : abs env.eps { s with ryQ := s.ryQ.modify t (fun a => a * (-1)) } =
        (1 : ℂ) • gateL K t (abs env.eps s) := by
      refine abs_gate_eq ?_ ht (U := K) (U' := 1) (c := 1) ?_ ?_ ?_
      · rfl
      · intro r hr
        simp [pend, IMap.get_modify, hr]
      · simp only [pend, IMap.get_modify_same, mul_one]
        rw [effRy_neg_right, hE, ← mul_assoc, hK]
      · rw [one_smul, gateL_one]; rfl
    have e2 : abs env.eps { s2 with hFlag := setBit s2.hFlag t (!s2.hFlag.testBit t) } =
        (1 : ℂ) • gateL K' t (abs env.eps s2) := by
      refine abs_gate_eq ?_ ht2 (U := K') (U' := 1) (c := 1) ?_ ?_ ?_
      · rfl
      · intro r hr
        simp [pend, testBit_setBit, hr]
      · simp only [pend, testBit_setBit, if_true, hh2, hrx2, hry2, optRx_none, optH_false, mul_one, effRy_none_left,
          Bool.not_false, optH_true, one_mul]
        exact hK2
      · rw [one_smul, gateL_one]; rfl
    refine ⟨⟨hw3, hs2.wf.slim⟩, hm2, hs2.rng, 1, by simp, ?_⟩
    have hn := hs2.near.map (iso_gate hI t)
    rw [e1, one_smul, ← Module.End.mul_apply, gateL_mul, hK3] at hn
    rw [e2, one_smul, one_smul]
    exact hn

/-! ### Rotations kept in the queues -/

theorem rx_step {env : Env} (he : TolOk env) {s : Sim} (hw : WF s) {t : ℕ}
    (ht : (s.idMap.get t).isSome) (θ : ℝ) :
    ∃ s', s.rx env θ t = .ok s' ∧ Step env.eps s s' (gateL (matRx θ) t) 4 := by
  unfold Sim.rx
  obtain ⟨s1, h1, hs1, hc1⟩ := flushIf_spec he .HRxRy [t] (s.hFlag.testBit t || s.ryQ.containsKey t) hw
  rw [h1]
  simp only [ok_bind, pure_ok]
  have hq : s1.hFlag.testBit t = false ∧ s1.ryQ.get t = none := by
    split at hc1
    · exact ⟨by rw [hc1.h]; simp, by rw [hc1.ry]; simp⟩
    · rename_i h
      rw [hc1]
      simp only [IMap.containsKey_eq, Bool.or_eq_true, not_or, Bool.not_eq_true,
        Option.isSome_eq_false_iff, Option.isNone_iff_eq_none] at h
      exact h
  have ht1 : (s1.idMap.get t).isSome := by rw [hs1.idMap]; exact ht
  refine ⟨_, rfl, Step.of_same (iso_gate (isom_Rx θ) t) hs1
    (Step.one (s' := { s1 with rxQ := addAngle env.eps s1.rxQ t θ })
      ⟨⟨hs1.wf.b, ?_⟩, hs1.wf.slim⟩ rfl rfl ?_)⟩
  · intro q hq
    by_cases hqt : q = t
    · subst hqt; exact ht1
    · apply hs1.wf.queued
      rw [hasQueued_eq] at hq ⊢
      simpa [addAngle_get, hqt] using hq
  · refine (abs_queue ?_ ht1 (d := env.eps * √2) ?_ ?_ ?_ ?_).mono ?_
    · rfl
    · intro r hr
      simp [pend, addAngle_get, hr]
    · rfl
    · have := he.nonneg; positivity
    · simp only [pend, hq.1, hq.2, effRy_none_right, optRy_none, optH_false, one_mul, mul_one]
      exact optRx_add _ _ _
    · have h0 : 0 ≤ env.eps * √2 := by have := he.nonneg; positivity
      have := le_unit he.nonneg s1.idMap.keys.length
      have := hs1.wf.slim
      nlinarith

/-- `ry` when no near half-turn about X is queued on the same qubit. -/
theorem ry_step {env : Env} (he : TolOk env) {s : Sim} (hw : WF s) {t : ℕ}
    (ht : (s.idMap.get t).isSome) (θ : ℝ) (hok : ¬ HalfTurn env.eps (s.rxQ.get t)) :
    ∃ s', s.ry env θ t = .ok s' ∧ Step env.eps s s' (gateL (matRy θ) t) 1 := by
  unfold Sim.ry
  refine ⟨_, rfl, Step.one (s' := { s with ryQ := addAngle env.eps s.ryQ t θ })
    ⟨⟨hw.b, ?_⟩, hw.slim⟩ rfl rfl ?_⟩
  · intro q hq
    by_cases hqt : q = t
    · subst hqt; exact ht
    · apply hw.queued
      rw [hasQueued_eq] at hq ⊢
      simpa [addAngle_get, hqt] using hq
  · refine (abs_queue ?_ ht (d := env.eps * √2) ?_ ?_ ?_ ?_).mono ?_
    · rfl
    · intro r hr
      simp [pend, addAngle_get, hr]
    · rfl
    · have := he.nonneg; positivity
    · simp only [pend, effRy, if_neg hok]
      rw [← mul_assoc (matRy θ), ← sub_mul]
      refine (optRy_add _ _ _).mul (Isom.mul ?_ ?_)
      · cases s.rxQ.get t with
        | none => exact isom_one
        | some a => exact isom_Rx a
      · cases s.hFlag.testBit t
        · exact isom_one
        · exact isom_H
    · have h0 : 0 ≤ env.eps * √2 := by have := he.nonneg; positivity
      have := le_unit he.nonneg s.idMap.keys.length
      have := hw.slim
      nlinarith

/-! ### Gates that flush their operands first -/

/-- Enqueue a controlled operation whose controls have nothing pending. -/
theorem enqueue_step {s : Sim} (hw : WF s) {t : ℕ} {cs : List ℕ} (hok : OpndsOk s.idMap cs t)
    (op : OpCode) (hcs : ∀ c ∈ cs, pend ε s c = 1) {U : Mat2} (hI : Isom U)
    (hU : U * pend ε s t = pend ε s t * opMat op) :
    ∃ s', s.enqueueOp t cs op = .ok s' ∧ Step ε s s' (ctrlL cs U t) 0 := by
  obtain ⟨st, q, hs, hb, hv⟩ := enqueueOp_spec hw.b op hok
  refine ⟨_, hs, Step.exact hw (iso_ctrl hI hok.not_mem) ⟨hb, hw.queued⟩ rfl rfl ?_⟩
  refine abs_ctrl_eq ?_ (hok.2 t (by simp)) hok.not_mem ?_ hcs hU ?_
  · rfl
  · intro q; rfl
  · exact hv

theorem diagGate_step {env : Env} (he : TolOk env) {s : Sim} (hw : WF s) {t : ℕ}
    (ht : (s.idMap.get t).isSome) (op : OpCode) :
    ∃ s', s.diagGate env op t = .ok s' ∧ Step env.eps s s' (gateL (opMat op) t) 3 := by
  unfold diagGate
  obtain ⟨s1, h1, hs1, hc1⟩ := maybeFlush_spec he [t] hw
  have ht1 : (s1.idMap.get t).isSome := by rw [hs1.idMap]; exact ht
  obtain ⟨s2, h2, hs2⟩ := enqueue_step hs1.wf (single_ok ht1) op (ε := env.eps) (U := opMat op) (by simp)
    (isom_opMat op)
    (by rw [hc1.pend_eq_one (by simp)]; simp)
  rw [h1]
  exact ⟨s2, h2, Step.of_same (iso_gate (isom_opMat op) t) hs1 hs2⟩

theorem mcDiagGate_step {env : Env} (he : TolOk env) {s : Sim} (hw : WF s) {t : ℕ} {cs : List ℕ}
    (hok : OpndsOk s.idMap cs t) (op : OpCode) :
    ∃ s', s.mcDiagGate env op cs t = .ok s' ∧ Step env.eps s s' (ctrlL cs (opMat op) t)
      (3 * cs.length + 3) := by
  unfold mcDiagGate
  obtain ⟨s1, h1, hs1, hc1⟩ := maybeFlush_spec he cs hw
  obtain ⟨s2, h2, hs2, hc2⟩ := maybeFlush_spec he [t] hs1.wf
  have hs := hs1.trans hs2
  obtain ⟨s3, h3, hs3⟩ := enqueue_step hs2.wf (opndsOk_congr hs.idMap hok) op (ε := env.eps) (U := opMat op)
    (fun c hc => pend_of_not_queued (hc2.mono_queued (hc1.not_queued hc))) (isom_opMat op)
    (by rw [hc2.pend_eq_one (by simp)]; simp)
  simp only [h1, ok_bind, h2]
  exact ⟨s3, h3, Step.after he.nonneg (iso_ctrl (isom_opMat op) hok.not_mem) hs hs3 (by simp)⟩

theorem mcphase_step {env : Env} (he : TolOk env) {s : Sim} (hw : WF s) {t : ℕ} {cs : List ℕ}
    (hok : OpndsOk s.idMap cs t) (φ : ℂ) (hφ : Isom (matPhase φ)) :
    ∃ s', s.mcphase env cs φ t = .ok s' ∧ Step env.eps s s' (ctrlL cs (matPhase φ) t)
      (3 * cs.length + 3) := by
  unfold mcphase
  obtain ⟨s1, h1, hs1, hc1, _⟩ := flushQueue_spec he .HRxRy cs hw
  obtain ⟨s2, h2, hs2, hc2, ho2⟩ := flushQueue_spec he .HRxRy [t] hs1.wf
  have hs := hs1.trans hs2
  have hok2 := opndsOk_congr hs.idMap hok
  obtain ⟨tl, csl, hr, htl, hcsl⟩ := resolveAndCheck_ok hok2
  simp only [h1, ok_bind, h2, hr, pure_ok]
  have hst : view s2.idMap (s2.state.map (fun e =>
      if csl.all (fun c => e.1.testBit c) then phaseTransform φ e tl else e)) =
      ctrlL cs (matPhase φ) t (view s2.idMap s2.state) := by
    apply view_map_of
    intro e _
    exact entryWave_phase hcsl htl hok.not_mem 1 φ e
  refine ⟨_, rfl, Step.after he.nonneg (iso_ctrl hφ hok.not_mem) hs
    (Step.exact hs2.wf (iso_ctrl hφ hok.not_mem) ⟨⟨?_, hs2.wf.b.ops⟩, hs2.wf.queued⟩ ?_ ?_ ?_)
    (by simp)⟩
  rotate_left
  · rfl
  · rfl
  rotate_left
  · apply hs2.wf.b.core.mapKey
    intro e; split <;> rfl
  · refine abs_ctrl_eq ?_ (hok2.2 t (by simp)) hok.not_mem ?_
      (fun c hc => pend_of_not_queued (hc2.mono_queued (hc1.not_queued hc))) ?_ ?_
      (U' := matPhase φ)
    · rfl
    · intro q; rfl
    · rw [hc2.pend_eq_one (by simp)]; simp
    · simp only [base, ho2, opsL_nil, Module.End.one_apply]; exact hst

theorem mch_step {env : Env} (he : TolOk env) {s : Sim} (hw : WF s) {t : ℕ} {cs : List ℕ}
    (hok : OpndsOk s.idMap cs t) :
    ∃ s', s.mch env cs t = .ok s' ∧ Step env.eps s s' (ctrlL cs matH t) (3 * cs.length + 4) := by
  unfold mch
  obtain ⟨s1, h1, hs1, hc1, _⟩ := flushQueue_spec he .HRxRy cs hw
  obtain ⟨s2, h2, hs2, hc2⟩ := flushIf_spec he .HRxRy [t]
    (s1.ryQ.containsKey t || s1.rxQ.containsKey t) hs1.wf
  have hs := hs1.trans hs2
  have hok2 := opndsOk_congr hs.idMap hok
  simp only [h1, ok_bind, h2]
  have hq : s2.rxQ.get t = none ∧ s2.ryQ.get t = none := by
    split at hc2
    · exact ⟨by rw [hc2.rx]; simp, by rw [hc2.ry]; simp⟩
    · rename_i h
      rw [hc2]
      simp only [IMap.containsKey_eq, Bool.or_eq_true, not_or, Bool.not_eq_true,
        Option.isSome_eq_false_iff, Option.isNone_iff_eq_none] at h
      exact ⟨h.2, h.1⟩
  have hcs : ∀ c ∈ cs, pend env.eps s2 c = 1 := by
    intro c hc
    apply pend_of_not_queued
    split at hc2
    · exact hc2.mono_queued (hc1.not_queued hc)
    · rw [hc2]; exact hc1.not_queued hc
  obtain ⟨st, h3, hcore, hv, hl⟩ := applyMch_near he hs2.wf.b hok2
  have hbase : base { s2 with state := st, opQ := [] } = view s2.idMap st := by simp [base]
  refine ⟨_, h3, Step.after he.nonneg (iso_ctrl isom_H hok.not_mem) hs
    (Step.one ⟨⟨WFB.nil hcore, hs2.wf.queued⟩, ?_⟩ ?_ ?_ ?_) (by simp)⟩
  rotate_left
  · rfl
  · rfl
  rotate_left
  · rw [hbase]; exact hl.trans hs2.wf.slim
  refine abs_ctrl ?_ (hok2.2 t (by simp)) hok.not_mem ?_ hcs (U' := matH) ?_ ?_
  · rfl
  · intro q; rfl
  · simp only [pend, hq.1, hq.2, effRy_none_left, optRy_none, optRx_none, one_mul]
    cases s2.hFlag.testBit t <;> simp
  · rw [hbase]; exact hv

end Qir.Tol
