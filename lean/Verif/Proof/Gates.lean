import Verif.Proof.Flush
import Verif.Proof.Mats

/-! Every gate acts on the represented state as its textbook operator. -/

noncomputable section
namespace Qir
open Spec Function Sim

/-- `s'` stands for `U` applied to the state `s` stands for, up to a global phase. -/
structure Step (s s' : Sim) (U : Module.End ℂ Wave) : Prop where
  wf : WF s'
  idMap : s'.idMap = s.idMap
  rng : s'.rng = s.rng
  abs : ∃ c : ℂ, ‖c‖ = 1 ∧ abs s' = c • U (abs s)

theorem Step.of_same {s s' s'' : Sim} {U : Module.End ℂ Wave} (h : Same s s') (h' : Step s' s'' U) :
    Step s s'' U :=
  ⟨h'.wf, h'.idMap.trans h.idMap, h'.rng.trans h.rng, by rw [← h.abs]; exact h'.abs⟩

theorem Step.exact {s s' : Sim} {U : Module.End ℂ Wave} (hw : WF s') (hm : s'.idMap = s.idMap)
    (hr : s'.rng = s.rng) (h : Qir.abs s' = U (Qir.abs s)) : Step s s' U :=
  ⟨hw, hm, hr, 1, by simp, by simpa using h⟩

/-- Changing the sign of queued angles keeps the queue invariants. -/
theorem WF.resign {s s' : Sim} (hw : WF s) (hm : s'.idMap = s.idMap)
    (hb : WFB s'.idMap s'.state s'.opQ) (hh : s'.hFlag = s.hFlag)
    (hrx : ∀ q, s'.rxQ.get q = s.rxQ.get q ∨ s'.rxQ.get q = (s.rxQ.get q).map (fun a => a * (-1)))
    (hry : ∀ q, (s'.ryQ.get q).isSome = (s.ryQ.get q).isSome) : WF s' := by
  refine ⟨hb, ?_⟩
  intro q hq
  rw [hm]; apply hw.queued
  rw [hasQueued_eq] at hq ⊢
  rw [hh, hry] at hq
  rcases hrx q with h | h
  · rwa [h] at hq
  · rw [h] at hq; simpa using hq

theorem get_neg (m : IMap ℝ) (t q : ℕ) :
    (m.modify t (fun a => a * (-1))).get q = m.get q ∨
    (m.modify t (fun a => a * (-1))).get q = (m.get q).map (fun a => a * (-1)) := by
  rw [IMap.get_modify]
  by_cases h : q = t
  · subst h; simp
  · simp [h]

theorem isSome_neg (m : IMap ℝ) (t q : ℕ) :
    ((m.modify t (fun a => a * (-1))).get q).isSome = (m.get q).isSome := by
  rcases get_neg m t q with h | h <;> rw [h] <;> simp

theorem optRx_X (o : Option ℝ) (M : Mat2) : matX * (optRx o * M) = optRx o * (matX * M) := by
  cases o with
  | none => simp
  | some θ => rw [optRx_some, ← mul_assoc, X_Rx, mul_assoc]

theorem optRy_Y (o : Option ℝ) (M : Mat2) : matY * (optRy o * M) = optRy o * (matY * M) := by
  cases o with
  | none => simp
  | some θ => rw [optRy_some, ← mul_assoc, Y_Ry, mul_assoc]

theorem optRy_anti {U : Mat2} (hU : ∀ θ, U * matRy θ = matRy (-θ) * U) (o : Option ℝ) (M : Mat2) :
    U * (optRy o * M) = optRy (o.map (fun a => a * (-1))) * (U * M) := by
  cases o with
  | none => simp
  | some θ =>
    rw [optRy_some, ← mul_assoc, hU, mul_assoc, Option.map_some, optRy_some,
      show θ * (-1) = -θ by ring]

theorem optRx_anti {U : Mat2} (hU : ∀ θ, U * matRx θ = matRx (-θ) * U) (o : Option ℝ) (M : Mat2) :
    U * (optRx o * M) = optRx (o.map (fun a => a * (-1))) * (U * M) := by
  cases o with
  | none => simp
  | some θ =>
    rw [optRx_some, ← mul_assoc, hU, mul_assoc, Option.map_some, optRx_some,
      show θ * (-1) = -θ by ring]

/-- Exchange a Pauli with a queued Hadamard. -/
theorem optH_swap {U U' : Mat2} (hU : U * matH = matH * U') (h : Bool) :
    U * optH h = optH h * (if h then U' else U) := by
  cases h
  · simp
  · simpa using hU

theorem x_step {s : Sim} (hw : WF s) {t : ℕ} (ht : (s.idMap.get t).isSome) :
    ∃ s', s.x t = .ok s' ∧ Step s s' (gateL matX t) := by
  unfold Sim.x
  simp only
  have key : ∀ (op : OpCode) (U' : Mat2), opMat op = U' →
      U' = (if s.hFlag.testBit t then matZ else matX) →
      ∃ s', enqueueOp t [] op { s with ryQ := s.ryQ.modify t (fun a => a * (-1)) } = .ok s' ∧
        Step s s' (gateL matX t) := by
    intro op U' hop hU'
    obtain ⟨st, q, hs, hb, hv⟩ := enqueueOp_spec
      (s := { s with ryQ := s.ryQ.modify t (fun a => a * (-1)) }) hw.b op (single_ok ht)
    refine ⟨_, hs, Step.exact ?_ rfl rfl ?_⟩
    · exact hw.resign rfl hb rfl (fun q => Or.inl rfl) (fun q => isSome_neg _ _ _)
    · rw [← one_smul ℂ (gateL matX t (Qir.abs s))]
      refine abs_gate ?_ ht (U := matX) (U' := U') (c := 1) ?_ ?_ ?_
      · rfl
      · intro r hr
        simp [pend, IMap.get_modify, hr]
      · simp only [pend, IMap.get_modify_same]
        rw [effRy_neg_right, optRy_anti X_Ry, optRx_X, optH_swap X_H, hU']
        simp only [mul_assoc]
      · rw [one_smul, ← hop]; exact hv
  cases hh : s.hFlag.testBit t
  · simpa using key .X matX rfl (by simp [hh])
  · simpa using key .Z matZ rfl (by simp [hh])

theorem y_step {s : Sim} (hw : WF s) {t : ℕ} (ht : (s.idMap.get t).isSome) :
    ∃ s', s.y t = .ok s' ∧ Step s s' (gateL matY t) := by
  unfold Sim.y
  simp only
  obtain ⟨st, q, hs, hb, hv⟩ := enqueueOp_spec
    (s := { s with rxQ := s.rxQ.modify t (fun a => a * (-1)) }) hw.b .Y (single_ok ht)
  refine ⟨_, hs, ⟨?_, rfl, rfl, if s.hFlag.testBit t then -1 else 1, by split <;> simp, ?_⟩⟩
  · exact hw.resign rfl hb rfl (fun q => get_neg _ _ _) (fun q => rfl)
  · refine abs_gate ?_ ht (U := matY) (U' := if s.hFlag.testBit t then -matY else matY) ?_ _ ?_ ?_
    · rfl
    · intro r hr
      simp [pend, IMap.get_modify, hr]
    · simp only [pend, IMap.get_modify_same]
      rw [effRy_neg_left, optRy_Y, optRx_anti Y_Rx, optH_swap Y_H]
      simp only [mul_assoc]
    · have hv' : opsL q (view s.idMap st) = gateL matY t (base s) := hv
      refine hv'.trans ?_
      split
      · funext b
        simp only [gateL_apply_apply, Pi.smul_apply, smul_eq_mul, Matrix.neg_apply]
        ring
      · simp

theorem z_step {s : Sim} (hw : WF s) {t : ℕ} (ht : (s.idMap.get t).isSome) :
    ∃ s', s.z t = .ok s' ∧ Step s s' (gateL matZ t) := by
  unfold Sim.z
  simp only
  have key : ∀ (op : OpCode) (U' : Mat2), opMat op = U' →
      U' = (if s.hFlag.testBit t then matX else matZ) →
      ∃ s', enqueueOp t [] op { s with
          ryQ := s.ryQ.modify t (fun a => a * (-1))
          rxQ := s.rxQ.modify t (fun a => a * (-1)) } = .ok s' ∧
        Step s s' (gateL matZ t) := by
    intro op U' hop hU'
    obtain ⟨st, q, hs, hb, hv⟩ := enqueueOp_spec
      (s := { s with
        ryQ := s.ryQ.modify t (fun a => a * (-1))
        rxQ := s.rxQ.modify t (fun a => a * (-1)) }) hw.b op (single_ok ht)
    refine ⟨_, hs, Step.exact ?_ rfl rfl ?_⟩
    · exact hw.resign rfl hb rfl (fun q => get_neg _ _ _) (fun q => isSome_neg _ _ _)
    · rw [← one_smul ℂ (gateL matZ t (Qir.abs s))]
      refine abs_gate ?_ ht (U := matZ) (U' := U') (c := 1) ?_ ?_ ?_
      · rfl
      · intro r hr
        simp [pend, IMap.get_modify, hr]
      · simp only [pend, IMap.get_modify_same]
        rw [effRy_neg_left, effRy_neg_right, optRy_anti Z_Ry, optRx_anti Z_Rx, optH_swap Z_H, hU']
        simp only [mul_assoc]
      · rw [one_smul, ← hop]; exact hv
  cases hh : s.hFlag.testBit t
  · simpa using key .Z matZ rfl (by simp [hh])
  · simpa using key .X matX rfl (by simp [hh])

/-! ### Hadamard -/

theorem h_step {env : Env} (he : env.eps = 0) {s : Sim} (hw : WF s) {t : ℕ}
    (ht : (s.idMap.get t).isSome) :
    ∃ s', s.h env t = .ok s' ∧ Step s s' (gateL matH t) := by
  unfold Sim.h
  simp only
  have hw1 : WF { s with ryQ := s.ryQ.modify t (fun a => a * (-1)) } :=
    hw.resign rfl hw.b rfl (fun q => Or.inl rfl) (fun q => isSome_neg _ _ _)
  obtain ⟨s2, h2, hs2, hc2⟩ := flushIf_spec he .HRx [t] (s.rxQ.containsKey t) hw1
  rw [h2]
  simp only [ok_bind, pure_ok]
  have hm2 : s2.idMap = s.idMap := hs2.idMap
  have hw3 : WF { s2 with hFlag := setBit s2.hFlag t (!s2.hFlag.testBit t) } := by
    refine ⟨hs2.wf.b, ?_⟩
    intro q hq
    by_cases hqt : q = t
    · subst hqt; simp only [hm2]; exact ht
    · apply hs2.wf.queued
      rw [hasQueued_eq] at hq ⊢
      simpa [testBit_setBit, hqt] using hq
  refine ⟨_, rfl, Step.exact hw3 hm2 hs2.rng ?_⟩
  have ht2 : (s2.idMap.get t).isSome := by rw [hm2]; exact ht
  cases hrx : s.rxQ.get t with
  | none =>
    rw [IMap.containsKey_eq, hrx] at hc2
    simp only [Option.isSome_none, Bool.false_eq_true, if_false] at hc2
    subst hc2
    rw [← one_smul ℂ (gateL matH t (Qir.abs s))]
    refine abs_gate ?_ ht (U := matH) (U' := 1) (c := 1) ?_ ?_ ?_
    · rfl
    · intro r hr
      simp [pend, IMap.get_modify, testBit_setBit, hr]
    · simp only [pend, IMap.get_modify_same, testBit_setBit, if_true, hrx, optRx_none, one_mul, effRy_none_left]
      rw [optRy_anti H_Ry, mul_one]
      congr 1
      cases s.hFlag.testBit t
      · simp
      · simpa using H_H
    · rw [one_smul, gateL_one]; rfl
  | some b =>
    rw [IMap.containsKey_eq, hrx] at hc2
    simp only [Option.isSome_some, if_true] at hc2
    have hh2 : s2.hFlag.testBit t = false := by rw [hc2.h]; simp
    have hrx2 : s2.rxQ.get t = none := by rw [hc2.rx]; simp
    have hry2 : s2.ryQ.get t =
        (effRy (s.rxQ.get t) (s.ryQ.get t)).map (fun a => a * (-1)) := by
      rw [hc2.ry, ← effRy_neg_right]; simp [IMap.get_modify]
    -- undo the sign change, remove the queued Y rotation, apply, and put it back
    generalize hE : effRy (s.rxQ.get t) (s.ryQ.get t) = E at hry2
    obtain ⟨K, K', hK, hK2, hK3⟩ : ∃ K K' : Mat2,
        K * optRy E = optRy (E.map (fun a => a * (-1))) ∧
        K' * optRy (E.map (fun a => a * (-1))) =
          optRy (E.map (fun a => a * (-1))) * matH ∧
        K' * K = matH := by
      cases E with
      | none => exact ⟨1, matH, by simp, by simp, by simp⟩
      | some a =>
        refine ⟨matRy (-(2 * a)), matH * matRy (2 * a), ?_, ?_, ?_⟩
        · simp only [optRy_some, Option.map_some, Ry_Ry]; congr 1; ring
        · simp only [optRy_some, Option.map_some]
          rw [mul_assoc, Ry_Ry, show 2 * a + a * (-1) = a by ring, H_Ry, show a * (-1) = -a by ring]
        · rw [mul_assoc, Ry_Ry, show 2 * a + -(2 * a) = 0 by ring, Ry_zero, mul_one]
    have e1 : Qir.abs { s with ryQ := s.ryQ.modify t (fun a => a * (-1)) } =
        (1 : ℂ) • gateL K t (Qir.abs s) := by
      refine abs_gate ?_ ht (U := K) (U' := 1) (c := 1) ?_ ?_ ?_
      · rfl
      · intro r hr
        simp [pend, IMap.get_modify, hr]
      · simp only [pend, IMap.get_modify_same, mul_one]
        rw [effRy_neg_right, hE, ← mul_assoc, hK]
      · rw [one_smul, gateL_one]; rfl
    have e2 : Qir.abs { s2 with hFlag := setBit s2.hFlag t (!s2.hFlag.testBit t) } =
        (1 : ℂ) • gateL K' t (Qir.abs s2) := by
      refine abs_gate ?_ ht2 (U := K') (U' := 1) (c := 1) ?_ ?_ ?_
      · rfl
      · intro r hr
        simp [pend, testBit_setBit, hr]
      · simp only [pend, testBit_setBit, if_true, hh2, hrx2, hry2, optRx_none, optH_false, mul_one, effRy_none_left,
          Bool.not_false, optH_true, one_mul]
        exact hK2
      · rw [one_smul, gateL_one]; rfl
    rw [e2, hs2.abs, e1, one_smul, one_smul, ← Module.End.mul_apply, gateL_mul, hK3]

/-! ### Rotations kept in the queues -/

theorem addAngle_get (q : IMap ℝ) (t : ℕ) (θ : ℝ) (r : ℕ) :
    (addAngle 0 q t θ).get r = if r = t then
      (match q.get t with | some a => if a + θ = 0 then none else some (a + θ) | none => some θ)
      else q.get r := by
  unfold addAngle
  cases h : q.get t with
  | none => simp [IMap.get_insert]
  | some a =>
    simp only [nearlyZeroR_zero]
    by_cases h0 : a + θ = 0
    · simp only [h0, if_true, IMap.get_remove, IMap.get_modify]
      split <;> simp
    · simp only [h0, if_false, IMap.get_modify, h, Option.map_some]

theorem optRx_add (q : IMap ℝ) (t : ℕ) (θ : ℝ) :
    optRx ((addAngle 0 q t θ).get t) = matRx θ * optRx (q.get t) := by
  rw [addAngle_get]
  simp only [if_true]
  cases q.get t with
  | none => simp
  | some a =>
    simp only [optRx_some, Rx_Rx]
    split
    · rename_i h; rw [add_comm, h, Rx_zero, optRx_none]
    · rw [optRx_some, add_comm]

theorem optRy_add (q : IMap ℝ) (t : ℕ) (θ : ℝ) :
    optRy ((addAngle 0 q t θ).get t) = matRy θ * optRy (q.get t) := by
  rw [addAngle_get]
  simp only [if_true]
  cases q.get t with
  | none => simp
  | some a =>
    simp only [optRy_some, Ry_Ry]
    split
    · rename_i h; rw [add_comm, h, Ry_zero, optRy_none]
    · rw [optRy_some, add_comm]

theorem rx_step {env : Env} (he : env.eps = 0) {s : Sim} (hw : WF s) {t : ℕ}
    (ht : (s.idMap.get t).isSome) (θ : ℝ) :
    ∃ s', s.rx env θ t = .ok s' ∧ Step s s' (gateL (matRx θ) t) := by
  unfold Sim.rx
  obtain ⟨s1, h1, hs1, hc1⟩ := flushIf_spec he .HRxRy [t] (s.hFlag.testBit t || s.ryQ.containsKey t) hw
  rw [h1]
  simp only [ok_bind, pure_ok, he]
  have hq : s1.hFlag.testBit t = false ∧ s1.ryQ.get t = none := by
    split at hc1
    · exact ⟨by rw [hc1.h]; simp, by rw [hc1.ry]; simp⟩
    · rename_i h
      rw [hc1]
      simp only [IMap.containsKey_eq, Bool.or_eq_true, not_or, Bool.not_eq_true,
        Option.isSome_eq_false_iff, Option.isNone_iff_eq_none] at h
      exact h
  have ht1 : (s1.idMap.get t).isSome := by rw [hs1.idMap]; exact ht
  refine ⟨_, rfl, Step.of_same hs1 (Step.exact ⟨hs1.wf.b, ?_⟩ rfl rfl ?_)⟩
  · intro q hq
    by_cases hqt : q = t
    · subst hqt; exact ht1
    · apply hs1.wf.queued
      rw [hasQueued_eq] at hq ⊢
      simpa [addAngle_get, hqt] using hq
  · rw [← one_smul ℂ (gateL (matRx θ) t (Qir.abs s1))]
    refine abs_gate ?_ ht1 (U := matRx θ) (U' := 1) (c := 1) ?_ ?_ ?_
    · rfl
    · intro r hr
      simp [pend, addAngle_get, hr]
    · simp only [pend, optRx_add, hq.1, hq.2, effRy_none_right, optRy_none, optH_false, one_mul, mul_one]
    · rw [one_smul, gateL_one]; rfl

theorem X_X : matX * matX = 1 := by
  ext r k; cases r <;> cases k <;> simp [matX, mat, Matrix.mul_apply]

theorem optRy_neg (o : Option ℝ) (θ : ℝ) {p : Option ℝ} (h : optRy p = matRy θ * optRy o) :
    optRy (p.map (fun a => a * (-1))) = matRy (-θ) * optRy (o.map (fun a => a * (-1))) := by
  have h1 : optRy (p.map (fun a => a * (-1))) = matX * (optRy p * matX) := by
    rw [optRy_anti X_Ry, X_X, mul_one]
  have h2 : optRy (o.map (fun a => a * (-1))) = matX * (optRy o * matX) := by
    rw [optRy_anti X_Ry, X_X, mul_one]
  rw [h1, h2, h, ← mul_assoc, ← mul_assoc, X_Ry]
  simp only [mul_assoc]

open Classical in
/-- `ry` is the rotation about Y, unless a half-turn about X is queued on the same qubit: then it
is the rotation by the opposite angle. -/
theorem ry_step {env : Env} (he : env.eps = 0) {s : Sim} (hw : WF s) {t : ℕ}
    (ht : (s.idMap.get t).isSome) (θ : ℝ) :
    ∃ s', s.ry env θ t = .ok s' ∧
      Step s s' (gateL (matRy (if HalfTurn (s.rxQ.get t) then -θ else θ)) t) := by
  unfold Sim.ry
  rw [he]
  refine ⟨_, rfl, Step.exact ⟨hw.b, ?_⟩ rfl rfl ?_⟩
  · intro q hq
    by_cases hqt : q = t
    · subst hqt; exact ht
    · apply hw.queued
      rw [hasQueued_eq] at hq ⊢
      simpa [addAngle_get, hqt] using hq
  · rw [← one_smul ℂ (gateL (matRy (if HalfTurn (s.rxQ.get t) then -θ else θ)) t (Qir.abs s))]
    refine abs_gate ?_ ht (U := matRy (if HalfTurn (s.rxQ.get t) then -θ else θ)) (U' := 1) (c := 1)
      ?_ ?_ ?_
    · rfl
    · intro r hr
      simp [pend, addAngle_get, hr]
    · simp only [pend, mul_one, ← mul_assoc]
      congr 2
      unfold effRy
      by_cases h : HalfTurn (s.rxQ.get t)
      · simp only [if_pos h]; exact (optRy_neg _ _ (optRy_add s.ryQ t θ)).symm
      · simp only [if_neg h]; exact (optRy_add s.ryQ t θ).symm
    · rw [one_smul, gateL_one]; rfl

/-! ### Gates that flush their operands first -/

/-- Enqueue a controlled operation whose controls have nothing pending. -/
theorem enqueue_step {s : Sim} (hw : WF s) {t : ℕ} {cs : List ℕ} (hok : OpndsOk s.idMap cs t)
    (op : OpCode) (hcs : ∀ c ∈ cs, pend s c = 1) {U : Mat2}
    (hU : U * pend s t = pend s t * opMat op) :
    ∃ s', s.enqueueOp t cs op = .ok s' ∧ Step s s' (ctrlL cs U t) := by
  obtain ⟨st, q, hs, hb, hv⟩ := enqueueOp_spec hw.b op hok
  refine ⟨_, hs, Step.exact ⟨hb, hw.queued⟩ rfl rfl ?_⟩
  refine abs_ctrl ?_ (hok.2 t (by simp)) hok.not_mem ?_ hcs hU ?_
  · rfl
  · intro q; rfl
  · exact hv

theorem opndsOk_congr {m m' : IMap ℕ} (h : m' = m) {cs : List ℕ} {t : ℕ} (hok : OpndsOk m cs t) :
    OpndsOk m' cs t := by rw [h]; exact hok

theorem diagGate_step {env : Env} (he : env.eps = 0) {s : Sim} (hw : WF s) {t : ℕ}
    (ht : (s.idMap.get t).isSome) (op : OpCode) :
    ∃ s', s.diagGate env op t = .ok s' ∧ Step s s' (gateL (opMat op) t) := by
  unfold diagGate
  obtain ⟨s1, h1, hs1, hc1⟩ := maybeFlush_spec he [t] hw
  have ht1 : (s1.idMap.get t).isSome := by rw [hs1.idMap]; exact ht
  obtain ⟨s2, h2, hs2⟩ := enqueue_step hs1.wf (single_ok ht1) op (U := opMat op) (by simp)
    (by rw [hc1.pend_eq_one (by simp)]; simp)
  rw [h1]
  exact ⟨s2, h2, Step.of_same hs1 hs2⟩

theorem mcDiagGate_step {env : Env} (he : env.eps = 0) {s : Sim} (hw : WF s) {t : ℕ} {cs : List ℕ}
    (hok : OpndsOk s.idMap cs t) (op : OpCode) :
    ∃ s', s.mcDiagGate env op cs t = .ok s' ∧ Step s s' (ctrlL cs (opMat op) t) := by
  unfold mcDiagGate
  obtain ⟨s1, h1, hs1, hc1⟩ := maybeFlush_spec he cs hw
  obtain ⟨s2, h2, hs2, hc2⟩ := maybeFlush_spec he [t] hs1.wf
  have hs := hs1.trans hs2
  obtain ⟨s3, h3, hs3⟩ := enqueue_step hs2.wf (opndsOk_congr hs.idMap hok) op (U := opMat op)
    (fun c hc => pend_of_not_queued (hc2.mono_queued (hc1.not_queued hc)))
    (by rw [hc2.pend_eq_one (by simp)]; simp)
  simp only [h1, ok_bind, h2]
  exact ⟨s3, h3, Step.of_same hs hs3⟩

theorem mcphase_step {env : Env} (he : env.eps = 0) {s : Sim} (hw : WF s) {t : ℕ} {cs : List ℕ}
    (hok : OpndsOk s.idMap cs t) (φ : ℂ) :
    ∃ s', s.mcphase env cs φ t = .ok s' ∧ Step s s' (ctrlL cs (matPhase φ) t) := by
  unfold mcphase
  obtain ⟨s1, h1, hs1, hc1, _⟩ := flushQueue_spec he .HRxRy cs hw
  obtain ⟨s2, h2, hs2, hc2, ho2⟩ := flushQueue_spec he .HRxRy [t] hs1.wf
  have hs := hs1.trans hs2
  have hok2 := opndsOk_congr hs.idMap hok
  obtain ⟨tl, csl, hr, htl, hcsl⟩ := resolveAndCheck_ok hok2
  simp only [h1, ok_bind, h2, hr, pure_ok]
  have hst : view s2.idMap (s2.state.map (fun e =>
      if csl.all (fun c => e.1.testBit c) then phaseTransform φ e tl else e)) =
      ctrlL cs (matPhase φ) t (view s2.idMap s2.state) := by
    apply view_map_of
    intro e _
    exact entryWave_phase hcsl htl hok.not_mem 1 φ e
  refine ⟨_, rfl, Step.of_same hs (Step.exact ⟨⟨?_, hs2.wf.b.ops⟩, hs2.wf.queued⟩
    rfl rfl ?_)⟩
  · apply hs2.wf.b.core.mapKey
    intro e; split <;> rfl
  · refine abs_ctrl ?_ (hok2.2 t (by simp)) hok.not_mem ?_
      (fun c hc => pend_of_not_queued (hc2.mono_queued (hc1.not_queued hc))) ?_ ?_
      (U' := matPhase φ)
    · rfl
    · intro q; rfl
    · rw [hc2.pend_eq_one (by simp)]; simp
    · simp only [base, ho2, opsL_nil, Module.End.one_apply]; exact hst

theorem mch_step {env : Env} (he : env.eps = 0) {s : Sim} (hw : WF s) {t : ℕ} {cs : List ℕ}
    (hok : OpndsOk s.idMap cs t) :
    ∃ s', s.mch env cs t = .ok s' ∧ Step s s' (ctrlL cs matH t) := by
  unfold mch
  obtain ⟨s1, h1, hs1, hc1, _⟩ := flushQueue_spec he .HRxRy cs hw
  obtain ⟨s2, h2, hs2, hc2⟩ := flushIf_spec he .HRxRy [t]
    (s1.ryQ.containsKey t || s1.rxQ.containsKey t) hs1.wf
  have hs := hs1.trans hs2
  have hok2 := opndsOk_congr hs.idMap hok
  simp only [h1, ok_bind, h2]
  have hq : s2.rxQ.get t = none ∧ s2.ryQ.get t = none := by
    split at hc2
    · exact ⟨by rw [hc2.rx]; simp, by rw [hc2.ry]; simp⟩
    · rename_i h
      rw [hc2]
      simp only [IMap.containsKey_eq, Bool.or_eq_true, not_or, Bool.not_eq_true,
        Option.isSome_eq_false_iff, Option.isNone_iff_eq_none] at h
      exact ⟨h.2, h.1⟩
  have hcs : ∀ c ∈ cs, pend s2 c = 1 := by
    intro c hc
    apply pend_of_not_queued
    split at hc2
    · exact hc2.mono_queued (hc1.not_queued hc)
    · rw [hc2]; exact hc1.not_queued hc
  obtain ⟨st, h3, hcore, hv⟩ := applyMch_spec he hs2.wf.b hok2
  refine ⟨_, h3, Step.of_same hs (Step.exact ⟨WFB.nil hcore, hs2.wf.queued⟩ rfl rfl ?_)⟩
  refine abs_ctrl ?_ (hok2.2 t (by simp)) hok.not_mem ?_ hcs (U' := matH) ?_ ?_
  · rfl
  · intro q; rfl
  · simp only [pend, hq.1, hq.2, optRy_none, optRx_none, one_mul]
    cases s2.hFlag.testBit t <;> simp
  · simpa [base] using hv

end Qir
