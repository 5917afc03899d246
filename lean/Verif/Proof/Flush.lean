import Verif.Proof.Base

/-! Flushing queued gates does not change the state a simulator state stands for. -/

noncomputable section
namespace Qir
open Spec Function Sim

theorem abs_split {s : Sim} {t : ℕ} (ht : (s.idMap.get t).isSome) :
    abs s = pendL (update (pend s) t 1) s.idMap.keys (gateL (pend s t) t (base s)) := by
  unfold abs
  rw [pendL_extract' (IMap.keys_nodup _) ((IMap.mem_keys _ _).2 ht)]; rfl

theorem update_pend_congr {s s' : Sim} {t : ℕ} (h : ∀ q, q ≠ t → pend s' q = pend s q) (M : Mat2) :
    update (pend s') t M = update (pend s) t M := by
  funext q
  by_cases hq : q = t
  · subst hq; simp
  · simp [update_of_ne hq, h q hq]

/-- An uncontrolled gate, possibly changing what is pending on its target. -/
theorem abs_gate {s s' : Sim} (hm : s'.idMap = s.idMap) {t : ℕ} (ht : (s.idMap.get t).isSome)
    (ho : ∀ q, q ≠ t → pend s' q = pend s q) {U U' : Mat2} (c : ℂ)
    (hU : U * pend s t = pend s' t * U') (hb : base s' = c • gateL U' t (base s)) :
    abs s' = c • gateL U t (abs s) := by
  have ht' : (s'.idMap.get t).isSome := by rw [hm]; exact ht
  rw [abs_split ht', abs_split ht, update_pend_congr ho, hm, hb, map_smul, map_smul,
    ← Module.End.mul_apply (gateL U t), pendL_update_comm, Module.End.mul_apply,
    ← Module.End.mul_apply (gateL (pend s' t) t), gateL_mul, ← hU, ← gateL_mul]
  rfl

/-- A controlled gate that leaves the pending gates alone. -/
theorem abs_ctrl {s s' : Sim} (hm : s'.idMap = s.idMap) {t : ℕ} {cs : List ℕ}
    (ht : (s.idMap.get t).isSome) (hn : t ∉ cs)
    (ho : ∀ q, pend s' q = pend s q) (hcs : ∀ c ∈ cs, pend s c = 1) {U U' : Mat2}
    (hU : U * pend s t = pend s t * U') (hb : base s' = ctrlL cs U' t (base s)) :
    abs s' = ctrlL cs U t (abs s) := by
  have ht' : (s'.idMap.get t).isSome := by rw [hm]; exact ht
  have hcomm : ctrlL cs U t * pendL (update (pend s) t 1) s.idMap.keys =
      pendL (update (pend s) t 1) s.idMap.keys * ctrlL cs U t := by
    apply comm_pendL
    intro q _
    by_cases hq : q = t
    · subst hq; rw [update_self, gateL_one, mul_one, one_mul]
    · rw [update_of_ne hq]
      by_cases hqc : q ∈ cs
      · rw [hcs q hqc, gateL_one, mul_one, one_mul]
      · exact ctrlL_comm_gateL hq hqc _ _
  rw [abs_split ht', abs_split ht, update_pend_congr (fun q _ => ho q), hm, hb,
    ← Module.End.mul_apply (ctrlL cs U t), hcomm, Module.End.mul_apply, ho t]
  congr 1
  rw [← Module.End.mul_apply, ← Module.End.mul_apply, ctrlL_gateL_same hn hU]

/-- What a flush of the qubits `ts` leaves in the queues. -/
structure Cleared (level : FlushLevel) (ts : List ℕ) (s s' : Sim) : Prop where
  h : ∀ q, s'.hFlag.testBit q = if q ∈ ts then false else s.hFlag.testBit q
  rx : ∀ q, s'.rxQ.get q = if q ∈ ts ∧ level ≠ .H then none else s.rxQ.get q
  ry : ∀ q, s'.ryQ.get q = if q ∈ ts ∧ level = .HRxRy then none
    else if q ∈ ts ∧ level = .HRx then effRy (s.rxQ.get q) (s.ryQ.get q) else s.ryQ.get q

/-- A step that changes the representation only. -/
structure Same (s s' : Sim) : Prop where
  wf : WF s'
  idMap : s'.idMap = s.idMap
  rng : s'.rng = s.rng
  abs : abs s' = abs s

theorem Same.refl {s : Sim} (h : WF s) : Same s s := ⟨h, rfl, rfl, rfl⟩
theorem Same.trans {s s' s'' : Sim} (h : Same s s') (h' : Same s' s'') : Same s s'' :=
  ⟨h'.wf, h'.idMap.trans h.idMap, h'.rng.trans h.rng, h'.abs.trans h.abs⟩

/-- Fewer queue entries keep the queue invariants. -/
theorem WF.shrink {s s' : Sim} (hw : WF s) (hm : s'.idMap = s.idMap)
    (hb : WFB s'.idMap s'.state s'.opQ)
    (hh : ∀ q, s'.hFlag.testBit q = true → s.hFlag.testBit q = true)
    (hrx : ∀ q θ, s'.rxQ.get q = some θ → s.rxQ.get q = some θ)
    (hry : ∀ q, (s'.ryQ.get q).isSome = true → (s.ryQ.get q).isSome = true) : WF s' := by
  refine ⟨hb, ?_⟩
  intro q hq
  rw [hm]; apply hw.queued
  rw [hasQueued_eq] at hq ⊢
  simp only [Bool.or_eq_true] at hq ⊢
  rcases hq with (hq | hq) | hq
  · exact Or.inl (Or.inl (hh q hq))
  · obtain ⟨θ, hq⟩ := Option.isSome_iff_exists.1 hq
    exact Or.inl (Or.inr (by rw [hrx q θ hq]; rfl))
  · exact Or.inr (hry q hq)

theorem WF.queued_h {s : Sim} (hw : WF s) {q : ℕ} (h : s.hFlag.testBit q = true) :
    (s.idMap.get q).isSome := hw.queued q (by rw [hasQueued_eq, h]; simp)
theorem WF.queued_rx {s : Sim} (hw : WF s) {q : ℕ} {θ : ℝ} (h : s.rxQ.get q = some θ) :
    (s.idMap.get q).isSome := hw.queued q (by rw [hasQueued_eq, h]; simp)
theorem WF.queued_ry {s : Sim} (hw : WF s) {q : ℕ} {θ : ℝ} (h : s.ryQ.get q = some θ) :
    (s.idMap.get q).isSome := hw.queued q (by rw [hasQueued_eq, h]; simp)

/-- The first branch of `flush_queue`'s loop body. -/
theorem flushH_spec {env : Env} (he : env.eps = 0) {s : Sim} (hw : WF s) (t : ℕ) :
    ∃ s', s.flushH env t = .ok s' ∧ Same s s' ∧ Cleared .H [t] s s' := by
  unfold flushH
  by_cases hh : s.hFlag.testBit t = true
  · rw [if_pos hh]
    have ht := hw.queued_h hh
    obtain ⟨st, hs, hc, hv⟩ := applyMch_spec he hw.b (single_ok ht)
    rw [hs]
    have hcl : Cleared .H [t] s
        { s with state := st, opQ := [], hFlag := setBit s.hFlag t false } := by
      refine ⟨?_, by simp, by simp⟩
      intro q; simp only [testBit_setBit, List.mem_singleton]
    refine ⟨_, rfl, ⟨?_, rfl, rfl, ?_⟩, hcl⟩
    · refine WF.shrink hw ?_ (WFB.nil hc) ?_ ?_ ?_
      · rfl
      rotate_left
      · simp
      · simp
      intro q hq
      simp only [testBit_setBit] at hq
      split at hq
      · cases hq
      · exact hq
    · have := abs_gate (s := s)
        (s' := { s with state := st, opQ := [], hFlag := setBit s.hFlag t false }) rfl ht
        (U := 1) (U' := matH) (c := 1) ?_ ?_ ?_
      · simpa [gateL_one] using this
      · intro q hq
        simp [pend, testBit_setBit, hq]
      · simp [pend, testBit_setBit, hh, mul_assoc]
      · simp only [one_smul]
        exact (show base _ = view s.idMap st from by simp [base]).trans hv
  · rw [if_neg hh]
    refine ⟨s, rfl, Same.refl hw, ⟨?_, by simp, by simp⟩⟩
    intro q
    split
    · rename_i hq; simp only [List.mem_singleton] at hq; subst hq; simpa using hh
    · rfl

theorem x_enqueue {s : Sim} (hw : WFB s.idMap s.state s.opQ) {t : ℕ} (ht : (s.idMap.get t).isSome)
    (hry : s.ryQ.get t = none) (hh : s.hFlag.testBit t = false) :
    ∃ st q, s.x t = .ok { s with state := st, opQ := q } ∧ WFB s.idMap st q ∧
      opsL q (view s.idMap st) = ctrlL [] matX t (base s) := by
  have := enqueueOp_spec hw .X (single_ok ht)
  unfold Sim.x
  simp only [modify_none _ hry, hh, Bool.false_eq_true, if_false]
  exact this

theorem y_enqueue {s : Sim} (hw : WFB s.idMap s.state s.opQ) {t : ℕ} (ht : (s.idMap.get t).isSome)
    (hrx : s.rxQ.get t = none) :
    ∃ st q, s.y t = .ok { s with state := st, opQ := q } ∧ WFB s.idMap st q ∧
      opsL q (view s.idMap st) = ctrlL [] matY t (base s) := by
  have := enqueueOp_spec hw .Y (single_ok ht)
  unfold Sim.y
  simp only [modify_none _ hrx]
  exact this

open Classical in
theorem flushRx_spec {env : Env} (he : env.eps = 0) {s : Sim} (hw : WF s) (t : ℕ)
    (hh : s.hFlag.testBit t = false) :
    ∃ s', s.flushRx env t = .ok s' ∧ Same s s' ∧ s'.hFlag = s.hFlag ∧
      (∀ q, s'.rxQ.get q = if q = t then none else s.rxQ.get q) ∧
      (∀ q, s'.ryQ.get q = if q = t then effRy (s.rxQ.get t) (s.ryQ.get t) else s.ryQ.get q) := by
  unfold flushRx
  cases hθ : s.rxQ.get t with
  | none =>
    refine ⟨s, rfl, Same.refl hw, rfl, ?_, ?_⟩
    · intro q; split
      · rename_i hq; subst hq; exact hθ
      · rfl
    · intro q; split
      · rename_i hq; subst hq; simp
      · rfl
  | some θ =>
    have ht := hw.queued_rx hθ
    obtain ⟨ryQ', hry', hrun⟩ : ∃ ryQ' : IMap ℝ,
        (∀ q, ryQ'.get q = if q = t then effRy (some θ) (s.ryQ.get t) else s.ryQ.get q) ∧
        mcrotation env (Sim.x t) [] θ t false s =
          mcrotation env (enqueueOp t [] .X) [] θ t false { s with ryQ := ryQ' } := by
      by_cases hcos : Real.cos (θ / 2) = 0
      · refine ⟨s.ryQ.modify t (fun a => a * (-1)), ?_, mcrotation_half he hcos ?_ _ _ _⟩
        · intro q
          have : effRy (some θ) (s.ryQ.get t) = (s.ryQ.get t).map (fun a => a * (-1)) := by
            unfold effRy; exact if_pos ⟨θ, rfl, hcos⟩
          rw [IMap.get_modify, this]
        · unfold Sim.x
          simp only [hh, Bool.false_eq_true, if_false]
      · refine ⟨s.ryQ, ?_, ?_⟩
        · intro q
          have : effRy (some θ) (s.ryQ.get t) = s.ryQ.get t := by
            unfold effRy; exact if_neg (by rintro ⟨b, hb, hc⟩; cases hb; exact hcos hc)
          rw [this]
          split
          · rename_i hq; rw [hq]
          · rfl
        · have h0 : ¬ rotM00 θ = 0 := by rw [rotM00_eq]; exact_mod_cast hcos
          unfold mcrotation
          simp only [he, nearlyZero_zero, if_neg h0]
    obtain ⟨st, q, hs, hb, hv⟩ := mcrotation_spec he (s := { s with ryQ := ryQ' }) hw.b (single_ok ht)
      (pauli := enqueueOp t [] .X) (flip := false) (θ := θ)
      (fun _ => enqueueOp_spec (s := { s with ryQ := ryQ' }) hw.b .X (single_ok ht))
    simp only [hrun, hs, ok_bind, pure_ok]
    refine ⟨_, rfl, ⟨?_, rfl, rfl, ?_⟩, rfl, ?_, hry'⟩
    · refine WF.shrink hw ?_ hb ?_ ?_ ?_
      · rfl
      · simp
      · intro q θ hq
        simp only [IMap.get_remove] at hq
        split at hq
        · cases hq
        · exact hq
      · intro q hq
        simp only [hry'] at hq
        split at hq
        · rename_i h; subst h; simpa using hq
        · exact hq
    · have := abs_gate (s := s) (s' := { s with
          state := st
          opQ := q
          ryQ := ryQ'
          rxQ := s.rxQ.remove t }) rfl ht
        (U := 1) (U' := matRx θ) (c := 1) ?_ ?_ ?_
      · simpa [gateL_one] using this
      · intro q hq
        simp [pend, IMap.get_remove, hq, hry']
      · simp [pend, IMap.get_remove, hh, hθ, hry']
      · simp only [one_smul]
        exact hv
    · intro q; simp [IMap.get_remove]

theorem flushRy_spec {env : Env} (he : env.eps = 0) {s : Sim} (hw : WF s) (t : ℕ)
    (hh : s.hFlag.testBit t = false) (hrx : s.rxQ.get t = none) :
    ∃ s', s.flushRy env t = .ok s' ∧ Same s s' ∧ s'.hFlag = s.hFlag ∧ s'.rxQ = s.rxQ ∧
      (∀ q, s'.ryQ.get q = if q = t then none else s.ryQ.get q) := by
  unfold flushRy
  cases hθ : s.ryQ.get t with
  | none =>
    refine ⟨s, rfl, Same.refl hw, rfl, rfl, ?_⟩
    intro q; split
    · rename_i hq; subst hq; exact hθ
    · rfl
  | some θ =>
    have ht := hw.queued_ry hθ
    obtain ⟨st, q, hs, hb, hv⟩ := mcrotation_spec he hw.b (single_ok ht) (pauli := Sim.y t)
      (flip := true) (θ := θ) (fun _ => y_enqueue hw.b ht hrx)
    simp only [hs, ok_bind, pure_ok]
    refine ⟨_, rfl, ⟨?_, rfl, rfl, ?_⟩, rfl, rfl, ?_⟩
    · refine WF.shrink hw ?_ hb ?_ ?_ ?_
      · rfl
      · simp
      · simp
      intro q hq
      simp only [IMap.get_remove] at hq
      split at hq
      · cases hq
      · exact hq
    · have := abs_gate (s := s) (s' := { s with state := st, opQ := q, ryQ := s.ryQ.remove t }) rfl ht
        (U := 1) (U' := matRy θ) (c := 1) ?_ ?_ ?_
      · simpa [gateL_one] using this
      · intro q hq
        simp [pend, IMap.get_remove, hq]
      · simp [pend, IMap.get_remove, hh, hθ, hrx]
      · simp only [one_smul]
        exact hv
    · intro q; simp [IMap.get_remove]

theorem flushOne_spec {env : Env} (he : env.eps = 0) {s : Sim} (hw : WF s) (level : FlushLevel)
    (t : ℕ) : ∃ s', s.flushOne env level t = .ok s' ∧ Same s s' ∧ Cleared level [t] s s' := by
  unfold flushOne
  obtain ⟨s1, h1, hs1, hc1⟩ := flushH_spec he hw t
  simp only [h1, ok_bind]
  have hh1 : s1.hFlag.testBit t = false := by rw [hc1.h]; simp
  cases level with
  | H => exact ⟨s1, rfl, hs1, hc1⟩
  | HRx =>
    obtain ⟨s2, h2, hs2, a, b, c⟩ := flushRx_spec he hs1.wf t hh1
    simp only [h2]
    refine ⟨s2, rfl, hs1.trans hs2, ⟨?_, ?_, ?_⟩⟩
    · intro q; rw [a, hc1.h]
    · intro q; rw [b, hc1.rx]; simp
    · intro q; rw [c, hc1.ry, hc1.ry, hc1.rx]
      by_cases hq : q = t
      · subst hq; simp
      · simp [hq]
  | HRxRy =>
    obtain ⟨s2, h2, hs2, a, b, c⟩ := flushRx_spec he hs1.wf t hh1
    obtain ⟨s3, h3, hs3, a', b', c'⟩ := flushRy_spec he hs2.wf t (by rw [a, hh1]) (by rw [b]; simp)
    simp only [h2, ok_bind, h3]
    refine ⟨s3, rfl, (hs1.trans hs2).trans hs3, ⟨?_, ?_, ?_⟩⟩
    · intro q; rw [a', a, hc1.h]
    · intro q; rw [b', b, hc1.rx]; simp
    · intro q; rw [c', c]
      by_cases hq : q = t
      · subst hq; simp
      · simp [hq, hc1.ry]

theorem flushLoop_spec {env : Env} (he : env.eps = 0) (level : FlushLevel) (ts : List ℕ) {s : Sim}
    (hw : WF s) : ∃ s', s.flushLoop env level ts = .ok s' ∧ Same s s' ∧ Cleared level ts s s' := by
  induction ts generalizing s with
  | nil => exact ⟨s, rfl, Same.refl hw, ⟨by simp, by simp, by simp⟩⟩
  | cons t ts ih =>
    obtain ⟨s1, h1, hs1, hc1⟩ := flushOne_spec he hw level t
    obtain ⟨s2, h2, hs2, hc2⟩ := ih hs1.wf
    refine ⟨s2, by simp only [flushLoop, h1, ok_bind, h2], hs1.trans hs2, ⟨?_, ?_, ?_⟩⟩
    · intro q
      rw [hc2.h, hc1.h]
      by_cases h1 : q = t <;> by_cases h2 : q ∈ ts <;> simp [h1, h2]
    · intro q
      rw [hc2.rx, hc1.rx]
      by_cases h1 : q = t <;> by_cases h2 : q ∈ ts <;> by_cases h3 : level = .H <;> simp [h1, h2, h3]
    · intro q
      rw [hc2.ry, hc1.ry, hc1.rx]
      by_cases h3 : q = t <;> by_cases h4 : q ∈ ts <;> cases level <;> simp [h3, h4]

theorem Same.flushOps {s : Sim} (hw : WF s) :
    ∃ s', s.flushOps = .ok s' ∧ Same s s' ∧ s'.opQ = [] ∧ s'.hFlag = s.hFlag ∧ s'.rxQ = s.rxQ ∧
      s'.ryQ = s.ryQ := by
  obtain ⟨st, hs, hc, hv⟩ := flushOps_spec hw.b
  refine ⟨_, hs, ⟨⟨WFB.nil hc, hw.queued⟩, rfl, rfl, ?_⟩, rfl, rfl, rfl, rfl⟩
  have : base { s with state := st, opQ := [] } = base s := by simpa [base] using hv
  unfold Qir.abs
  rw [this]; rfl

theorem flushQueue_spec {env : Env} (he : env.eps = 0) (level : FlushLevel) (ts : List ℕ) {s : Sim}
    (hw : WF s) : ∃ s', s.flushQueue env ts level = .ok s' ∧ Same s s' ∧ Cleared level ts s s' ∧
      s'.opQ = [] := by
  obtain ⟨s1, h1, hs1, hc1⟩ := flushLoop_spec he level ts hw
  obtain ⟨s2, h2, hs2, ho, ha, hb, hc⟩ := Same.flushOps hs1.wf
  refine ⟨s2, by simp only [flushQueue, h1, ok_bind, h2], hs1.trans hs2, ⟨?_, ?_, ?_⟩, ho⟩
  · intro q; rw [ha, hc1.h]
  · intro q; rw [hb, hc1.rx]
  · intro q; rw [hc, hc1.ry]

theorem Cleared.refl_of {s : Sim} {ts : List ℕ} (h : ∀ q ∈ ts, s.hasQueued q = false) :
    Cleared .HRxRy ts s s := by
  refine ⟨?_, ?_, ?_⟩ <;> intro q <;> by_cases hq : q ∈ ts <;> simp only [hq, true_and, false_and,
    if_true, if_false]
  all_goals
    have := h q hq
    rw [hasQueued_eq] at this
    simp only [Bool.or_eq_false_iff, Option.isSome_eq_false_iff, Option.isNone_iff_eq_none] at this
    simp [this.1.1, this.1.2, this.2]

theorem maybeFlush_spec {env : Env} (he : env.eps = 0) (ts : List ℕ) {s : Sim}
    (hw : WF s) : ∃ s', s.maybeFlush env ts .HRxRy = .ok s' ∧ Same s s' ∧ Cleared .HRxRy ts s s' := by
  unfold maybeFlush
  split
  · obtain ⟨s', h1, h2, h3, _⟩ := flushQueue_spec he .HRxRy ts hw
    exact ⟨s', h1, h2, h3⟩
  · rename_i h
    refine ⟨s, rfl, Same.refl hw, Cleared.refl_of ?_⟩
    intro q hq
    simp only [List.any_eq_true, not_exists, not_and] at h
    simpa using h q hq

theorem flushIf_spec {env : Env} (he : env.eps = 0) (level : FlushLevel) (ts : List ℕ) (c : Bool)
    {s : Sim} (hw : WF s) : ∃ s', s.flushIf env c ts level = .ok s' ∧ Same s s' ∧
      (if c then Cleared level ts s s' else s' = s) := by
  unfold flushIf
  cases c
  · exact ⟨s, rfl, Same.refl hw, by simp⟩
  · obtain ⟨s', h1, h2, h3, _⟩ := flushQueue_spec he level ts hw
    exact ⟨s', by simpa using h1, h2, by simpa using h3⟩

theorem Cleared.not_queued {s s' : Sim} {ts : List ℕ} (h : Cleared .HRxRy ts s s') {q : ℕ}
    (hq : q ∈ ts) : s'.hasQueued q = false := by
  rw [hasQueued_eq, h.h, h.rx, h.ry]; simp [hq]

theorem Cleared.pend_eq_one {s s' : Sim} {ts : List ℕ} (h : Cleared .HRxRy ts s s') {q : ℕ}
    (hq : q ∈ ts) : pend s' q = 1 := pend_of_not_queued (h.not_queued hq)

theorem Cleared.mono_queued {s s' : Sim} {l : FlushLevel} {ts : List ℕ} (h : Cleared l ts s s') {q : ℕ}
    (hq : s.hasQueued q = false) : s'.hasQueued q = false := by
  rw [hasQueued_eq] at hq ⊢
  simp only [Bool.or_eq_false_iff, Option.isSome_eq_false_iff, Option.isNone_iff_eq_none] at hq ⊢
  rw [h.h, h.rx, h.ry, hq.1.1, hq.1.2, hq.2]
  simp

end Qir
