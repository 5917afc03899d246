import Verif.Proof.TolBase

/-! Flushing queued gates with a positive tolerance: every flushed gate costs at most one unit. -/

noncomputable section
namespace Qir.Tol
open Spec Function Sim

/-- Well-formed simulator states of length at most one. -/
structure WF (s : Sim) : Prop extends Qir.WF s where
  slim : len (base s) ≤ 1

/-- What a flush of the qubits `ts` leaves in the queues. -/
structure Cleared (ε : ℝ) (level : FlushLevel) (ts : List ℕ) (s s' : Sim) : Prop where
  h : ∀ q, s'.hFlag.testBit q = if q ∈ ts then false else s.hFlag.testBit q
  rx : ∀ q, s'.rxQ.get q = if q ∈ ts ∧ level ≠ .H then none else s.rxQ.get q
  ry : ∀ q, s'.ryQ.get q = if q ∈ ts ∧ level = .HRxRy then none
    else if q ∈ ts ∧ level = .HRx then effRy ε (s.rxQ.get q) (s.ryQ.get q) else s.ryQ.get q

/-- A step that changes the representation, and the represented state by at most `d` units. -/
structure Same (ε : ℝ) (s s' : Sim) (d : ℕ) : Prop where
  wf : WF s'
  idMap : s'.idMap = s.idMap
  rng : s'.rng = s.rng
  near : Near (d * unit ε s.idMap.keys.length) (abs ε s') (abs ε s)

variable {ε : ℝ}

theorem Same.refl {s : Sim} (h : WF s) : Same ε s s 0 :=
  ⟨h, rfl, rfl, by simpa using Near.refl (finSupp_abs s)⟩
theorem Same.trans {s s' s'' : Sim} {d d' : ℕ} (h : Same ε s s' d) (h' : Same ε s' s'' d') :
    Same ε s s'' (d + d') :=
  ⟨h'.wf, h'.idMap.trans h.idMap, h'.rng.trans h.rng, by
    have h1 := h'.near
    rw [h.idMap] at h1
    have := h1.trans h.near
    rw [← add_mul, ← Nat.cast_add, Nat.add_comm] at this
    exact this⟩

theorem Same.mono {s s' : Sim} {d d' : ℕ} (h : Same ε s s' d) (hε : 0 ≤ ε) (hd : d ≤ d') :
    Same ε s s' d' :=
  ⟨h.wf, h.idMap, h.rng, h.near.mono (mul_le_mul_of_nonneg_right (by exact_mod_cast hd)
    (unit_nonneg hε _))⟩

/-- A step of the representation only. -/
theorem Same.exact {s s' : Sim} (hw : WF s') (hm : s'.idMap = s.idMap) (hr : s'.rng = s.rng)
    (h : abs ε s' = abs ε s) : Same ε s s' 0 :=
  ⟨hw, hm, hr, by rw [h]; simpa using Near.refl (finSupp_abs s)⟩

/-- The first branch of `flush_queue`'s loop body. -/
theorem flushH_spec {env : Env} (he : TolOk env) {s : Sim} (hw : WF s) (t : ℕ) :
    ∃ s', s.flushH env t = .ok s' ∧ Same env.eps s s' 1 ∧ Cleared env.eps .H [t] s s' := by
  unfold flushH
  by_cases hh : s.hFlag.testBit t = true
  · rw [if_pos hh]
    have ht := hw.queued_h hh
    obtain ⟨st, hs, hc, hv, hl⟩ := applyMch_near he hw.b (single_ok ht)
    rw [hs]
    have hcl : Cleared env.eps .H [t] s
        { s with state := st, opQ := [], hFlag := setBit s.hFlag t false } := by
      refine ⟨?_, by simp, by simp⟩
      intro q; simp only [testBit_setBit, List.mem_singleton]
    refine ⟨_, rfl, ⟨?_, rfl, rfl, ?_⟩, hcl⟩
    · refine ⟨hw.toWF.shrink ?_ (WFB.nil hc) ?_ ?_ ?_, ?_⟩
      · rfl
      · intro q hq
        simp only [testBit_setBit] at hq
        split at hq
        · cases hq
        · exact hq
      · simp
      · simp
      · exact (show len (base _) ≤ len (base s) from by simpa [base] using hl).trans hw.slim
    · have := abs_gate (s := s)
        (s' := { s with state := st, opQ := [], hFlag := setBit s.hFlag t false }) rfl ht
        (U := 1) (U' := matH) (ε := env.eps) (c := 1)
        (d := unit env.eps s.idMap.keys.length) ?_ ?_ ?_
      · simpa [gateL_one] using this
      · intro q hq
        simp [pend, testBit_setBit, hq]
      · simp [pend, testBit_setBit, hh, mul_assoc]
      · simp only [one_smul]
        rw [show base _ = view s.idMap st from by simp [base]]
        exact hv
  · rw [if_neg hh]
    refine ⟨s, rfl, (Same.refl hw).mono he.nonneg (by omega), ⟨?_, by simp, by simp⟩⟩
    intro q
    split
    · rename_i hq; simp only [List.mem_singleton] at hq; subst hq; simpa using hh
    · rfl

open Classical in
theorem flushRx_spec {env : Env} (he : TolOk env) {s : Sim} (hw : WF s) (t : ℕ)
    (hh : s.hFlag.testBit t = false) :
    ∃ s', s.flushRx env t = .ok s' ∧ Same env.eps s s' 1 ∧ s'.hFlag = s.hFlag ∧
      (∀ q, s'.rxQ.get q = if q = t then none else s.rxQ.get q) ∧
      (∀ q, s'.ryQ.get q = if q = t then effRy env.eps (s.rxQ.get t) (s.ryQ.get t) else s.ryQ.get q) := by
  unfold flushRx
  cases hθ : s.rxQ.get t with
  | none =>
    refine ⟨s, rfl, (Same.refl hw).mono he.nonneg (by omega), rfl, ?_, ?_⟩
    · intro q; split
      · rename_i hq; subst hq; exact hθ
      · rfl
    · intro q; split
      · rename_i hq; subst hq; simp
      · rfl
  | some θ =>
    have ht := hw.queued_rx hθ
    obtain ⟨ryQ', hry', hrun⟩ : ∃ ryQ' : IMap ℝ,
        (∀ q, ryQ'.get q = if q = t then effRy env.eps (some θ) (s.ryQ.get t) else s.ryQ.get q) ∧
        mcrotation env (Sim.x t) [] θ t false s =
          mcrotation env (enqueueOp t [] .X) [] θ t false { s with ryQ := ryQ' } := by
      by_cases hcos : |Real.cos (θ / 2)| ≤ env.eps
      · refine ⟨s.ryQ.modify t (fun a => a * (-1)), ?_, mcrotation_half he hcos ?_ _ _ _⟩
        · intro q
          have : effRy env.eps (some θ) (s.ryQ.get t) = (s.ryQ.get t).map (fun a => a * (-1)) := by
            unfold effRy; exact if_pos ⟨θ, rfl, hcos⟩
          rw [IMap.get_modify, this]
        · unfold Sim.x
          simp only [hh, Bool.false_eq_true, if_false]
      · refine ⟨s.ryQ, ?_, ?_⟩
        · intro q
          have : effRy env.eps (some θ) (s.ryQ.get t) = s.ryQ.get t := by
            unfold effRy; exact if_neg (by rintro ⟨b, hb, hc⟩; cases hb; exact hcos hc)
          rw [this]
          split
          · rename_i hq; rw [hq]
          · rfl
        · have h0 := fun h => hcos ((nearlyZero_cos he.nonneg θ).1 h)
          unfold mcrotation
          simp only [if_neg h0]
    obtain ⟨st, q, hs, hb, hv, hl⟩ := mcrotation_near he (s := { s with ryQ := ryQ' }) hw.b hw.slim
      (single_ok ht)
      (pauli := enqueueOp t [] .X) (flip := false) (θ := θ)
      (fun _ => enqueueOp_spec (s := { s with ryQ := ryQ' }) hw.b .X (single_ok ht))
    simp only [hrun, hs, ok_bind, pure_ok]
    refine ⟨_, rfl, ⟨?_, rfl, rfl, ?_⟩, rfl, ?_, hry'⟩
    · refine ⟨hw.toWF.shrink ?_ hb ?_ ?_ ?_, ?_⟩
      · rfl
      · simp
      · intro q θ hq
        simp only [IMap.get_remove] at hq
        split at hq
        · cases hq
        · exact hq
      · intro q hq
        simp only [hry'] at hq
        split at hq
        · rename_i h; subst h; simpa using hq
        · exact hq
      · exact le_trans hl hw.slim
    · have := abs_gate (s := s) (s' := { s with
          state := st
          opQ := q
          ryQ := ryQ'
          rxQ := s.rxQ.remove t }) rfl ht
        (U := 1) (U' := matRx θ) (ε := env.eps) (c := 1)
        (d := unit env.eps s.idMap.keys.length) ?_ ?_ ?_
      · simpa [gateL_one] using this
      · intro q hq
        simp [pend, IMap.get_remove, hq, hry']
      · simp [pend, IMap.get_remove, hh, hθ, hry']
      · simp only [one_smul]
        exact hv
    · intro q; simp [IMap.get_remove]

theorem flushRy_spec {env : Env} (he : TolOk env) {s : Sim} (hw : WF s) (t : ℕ)
    (hh : s.hFlag.testBit t = false) (hrx : s.rxQ.get t = none) :
    ∃ s', s.flushRy env t = .ok s' ∧ Same env.eps s s' 1 ∧ s'.hFlag = s.hFlag ∧ s'.rxQ = s.rxQ ∧
      (∀ q, s'.ryQ.get q = if q = t then none else s.ryQ.get q) := by
  unfold flushRy
  cases hθ : s.ryQ.get t with
  | none =>
    refine ⟨s, rfl, (Same.refl hw).mono he.nonneg (by omega), rfl, rfl, ?_⟩
    intro q; split
    · rename_i hq; subst hq; exact hθ
    · rfl
  | some θ =>
    have ht := hw.queued_ry hθ
    obtain ⟨st, q, hs, hb, hv, hl⟩ := mcrotation_near he hw.b hw.slim (single_ok ht) (pauli := Sim.y t)
      (flip := true) (θ := θ) (fun _ => y_enqueue hw.b ht hrx)
    simp only [hs, ok_bind, pure_ok]
    refine ⟨_, rfl, ⟨?_, rfl, rfl, ?_⟩, rfl, rfl, ?_⟩
    · refine ⟨hw.toWF.shrink ?_ hb ?_ ?_ ?_, le_trans hl hw.slim⟩
      · rfl
      · simp
      · simp
      intro q hq
      simp only [IMap.get_remove] at hq
      split at hq
      · cases hq
      · exact hq
    · have := abs_gate (s := s) (s' := { s with state := st, opQ := q, ryQ := s.ryQ.remove t }) rfl ht
        (U := 1) (U' := matRy θ) (ε := env.eps) (c := 1)
        (d := unit env.eps s.idMap.keys.length) ?_ ?_ ?_
      · simpa [gateL_one] using this
      · intro q hq
        simp [pend, IMap.get_remove, hq]
      · simp [pend, IMap.get_remove, hh, hθ, hrx]
      · simp only [one_smul]
        exact hv
    · intro q; simp [IMap.get_remove]

theorem flushOne_spec {env : Env} (he : TolOk env) {s : Sim} (hw : WF s) (level : FlushLevel)
    (t : ℕ) : ∃ s', s.flushOne env level t = .ok s' ∧ Same env.eps s s' 3 ∧ Cleared env.eps level [t] s s' := by
  unfold flushOne
  obtain ⟨s1, h1, hs1, hc1⟩ := flushH_spec he hw t
  simp only [h1, ok_bind]
  have hh1 : s1.hFlag.testBit t = false := by rw [hc1.h]; simp
  cases level with
  | H => exact ⟨s1, rfl, hs1.mono he.nonneg (by omega), hc1⟩
  | HRx =>
    obtain ⟨s2, h2, hs2, a, b, c⟩ := flushRx_spec he hs1.wf t hh1
    simp only [h2]
    refine ⟨s2, rfl, (hs1.trans hs2).mono he.nonneg (by omega), ⟨?_, ?_, ?_⟩⟩
    · intro q; rw [a, hc1.h]
    · intro q; rw [b, hc1.rx]; simp
    · intro q; rw [c, hc1.ry, hc1.ry, hc1.rx]
      by_cases hq : q = t
      · subst hq; simp
      · simp [hq]
  | HRxRy =>
    obtain ⟨s2, h2, hs2, a, b, c⟩ := flushRx_spec he hs1.wf t hh1
    obtain ⟨s3, h3, hs3, a', b', c'⟩ := flushRy_spec he hs2.wf t (by rw [a, hh1]) (by rw [b]; simp)
    simp only [h2, ok_bind, h3]
    refine ⟨s3, rfl, (hs1.trans hs2).trans hs3, ⟨?_, ?_, ?_⟩⟩
    · intro q; rw [a', a, hc1.h]
    · intro q; rw [b', b, hc1.rx]; simp
    · intro q; rw [c', c]
      by_cases hq : q = t
      · subst hq; simp
      · simp [hq, hc1.ry]

theorem flushLoop_spec {env : Env} (he : TolOk env) (level : FlushLevel) (ts : List ℕ) {s : Sim}
    (hw : WF s) : ∃ s', s.flushLoop env level ts = .ok s' ∧ Same env.eps s s' (3 * ts.length) ∧
      Cleared env.eps level ts s s' := by
  induction ts generalizing s with
  | nil => exact ⟨s, rfl, (Same.refl hw).mono he.nonneg (by omega), ⟨by simp, by simp, by simp⟩⟩
  | cons t ts ih =>
    obtain ⟨s1, h1, hs1, hc1⟩ := flushOne_spec he hw level t
    obtain ⟨s2, h2, hs2, hc2⟩ := ih hs1.wf
    refine ⟨s2, by simp only [flushLoop, h1, ok_bind, h2],
      (hs1.trans hs2).mono he.nonneg (by rw [List.length_cons]; omega), ⟨?_, ?_, ?_⟩⟩
    · intro q
      rw [hc2.h, hc1.h]
      by_cases h1 : q = t <;> by_cases h2 : q ∈ ts <;> simp [h1, h2]
    · intro q
      rw [hc2.rx, hc1.rx]
      by_cases h1 : q = t <;> by_cases h2 : q ∈ ts <;> by_cases h3 : level = .H <;> simp [h1, h2, h3]
    · intro q
      rw [hc2.ry, hc1.ry, hc1.rx]
      by_cases h3 : q = t <;> by_cases h4 : q ∈ ts <;> cases level <;> simp [h3, h4]

theorem Same.flushOps {s : Sim} (hw : WF s) :
    ∃ s', s.flushOps = .ok s' ∧ Same ε s s' 0 ∧ s'.opQ = [] ∧ s'.hFlag = s.hFlag ∧ s'.rxQ = s.rxQ ∧
      s'.ryQ = s.ryQ := by
  obtain ⟨st, hs, hc, hv⟩ := flushOps_spec hw.b
  have hb : base { s with state := st, opQ := [] } = base s := by simpa [base] using hv
  refine ⟨_, hs, Same.exact ⟨⟨WFB.nil hc, hw.queued⟩, by rw [hb]; exact hw.slim⟩ rfl rfl ?_, rfl, rfl,
    rfl, rfl⟩
  unfold abs
  rw [hb]; rfl

theorem flushQueue_spec {env : Env} (he : TolOk env) (level : FlushLevel) (ts : List ℕ) {s : Sim}
    (hw : WF s) : ∃ s', s.flushQueue env ts level = .ok s' ∧ Same env.eps s s' (3 * ts.length) ∧
      Cleared env.eps level ts s s' ∧
      s'.opQ = [] := by
  obtain ⟨s1, h1, hs1, hc1⟩ := flushLoop_spec he level ts hw
  obtain ⟨s2, h2, hs2, ho, ha, hb, hc⟩ := Same.flushOps hs1.wf
  refine ⟨s2, by simp only [flushQueue, h1, ok_bind, h2], hs1.trans hs2, ⟨?_, ?_, ?_⟩, ho⟩
  · intro q; rw [ha, hc1.h]
  · intro q; rw [hb, hc1.rx]
  · intro q; rw [hc, hc1.ry]

theorem Cleared.refl_of {s : Sim} {ts : List ℕ} (h : ∀ q ∈ ts, s.hasQueued q = false) :
    Cleared ε .HRxRy ts s s := by
  refine ⟨?_, ?_, ?_⟩ <;> intro q <;> by_cases hq : q ∈ ts <;> simp only [hq, true_and, false_and,
    if_true, if_false]
  all_goals
    have := h q hq
    rw [hasQueued_eq] at this
    simp only [Bool.or_eq_false_iff, Option.isSome_eq_false_iff, Option.isNone_iff_eq_none] at this
    simp [this.1.1, this.1.2, this.2]

theorem maybeFlush_spec {env : Env} (he : TolOk env) (ts : List ℕ) {s : Sim}
    (hw : WF s) : ∃ s', s.maybeFlush env ts .HRxRy = .ok s' ∧
      Same env.eps s s' (3 * ts.length) ∧ Cleared env.eps .HRxRy ts s s' := by
  unfold maybeFlush
  split
  · obtain ⟨s', h1, h2, h3, _⟩ := flushQueue_spec he .HRxRy ts hw
    exact ⟨s', h1, h2, h3⟩
  · rename_i h
    refine ⟨s, rfl, (Same.refl hw).mono he.nonneg (by omega), Cleared.refl_of ?_⟩
    intro q hq
    simp only [List.any_eq_true, not_exists, not_and] at h
    simpa using h q hq

theorem flushIf_spec {env : Env} (he : TolOk env) (level : FlushLevel) (ts : List ℕ) (c : Bool)
    {s : Sim} (hw : WF s) : ∃ s', s.flushIf env c ts level = .ok s' ∧
      Same env.eps s s' (3 * ts.length) ∧
      (if c then Cleared env.eps level ts s s' else s' = s) := by
  unfold flushIf
  cases c
  · exact ⟨s, rfl, (Same.refl hw).mono he.nonneg (by omega), by simp⟩
  · obtain ⟨s', h1, h2, h3, _⟩ := flushQueue_spec he level ts hw
    exact ⟨s', by simpa using h1, h2, by simpa using h3⟩

theorem Cleared.not_queued {s s' : Sim} {ts : List ℕ} (h : Cleared ε .HRxRy ts s s') {q : ℕ}
    (hq : q ∈ ts) : s'.hasQueued q = false := by
  rw [hasQueued_eq, h.h, h.rx, h.ry]; simp [hq]

theorem Cleared.pend_eq_one {s s' : Sim} {ts : List ℕ} (h : Cleared ε .HRxRy ts s s') {q : ℕ}
    (hq : q ∈ ts) : pend ε s' q = 1 := pend_of_not_queued (h.not_queued hq)

theorem Cleared.mono_queued {s s' : Sim} {l : FlushLevel} {ts : List ℕ} (h : Cleared ε l ts s s') {q : ℕ}
    (hq : s.hasQueued q = false) : s'.hasQueued q = false := by
  rw [hasQueued_eq] at hq ⊢
  simp only [Bool.or_eq_false_iff, Option.isSome_eq_false_iff, Option.isNone_iff_eq_none] at hq ⊢
  rw [h.h, h.rx, h.ry, hq.1.1, hq.1.2, hq.2]
  simp

end Qir.Tol
