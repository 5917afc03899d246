import Verif.Proof.RndGates

/-! The controlled Pauli gates and controlled rotations with rounded arithmetic. -/

noncomputable section
namespace Qir.Rnd
open Spec Function Sim Tol

variable {A : Arith}

theorem mcx_step (hf : Fine A) {s : Sim} (hw : Qir.WF s) {t : ℕ} {cs : List ℕ}
    (hok : OpndsOk s.idMap cs t) :
    ∃ s', Rnd.mcx A cs t s = .ok s' ∧ Step A s s' (ctrlL cs matX t) (5 * cs.length + 7) := by
  cases cs with
  | nil =>
    obtain ⟨s', h1, h2⟩ := x_step hf hw (hok.2 t (by simp))
    exact ⟨s', h1, h2.mono (by omega)⟩
  | cons c0 cs =>
    unfold Rnd.mcx
    simp only
    have htc : t ∉ c0 :: cs := hok.not_mem
    obtain ⟨s1, h1, hs1, hc1⟩ := flushIf_spec hf .HRxRy [t] (s.ryQ.containsKey t) hw
    have hry1 : s1.ryQ.get t = none := by
      split at hc1
      · rw [hc1.ry]; simp
      · rename_i h
        rw [hc1]
        simpa [IMap.containsKey_eq] using h
    simp only [h1, ok_bind]
    -- the controls
    obtain ⟨s2, h2, hs2, hry2, hctl⟩ : ∃ s2, Rnd.mcxFlushCtls A c0 cs t s1 = .ok s2 ∧
        Same A s1 s2 (5 * (c0 :: cs).length) ∧
        s2.ryQ.get t = none ∧
        ((∀ c ∈ c0 :: cs, s2.hasQueued c = false) ∨
          (cs = [] ∧ s2.hFlag.testBit c0 = true ∧ s2.hFlag.testBit t = true ∧ s2.rxQ.get c0 = none ∧
            s2.ryQ.get c0 = none)) := by
      unfold Rnd.mcxFlushCtls
      split
      · obtain ⟨s2, h2, hs2, hc2⟩ := maybeFlush_spec hf (c0 :: cs) hs1.wf
        refine ⟨s2, h2, hs2, ?_, Or.inl (fun c hc => hc2.not_queued hc)⟩
        rw [hc2.ry, hry1]; simp
      · rename_i hlen
        have hcs : cs = [] := by
          cases cs with
          | nil => rfl
          | cons a l => simp at hlen
        subst hcs
        obtain ⟨s2, h2, hs2, hc2⟩ := flushIf_spec hf .HRxRy [c0]
          (s1.ryQ.containsKey c0 || s1.rxQ.containsKey c0
            || (s1.hFlag.testBit c0 && !s1.hFlag.testBit t)) hs1.wf
        refine ⟨s2, h2, hs2, ?_, ?_⟩
        · split at hc2
          · rw [hc2.ry, hry1]; simp
          · rw [hc2, hry1]
        · split at hc2
          · left; intro c hc; exact hc2.not_queued hc
          · rename_i h
            simp only [IMap.containsKey_eq, Bool.or_eq_true, not_or, Bool.not_eq_true,
              Option.isSome_eq_false_iff, Option.isNone_iff_eq_none] at h
            rw [hc2]
            cases hh : s1.hFlag.testBit c0
            · left
              intro c hc
              simp only [List.mem_singleton] at hc
              subst hc
              rw [hasQueued_eq, hh, h.1.1, h.1.2]; rfl
            · right
              refine ⟨rfl, rfl, ?_, h.1.2, h.1.1⟩
              simpa [hh] using h.2
    simp only [h2, ok_bind]
    have hs := hs1.trans hs2 hf
    have hok2 := opndsOk_congr hs.idMap hok
    have hXpend : ∀ U' : Mat2, matX * optH (s2.hFlag.testBit t) = optH (s2.hFlag.testBit t) * U' →
        matX * pend A s2 t = pend A s2 t * U' := by
      intro U' h
      simp only [pend, hry2, effRy_none_right, optRy_none, one_mul]
      rw [optRx_X, h, mul_assoc]
    rcases hctl with hctl | ⟨hcs, hhc, hht, hrxc, hryc⟩
    · have hcs1 : ∀ c ∈ c0 :: cs, pend A s2 c = 1 := fun c hc => pend_of_not_queued (hctl c hc)
      cases hh : s2.hFlag.testBit t
      · obtain ⟨s3, h3, hs3⟩ := enqueue_step hf hs2.wf hok2 .X hcs1 (U := matX)
          (hXpend matX (by rw [hh]; simp))
        refine ⟨s3, ?_, Step.after hf (iso_ctrl isom_X hok.not_mem) hs hs3 (by simp; try omega)⟩
        simpa using h3
      · obtain ⟨s3, h3, hs3⟩ := enqueue_step hf hs2.wf hok2 .Z hcs1 (U := matX)
          (hXpend matZ (by rw [hh]; simpa using X_H))
        refine ⟨s3, ?_, Step.after hf (iso_ctrl isom_X hok.not_mem) hs hs3 (by simp; try omega)⟩
        have hc0 : s2.hFlag.testBit c0 = false := by
          have := hctl c0 (by simp)
          rw [hasQueued_eq] at this
          simp only [Bool.or_eq_false_iff] at this
          exact this.1.1
        simpa [hc0] using h3
    · subst hcs
      have hct : c0 ≠ t := by rintro rfl; simp at htc
      have hok3 : OpndsOk s2.idMap [t] c0 := by
        refine ⟨by simp [Ne.symm hct], ?_⟩
        intro i hi
        apply hok2.2
        simp only [List.cons_append, List.nil_append, List.mem_cons, List.not_mem_nil, or_false] at hi ⊢
        tauto
      obtain ⟨st, q, h3, hb, hv⟩ := enqueueOp_spec hf hs2.wf.b .X hok3
      simp only [hhc, hht, if_true, List.length_singleton, true_and]
      refine ⟨_, h3, Step.after hf (iso_ctrl isom_X hok.not_mem) hs
        (Step.one (d := 1) ⟨hb, hs2.wf.queued⟩ ?_ ?_ ?_) (by simp)⟩
      · rfl
      · rfl
      have hpc : pend A s2 c0 = matH := by simp [pend, hrxc, hryc, hhc]
      have hpt : pend A s2 t = optRx (s2.rxQ.get t) * matH := by simp [pend, hry2, hht]
      have ht2 : t ∈ s2.idMap.keys := (IMap.mem_keys _ _).2 (hok2.2 t (by simp))
      have hc2 : c0 ∈ s2.idMap.keys := (IMap.mem_keys _ _).2 (hok2.2 c0 (by simp))
      have hsplit : pendL (pend A s2) s2.idMap.keys =
          pendL (update (update (pend A s2) t 1) c0 1) s2.idMap.keys *
            (gateL matH c0 * gateL (optRx (s2.rxQ.get t) * matH) t) := by
        rw [pendL_extract' (IMap.keys_nodup _) ht2,
          pendL_extract' (P := update (pend A s2) t 1) (IMap.keys_nodup _) hc2, update_of_ne hct, hpc,
          hpt, mul_assoc]
      have hcomm : ctrlL [c0] matX t * pendL (update (update (pend A s2) t 1) c0 1) s2.idMap.keys =
          pendL (update (update (pend A s2) t 1) c0 1) s2.idMap.keys * ctrlL [c0] matX t := by
        apply comm_pendL_of
        intro r
        by_cases hr : r = c0
        · left; subst hr; simp
        · by_cases hr' : r = t
          · left; subst hr'; simp [update_of_ne hr]
          · right; exact ctrlL_comm_gateL hr' (by simp [hr]) _ _
      have hK : matX * optRx (s2.rxQ.get t) = optRx (s2.rxQ.get t) * matX := by
        have := optRx_X (s2.rxQ.get t) 1
        simpa using this
      have key : ctrlL [c0] matX t (abs A s2) = pendL (pend A s2) s2.idMap.keys (ctrlL [t] matX c0 (base s2)) := by
        unfold abs
        rw [hsplit, ← Module.End.mul_apply, ← Module.End.mul_apply]
        congr 1
        rw [mul_assoc, ← cnot_turn hct _ hK, ← mul_assoc, hcomm, mul_assoc]
      rw [key]
      exact hv.map (iso_pend s2)

theorem mcy_step (hf : Fine A) {s : Sim} (hw : Qir.WF s) {t : ℕ} {cs : List ℕ}
    (hok : OpndsOk s.idMap cs t) :
    ∃ s', Rnd.mcy A cs t s = .ok s' ∧ Step A s s' (ctrlL cs matY t) (5 * cs.length + 7) := by
  cases cs with
  | nil =>
    obtain ⟨s', h1, h2⟩ := y_step hf hw (hok.2 t (by simp))
    exact ⟨s', h1, h2.mono (by omega)⟩
  | cons c0 cs =>
    unfold Rnd.mcy
    simp only
    obtain ⟨s1, h1, hs1, hc1⟩ := maybeFlush_spec hf (c0 :: cs) hw
    obtain ⟨s2, h2, hs2, hc2⟩ := flushIf_spec hf .HRx [t] (s1.rxQ.containsKey t) hs1.wf
    have hrx2 : s2.rxQ.get t = none := by
      split at hc2
      · rw [hc2.rx]; simp
      · rename_i h; rw [hc2]; simpa [IMap.containsKey_eq] using h
    have hcs2 : ∀ c ∈ c0 :: cs, pend A s2 c = 1 := by
      intro c hc
      apply pend_of_not_queued
      split at hc2
      · exact hc2.mono_queued (hc1.not_queued hc)
      · rw [hc2]; exact hc1.not_queued hc
    have hs := hs1.trans hs2 hf
    have hok2 := opndsOk_congr hs.idMap hok
    simp only [h1, ok_bind, h2]
    unfold Rnd.enqueueIf
    cases hh : s2.hFlag.testBit t
    · obtain ⟨s3, h3, hs3⟩ := enqueue_step hf hs2.wf hok2 .Y hcs2 (U := matY) (by
        simp only [pend, hrx2, hh, effRy_none_left, optRx_none, optH_false, mul_one]
        have := optRy_Y (s2.ryQ.get t) 1
        simpa [opMat] using this)
      refine ⟨s3, ?_, Step.after hf (iso_ctrl isom_Y hok.not_mem) hs hs3 (by simp; try omega)⟩
      simpa using h3
    · -- the sign is put on the controls
      obtain ⟨st3, q3, h3, hb3, hv3⟩ := enqueueOp_spec hf hs2.wf.b .Z hok2.cons
      have hw3 : WFB s2.idMap st3 q3 := hb3
      obtain ⟨st4, q4, h4, hb4, hv4⟩ := enqueueOp_spec hf (s := { s2 with state := st3, opQ := q3 })
        hw3 .Y hok2
      simp only [if_true, h3, ok_bind]
      refine ⟨_, h4, Step.after hf (iso_ctrl isom_Y hok.not_mem) hs
        (Step.one (d := 2) ⟨hb4, hs2.wf.queued⟩ ?_ ?_ ?_) (by simp)⟩
      · rfl
      · rfl
      refine abs_ctrl ?_ (hok2.2 t (by simp)) hok.not_mem ?_ hcs2 (U' := -matY) ?_ ?_
      · rfl
      · intro q; rfl
      · simp only [pend, hrx2, hh, effRy_none_left, optRx_none, optH_true, one_mul]
        rw [optRy_Y, Y_H, mul_assoc]
      · rw [ctrlL_neg, ← ctrlZ_comm hok.not_mem, Module.End.mul_apply]
        exact hv4.trans (hv3.map (iso_ctrl isom_Y hok.not_mem)) hf

theorem pend_of_weight_zero {s : Sim} {q : ℕ} (h : s.mczWeight q = 0) : pend A s q = 1 := by
  apply pend_of_not_queued
  unfold mczWeight at h
  rw [hasQueued_eq]
  simp only [IMap.containsKey_eq] at h
  cases h1 : s.hFlag.testBit q <;> cases h2 : (s.rxQ.get q).isSome <;>
    cases h3 : (s.ryQ.get q).isSome <;> simp [h1, h2, h3] at h ⊢

theorem pend_of_weight_one {s : Sim} {q : ℕ} (h : s.mczWeight q = 1) : pend A s q = matH := by
  unfold mczWeight at h
  simp only [IMap.containsKey_eq] at h
  have h1 : s.hFlag.testBit q = true := by
    cases h1 : s.hFlag.testBit q
    · rw [h1] at h
      simp only [Bool.false_eq_true, if_false] at h
      split at h <;> omega
    · rfl
  rw [h1] at h
  have h2 : ((s.rxQ.get q).isSome || (s.ryQ.get q).isSome) = false := by
    by_contra hc
    rw [Bool.not_eq_false] at hc
    rw [hc] at h; simp at h
  simp only [Bool.or_eq_false_iff, Option.isSome_eq_false_iff, Option.isNone_iff_eq_none] at h2
  simp [pend, h1, h2.1, h2.2]

theorem mcz_step (hf : Fine A) {s : Sim} (hw : Qir.WF s) {t : ℕ} {cs : List ℕ}
    (hok : OpndsOk s.idMap cs t) :
    ∃ s', Rnd.mcz A cs t s = .ok s' ∧ Step A s s' (ctrlL cs matZ t) (5 * cs.length + 7) := by
  cases cs with
  | nil =>
    obtain ⟨s', h1, h2⟩ := z_step hf hw (hok.2 t (by simp))
    exact ⟨s', h1, h2.mono (by omega)⟩
  | cons c0 cs =>
    unfold Rnd.mcz
    simp only
    have htc : t ∉ c0 :: cs := hok.not_mem
    have hnd : (c0 :: cs).Nodup := (List.nodup_append.1 hok.1).1
    split
    · rename_i hcount
      have hcount' : ((c0 :: cs).map s.mczWeight).sum + s.mczWeight t = 1 := by
        have := hcount
        unfold mczCount at this
        rw [foldl_add_eq] at this
        omega
      cases hfi : (c0 :: cs).find? (fun c => s.hFlag.testBit c) with
      | some hCtl =>
        simp only
        have hmem : hCtl ∈ c0 :: cs := List.mem_of_find?_eq_some hfi
        have hh : s.hFlag.testBit hCtl = true := by simpa using List.find?_some hfi
        have hw1 : s.mczWeight hCtl ≠ 0 := by unfold mczWeight; rw [hh]; simp
        have hle : s.mczWeight hCtl ≤ ((c0 :: cs).map s.mczWeight).sum :=
          List.le_sum_of_mem (List.mem_map.2 ⟨hCtl, hmem, rfl⟩)
        have ht0 : s.mczWeight t = 0 := by omega
        obtain ⟨hone, hoth⟩ := sum_eq_one_mem hnd (by omega) hmem hw1
        have hne : hCtl ≠ t := by rintro rfl; exact htc hmem
        have hmem' : ∀ r, r ∈ (c0 :: cs).map (fun c => if c = hCtl then t else c) ↔
            r = t ∨ (r ∈ c0 :: cs ∧ r ≠ hCtl) := by
          intro r
          rw [List.mem_map]
          constructor
          · rintro ⟨c, hc, rfl⟩
            split
            · left; rfl
            · rename_i h; right; exact ⟨hc, h⟩
          · rintro (rfl | ⟨h1, h2⟩)
            · exact ⟨hCtl, hmem, by simp⟩
            · exact ⟨r, h1, by simp [h2]⟩
        have hok' : OpndsOk s.idMap ((c0 :: cs).map (fun c => if c = hCtl then t else c)) hCtl := by
          refine ⟨?_, ?_⟩
          · rw [List.nodup_append]
            refine ⟨?_, by simp, ?_⟩
            · apply List.Nodup.map_on _ hnd
              intro a ha b hb hab
              by_cases h1 : a = hCtl <;> by_cases h2 : b = hCtl
              · rw [h1, h2]
              · simp only [h1, h2, if_true, if_false] at hab
                exact absurd hb (by rw [← hab]; exact htc)
              · simp only [h1, h2, if_true, if_false] at hab
                exact absurd ha (by rw [hab]; exact htc)
              · simpa [h1, h2] using hab
            · intro a ha b hb
              simp only [List.mem_singleton] at hb
              rw [hb]
              rcases (hmem' a).1 ha with h | ⟨_, h⟩
              · rw [h]; exact Ne.symm hne
              · exact h
          · intro i hi
            apply hok.2
            rw [List.mem_append, List.mem_singleton] at hi
            rw [List.mem_append, List.mem_singleton]
            rcases hi with hi | hi
            · rcases (hmem' i).1 hi with h | h
              · exact Or.inr h
              · exact Or.inl h.1
            · rw [hi]; exact Or.inl hmem
        have hsym : ctrlL (c0 :: cs) matZ t =
            ctrlL ((c0 :: cs).map (fun c => if c = hCtl then t else c)) matZ hCtl := by
          apply ctrlL_Z_congr
          intro r
          rw [List.mem_cons, List.mem_cons (a := r) (b := hCtl), hmem']
          by_cases h : r = hCtl
          · subst h; simp [hmem]
          · simp only [h, false_or, ne_eq, not_false_eq_true, and_true]
        rw [hsym]
        obtain ⟨s', h1, h2⟩ : ∃ s', Rnd.enqueueOp A hCtl ((c0 :: cs).map (fun c => if c = hCtl then t else c)) .X s =
            .ok s' ∧ Step A s s'
              (ctrlL ((c0 :: cs).map (fun c => if c = hCtl then t else c)) matZ hCtl) 1 := by
          refine enqueue_step hf hw hok' .X (U := matZ) ?_ ?_
          · intro c hc
            rcases (hmem' c).1 hc with h | ⟨h1, h2⟩
            · rw [h]; exact pend_of_weight_zero ht0
            · exact pend_of_weight_zero (hoth c h1 h2)
          · rw [pend_of_weight_one hone]; exact Z_H
        exact ⟨s', h1, h2.mono (by omega)⟩
      | none =>
        simp only
        have hno : ∀ c ∈ c0 :: cs, s.hFlag.testBit c = false := by
          intro c hc
          have := List.find?_eq_none.1 hfi c hc
          simpa using this
        have hzero : ∀ c ∈ c0 :: cs, s.mczWeight c = 0 := by
          intro c hc
          have hle : s.mczWeight c ≤ ((c0 :: cs).map s.mczWeight).sum :=
            List.le_sum_of_mem (List.mem_map.2 ⟨c, hc, rfl⟩)
          have h1 : s.mczWeight c ≤ 1 := by omega
          unfold mczWeight at h1 ⊢
          rw [hno c hc] at h1 ⊢
          simp only [Bool.false_eq_true, if_false, zero_add] at h1 ⊢
          split
          · rename_i h; rw [if_pos h] at h1; omega
          · rfl
        have hsum : ((c0 :: cs).map s.mczWeight).sum = 0 := by
          apply List.sum_eq_zero
          intro n hn
          obtain ⟨c, hc, rfl⟩ := List.mem_map.1 hn
          exact hzero c hc
        obtain ⟨s', h1, h2⟩ : ∃ s', Rnd.enqueueOp A t (c0 :: cs) .X s = .ok s' ∧
            Step A s s' (ctrlL (c0 :: cs) matZ t) 1 := by
          refine enqueue_step hf hw hok .X (U := matZ) ?_ ?_
          · intro c hc; exact pend_of_weight_zero (hzero c hc)
          · rw [pend_of_weight_one (by omega)]; exact Z_H
        exact ⟨s', h1, h2.mono (by omega)⟩
    · obtain ⟨s1, h1, hs1, hc1, _⟩ := flushQueue_spec hf .HRxRy (c0 :: cs) hw
      obtain ⟨s2, h2, hs2, hc2, _⟩ := flushQueue_spec hf .HRxRy [t] hs1.wf
      have hs := hs1.trans hs2 hf
      obtain ⟨s3, h3, hs3⟩ := enqueue_step hf hs2.wf (opndsOk_congr hs.idMap hok) .Z (U := matZ)
        (fun c hc => pend_of_not_queued (hc2.mono_queued (hc1.not_queued hc)))
        (by rw [hc2.pend_eq_one (by simp)]; simp [opMat])
      simp only [h1, ok_bind, h2]
      exact ⟨s3, h3, Step.after hf (iso_ctrl isom_Z hok.not_mem) hs hs3 (by simp; try omega)⟩

theorem x_enqueue (hf : Fine A) {s : Sim} (hw : WFB s.idMap s.state s.opQ) {t : ℕ} (ht : (s.idMap.get t).isSome)
    (hry : s.ryQ.get t = none) (hh : s.hFlag.testBit t = false) :
    ∃ st q, Rnd.x A t s = .ok { s with state := st, opQ := q } ∧ WFB s.idMap st q ∧
      Cost A s.idMap.keys.length 1 q s.opQ (opsL q (view s.idMap st)) (ctrlL [] matX t (base s)) := by
  have := enqueueOp_spec hf hw .X (single_ok ht)
  unfold Rnd.x
  simp only [modify_none _ hry, hh, Bool.false_eq_true, if_false]
  exact this

theorem mcx_enqueue (hf : Fine A) {s : Sim} (hw : WFB s.idMap s.state s.opQ) {t : ℕ}
    {cs : List ℕ} (hok : OpndsOk s.idMap cs t) (hcs : ∀ c ∈ cs, s.hasQueued c = false)
    (hry : s.ryQ.get t = none) (hh : s.hFlag.testBit t = false) :
    ∃ st q, Rnd.mcx A cs t s = .ok { s with state := st, opQ := q } ∧ WFB s.idMap st q ∧
      Cost A s.idMap.keys.length 1 q s.opQ (opsL q (view s.idMap st)) (ctrlL cs matX t (base s)) := by
  cases cs with
  | nil => exact x_enqueue hf hw (hok.2 t (by simp)) hry hh
  | cons c0 cs =>
    have h0 := hcs c0 (by simp)
    rw [hasQueued_eq] at h0
    simp only [Bool.or_eq_false_iff] at h0
    have h1 : Rnd.mcxFlushCtls A c0 cs t s = .ok s := by
      unfold Rnd.mcxFlushCtls
      split
      · unfold Rnd.maybeFlush
        rw [if_neg]
        simp only [List.any_eq_true, not_exists, not_and]
        intro c hc
        simp [hcs c hc]
      · simp [Rnd.flushIf, IMap.containsKey_eq, h0.1.1, h0.1.2, h0.2]
    obtain ⟨st, q, hs, hb, hv⟩ := enqueueOp_spec hf hw .X hok
    refine ⟨st, q, ?_, hb, hv⟩
    simp only [Rnd.mcx, Rnd.flushIf, IMap.containsKey_eq, hry, Option.isSome_none, Bool.false_eq_true, if_false,
      ok_bind, h1, hh]
    exact hs

theorem mcy_enqueue (hf : Fine A) {s : Sim} (hw : WFB s.idMap s.state s.opQ) {t : ℕ}
    {cs : List ℕ} (hok : OpndsOk s.idMap cs t) (hcs : ∀ c ∈ cs, s.hasQueued c = false)
    (hrx : s.rxQ.get t = none) (hh : s.hFlag.testBit t = false) :
    ∃ st q, Rnd.mcy A cs t s = .ok { s with state := st, opQ := q } ∧ WFB s.idMap st q ∧
      Cost A s.idMap.keys.length 1 q s.opQ (opsL q (view s.idMap st)) (ctrlL cs matY t (base s)) := by
  cases cs with
  | nil => exact y_enqueue hf hw (hok.2 t (by simp)) hrx
  | cons c0 cs =>
    have h1 : Rnd.maybeFlush A (c0 :: cs) .HRxRy s = .ok s := by
      unfold Rnd.maybeFlush
      rw [if_neg]
      simp only [List.any_eq_true, not_exists, not_and]
      intro c hc
      simp [hcs c hc]
    obtain ⟨st, q, hs, hb, hv⟩ := enqueueOp_spec hf hw .Y hok
    refine ⟨st, q, ?_, hb, hv⟩
    simp only [Rnd.mcy, h1, Rnd.flushIf, Rnd.enqueueIf, IMap.containsKey_eq, hrx, Option.isSome_none,
      Bool.false_eq_true, if_false, ok_bind, hh]
    exact hs

theorem mcrx_step (hf : Fine A) {s : Sim} (hw : Qir.WF s) {t : ℕ} {cs : List ℕ}
    (hok : OpndsOk s.idMap cs t) (θ : ℝ) :
    ∃ s', Rnd.mcrx A cs θ t s = .ok s' ∧ Step A s s' (ctrlL cs (matRx θ) t)
      (5 * cs.length + 7) := by
  obtain ⟨s1, h1, hs1, hc1, _⟩ := flushQueue_spec hf .HRxRy cs hw
  obtain ⟨s2, h2, hs2, hcl⟩ : ∃ s2, (if s1.ryQ.containsKey t then Rnd.flushQueue A [t] .HRxRy s1
      else Rnd.flushIf A (s1.hFlag.testBit t) [t] .H s1) = .ok s2 ∧ Same A s1 s2 5 ∧
      s2.ryQ.get t = none ∧ s2.hFlag.testBit t = false ∧
      (∀ c ∈ cs, s2.hasQueued c = false) := by
    split
    · obtain ⟨s2, h2, hs2, hc2, _⟩ := flushQueue_spec hf .HRxRy [t] hs1.wf
      exact ⟨s2, h2, hs2, by rw [hc2.ry]; simp, by rw [hc2.h]; simp,
        fun c hc => hc2.mono_queued (hc1.not_queued hc)⟩
    · rename_i hry
      have hry' : s1.ryQ.get t = none := by simpa [IMap.containsKey_eq] using hry
      obtain ⟨s2, h2, hs2, hc2⟩ := flushIf_spec hf .H [t] (s1.hFlag.testBit t) hs1.wf
      refine ⟨s2, h2, hs2, ?_⟩
      split at hc2
      · exact ⟨by rw [hc2.ry]; simp [hry'], by rw [hc2.h]; simp,
          fun c hc => hc2.mono_queued (hc1.not_queued hc)⟩
      · rename_i hh
        rw [hc2]
        exact ⟨hry', by simpa using hh, fun c hc => hc1.not_queued hc⟩
  obtain ⟨hry2, hh2, hcs2⟩ := hcl
  have hs := hs1.trans hs2 hf
  have hok2 := opndsOk_congr hs.idMap hok
  obtain ⟨st, q, h3, hb, hv⟩ := mcrotation_spec hf hs2.wf.b hok2 (pauli := Rnd.mcx A cs t)
    (flip := false) (θ := θ) (fun _ => mcx_enqueue hf hs2.wf.b hok2 hcs2 hry2 hh2)
  have hrun : Rnd.mcrx A cs θ t s = .ok { s2 with state := st, opQ := q } := by
    unfold Rnd.mcrx
    rw [h1, ok_bind]
    split
    · rename_i h; rw [if_pos h] at h2; rw [h2]; exact h3
    · rename_i h; rw [if_neg h] at h2; rw [h2]; exact h3
  refine ⟨_, hrun, Step.after hf (iso_ctrl (isom_Rx θ) hok.not_mem) hs
    (Step.one (d := 2) ⟨hb, hs2.wf.queued⟩ ?_ ?_ ?_) (by omega)⟩
  · rfl
  · rfl
  refine abs_ctrl ?_ (hok2.2 t (by simp)) hok.not_mem ?_
    (fun c hc => pend_of_not_queued (hcs2 c hc)) (U' := matRx θ) ?_ hv
  · rfl
  · intro q; rfl
  · simp only [pend, hry2, hh2, effRy_none_right, optRy_none, optH_false, one_mul, mul_one]
    cases s2.rxQ.get t with
    | none => simp
    | some b => simp only [optRx_some, Rx_Rx]; rw [add_comm]

theorem mcry_step (hf : Fine A) {s : Sim} (hw : Qir.WF s) {t : ℕ} {cs : List ℕ}
    (hok : OpndsOk s.idMap cs t) (θ : ℝ) :
    ∃ s', Rnd.mcry A cs θ t s = .ok s' ∧ Step A s s' (ctrlL cs (matRy θ) t)
      (5 * cs.length + 7) := by
  obtain ⟨s1, h1, hs1, hc1, _⟩ := flushQueue_spec hf .HRxRy cs hw
  obtain ⟨s2, h2, hs2, hcl⟩ : ∃ s2, (if s1.rxQ.containsKey t then Rnd.flushQueue A [t] .HRx s1
      else Rnd.flushIf A (s1.hFlag.testBit t) [t] .H s1) = .ok s2 ∧ Same A s1 s2 5 ∧
      s2.rxQ.get t = none ∧ s2.hFlag.testBit t = false ∧
      (∀ c ∈ cs, s2.hasQueued c = false) := by
    split
    · obtain ⟨s2, h2, hs2, hc2, _⟩ := flushQueue_spec hf .HRx [t] hs1.wf
      exact ⟨s2, h2, hs2, by rw [hc2.rx]; simp, by rw [hc2.h]; simp,
        fun c hc => hc2.mono_queued (hc1.not_queued hc)⟩
    · rename_i hrx
      have hrx' : s1.rxQ.get t = none := by simpa [IMap.containsKey_eq] using hrx
      obtain ⟨s2, h2, hs2, hc2⟩ := flushIf_spec hf .H [t] (s1.hFlag.testBit t) hs1.wf
      refine ⟨s2, h2, hs2, ?_⟩
      split at hc2
      · exact ⟨by rw [hc2.rx]; simp [hrx'], by rw [hc2.h]; simp,
          fun c hc => hc2.mono_queued (hc1.not_queued hc)⟩
      · rename_i hh
        rw [hc2]
        exact ⟨hrx', by simpa using hh, fun c hc => hc1.not_queued hc⟩
  obtain ⟨hrx2, hh2, hcs2⟩ := hcl
  have hs := hs1.trans hs2 hf
  have hok2 := opndsOk_congr hs.idMap hok
  obtain ⟨st, q, h3, hb, hv⟩ := mcrotation_spec hf hs2.wf.b hok2 (pauli := Rnd.mcy A cs t)
    (flip := true) (θ := θ) (fun _ => mcy_enqueue hf hs2.wf.b hok2 hcs2 hrx2 hh2)
  have hrun : Rnd.mcry A cs θ t s = .ok { s2 with state := st, opQ := q } := by
    unfold Rnd.mcry
    rw [h1, ok_bind]
    split
    · rename_i h; rw [if_pos h] at h2; rw [h2]; exact h3
    · rename_i h; rw [if_neg h] at h2; rw [h2]; exact h3
  refine ⟨_, hrun, Step.after hf (iso_ctrl (isom_Ry θ) hok.not_mem) hs
    (Step.one (d := 2) ⟨hb, hs2.wf.queued⟩ ?_ ?_ ?_) (by omega)⟩
  · rfl
  · rfl
  refine abs_ctrl ?_ (hok2.2 t (by simp)) hok.not_mem ?_
    (fun c hc => pend_of_not_queued (hcs2 c hc)) (U' := matRy θ) ?_ hv
  · rfl
  · intro q; rfl
  · simp only [pend, hrx2, hh2, effRy_none_left, optRx_none, optH_false, mul_one]
    cases s2.ryQ.get t with
    | none => simp
    | some b => simp only [optRy_some, Ry_Ry]; rw [add_comm]

end Qir.Rnd
