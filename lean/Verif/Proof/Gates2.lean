import Verif.Proof.Gates

/-! The controlled Pauli gates and controlled rotations. -/

noncomputable section
namespace Qir
open Spec Function Sim

theorem ctrlL_Z_apply (cs : List ℕ) (t : ℕ) (ψ : Wave) (b : Basis) :
    ctrlL cs matZ t ψ b = if ∀ c ∈ t :: cs, b c = true then -ψ b else ψ b := by
  have hu : ∀ v, b t = v → update b t v = b := fun v h => by rw [← h]; exact update_eq_self _ _
  simp only [ctrlL_apply, ctrl, List.forall_mem_cons]
  by_cases h : ∀ c ∈ cs, b c = true
  · cases hb : b t
    · simp [h, matZ, mat, hu false hb]
    · simp [h, matZ, mat, hu true hb]
  · simp [h]

theorem ctrlL_Z_congr {cs cs' : List ℕ} {t t' : ℕ} (h : ∀ c, c ∈ t :: cs ↔ c ∈ t' :: cs') :
    ctrlL cs matZ t = ctrlL cs' matZ t' := by
  ext ψ b
  rw [ctrlL_Z_apply, ctrlL_Z_apply]
  have : (∀ c ∈ t :: cs, b c = true) ↔ (∀ c ∈ t' :: cs', b c = true) := by
    constructor
    · intro hh c hc; exact hh c ((h c).2 hc)
    · intro hh c hc; exact hh c ((h c).1 hc)
  simp only [this]

theorem ctrlL_neg (c0 : ℕ) (cs : List ℕ) (U : Mat2) (t : ℕ) :
    ctrlL (c0 :: cs) (-U) t = ctrlL cs matZ c0 * ctrlL (c0 :: cs) U t := by
  ext ψ b
  rw [Module.End.mul_apply, ctrlL_Z_apply]
  simp only [ctrlL_apply, ctrl]
  split
  · simp only [Matrix.neg_apply]; ring
  · rfl

theorem ctrlZ_comm {c0 : ℕ} {cs : List ℕ} {t : ℕ} (h : t ∉ c0 :: cs) (U : Mat2) :
    ctrlL (c0 :: cs) U t * ctrlL cs matZ c0 = ctrlL cs matZ c0 * ctrlL (c0 :: cs) U t := by
  ext ψ b
  have key : ∀ (φ : Wave), ctrlL (c0 :: cs) U t φ b = if ∀ c ∈ c0 :: cs, b c = true then
      U (b t) false * φ (update b t false) + U (b t) true * φ (update b t true) else φ b :=
    fun φ => rfl
  rw [Module.End.mul_apply, Module.End.mul_apply, ctrlL_Z_apply, key, key,
    ctrlL_Z_apply, ctrlL_Z_apply, ctrlL_Z_apply]
  by_cases hc : ∀ c ∈ c0 :: cs, b c = true
  · have hu : ∀ v, ∀ c ∈ c0 :: cs, update b t v c = true := by
      intro v c hcm
      rw [update_of_ne (by rintro rfl; exact h hcm)]
      exact hc c hcm
    rw [if_pos hc, if_pos (hu _), if_pos (hu _), if_pos hc, if_pos hc]
    ring
  · rw [if_neg hc, if_neg hc, if_neg hc, if_neg hc]

theorem OpndsOk.cons {m : IMap ℕ} {c0 : ℕ} {cs : List ℕ} {t : ℕ} (h : OpndsOk m (c0 :: cs) t) :
    OpndsOk m cs c0 := by
  refine ⟨?_, ?_⟩
  · have h1 := h.1
    rw [List.cons_append, List.nodup_cons] at h1
    rw [List.nodup_append]
    refine ⟨(List.nodup_append.1 h1.2).1, by simp, ?_⟩
    intro a ha b hb
    simp only [List.mem_singleton] at hb
    subst hb
    rintro rfl
    exact h1.1 (List.mem_append.2 (Or.inl ha))
  · intro i hi
    apply h.2
    simp only [List.mem_append, List.mem_singleton, List.mem_cons] at hi ⊢
    tauto

/-- Two queued Hadamards turn a CNOT around. -/
theorem cnot_turn {c t : ℕ} (hct : c ≠ t) (K : Mat2) (hK : matX * K = K * matX) :
    ctrlL [c] matX t * (gateL matH c * gateL (K * matH) t) =
      (gateL matH c * gateL (K * matH) t) * ctrlL [t] matX c := by
  have htc : t ∉ [c] := by simp [Ne.symm hct]
  have hcm : ∀ U V : Mat2, gateL U c * gateL V t = gateL V t * gateL U c :=
    fun U V => ctrlL_comm_gateL (Ne.symm hct) (by simp) U V
  have hsym : ctrlL [c] matZ t = ctrlL [t] matZ c := by
    apply ctrlL_Z_congr; intro r; simp [or_comm]
  calc ctrlL [c] matX t * (gateL matH c * gateL (K * matH) t)
      = ctrlL [c] matX t * (gateL K t * gateL matH t * gateL matH c) := by
        rw [hcm, ← gateL_mul]
    _ = (ctrlL [c] matX t * gateL K t) * gateL matH t * gateL matH c := by simp only [mul_assoc]
    _ = gateL K t * (ctrlL [c] matX t * gateL matH t) * gateL matH c := by
        rw [ctrlL_gateL_same htc hK]; simp only [mul_assoc]
    _ = gateL K t * gateL matH t * (ctrlL [t] matZ c * gateL matH c) := by
        rw [ctrlL_gateL_same htc X_H, hsym]; simp only [mul_assoc]
    _ = gateL K t * gateL matH t * gateL matH c * ctrlL [t] matX c := by
        rw [ctrlL_gateL_same (by simp [hct]) Z_H]; simp only [mul_assoc]
    _ = (gateL matH c * gateL (K * matH) t) * ctrlL [t] matX c := by
        rw [hcm, ← gateL_mul]

theorem comm_pendL_of {A : Module.End ℂ Wave} {P : ℕ → Mat2} {L : List ℕ}
    (h : ∀ q, P q = 1 ∨ A * gateL (P q) q = gateL (P q) q * A) : A * pendL P L = pendL P L * A := by
  apply comm_pendL
  intro q _
  rcases h q with h | h
  · rw [h, gateL_one, mul_one, one_mul]
  · exact h

theorem mcx_step {env : Env} (he : env.eps = 0) {s : Sim} (hw : WF s) {t : ℕ} {cs : List ℕ}
    (hok : OpndsOk s.idMap cs t) :
    ∃ s', s.mcx env cs t = .ok s' ∧ Step s s' (ctrlL cs matX t) := by
  cases cs with
  | nil => exact x_step hw (hok.2 t (by simp))
  | cons c0 cs =>
    unfold mcx
    simp only
    have htc : t ∉ c0 :: cs := hok.not_mem
    obtain ⟨s1, h1, hs1, hc1⟩ := flushIf_spec he .HRxRy [t] (s.ryQ.containsKey t) hw
    have hry1 : s1.ryQ.get t = none := by
      split at hc1
      · rw [hc1.ry]; simp
      · rename_i h
        rw [hc1]
        simpa [IMap.containsKey_eq] using h
    simp only [h1, ok_bind]
    -- the controls
    obtain ⟨s2, h2, hs2, hry2, hctl⟩ : ∃ s2, s1.mcxFlushCtls env c0 cs t = .ok s2 ∧ Same s1 s2 ∧
        s2.ryQ.get t = none ∧
        ((∀ c ∈ c0 :: cs, s2.hasQueued c = false) ∨
          (cs = [] ∧ s2.hFlag.testBit c0 = true ∧ s2.hFlag.testBit t = true ∧ s2.rxQ.get c0 = none ∧
            s2.ryQ.get c0 = none)) := by
      unfold mcxFlushCtls
      split
      · obtain ⟨s2, h2, hs2, hc2⟩ := maybeFlush_spec he (c0 :: cs) hs1.wf
        refine ⟨s2, h2, hs2, ?_, Or.inl (fun c hc => hc2.not_queued hc)⟩
        rw [hc2.ry, hry1]; simp
      · rename_i hlen
        have hcs : cs = [] := by
          cases cs with
          | nil => rfl
          | cons a l => simp at hlen
        subst hcs
        obtain ⟨s2, h2, hs2, hc2⟩ := flushIf_spec he .HRxRy [c0]
          (s1.ryQ.containsKey c0 || s1.rxQ.containsKey c0
            || (s1.hFlag.testBit c0 && !s1.hFlag.testBit t)) hs1.wf
        refine ⟨s2, h2, hs2, ?_, ?_⟩
        · split at hc2
          · rw [hc2.ry, hry1]; simp
          · rw [hc2, hry1]
        · split at hc2
          · left; intro c hc; exact hc2.not_queued hc
          · rename_i h
            simp only [IMap.containsKey_eq, Bool.or_eq_true, not_or, Bool.not_eq_true,
              Option.isSome_eq_false_iff, Option.isNone_iff_eq_none] at h
            rw [hc2]
            cases hh : s1.hFlag.testBit c0
            · left
              intro c hc
              simp only [List.mem_singleton] at hc
              subst hc
              rw [hasQueued_eq, hh, h.1.1, h.1.2]; rfl
            · right
              refine ⟨rfl, rfl, ?_, h.1.2, h.1.1⟩
              simpa [hh] using h.2
    simp only [h2, ok_bind]
    have hs := hs1.trans hs2
    have hok2 := opndsOk_congr hs.idMap hok
    have hXpend : ∀ U' : Mat2, matX * optH (s2.hFlag.testBit t) = optH (s2.hFlag.testBit t) * U' →
        matX * pend s2 t = pend s2 t * U' := by
      intro U' h
      simp only [pend, hry2, effRy_none_right, optRy_none, one_mul]
      rw [optRx_X, h, mul_assoc]
    rcases hctl with hctl | ⟨hcs, hhc, hht, hrxc, hryc⟩
    · have hcs1 : ∀ c ∈ c0 :: cs, pend s2 c = 1 := fun c hc => pend_of_not_queued (hctl c hc)
      cases hh : s2.hFlag.testBit t
      · obtain ⟨s3, h3, hs3⟩ := enqueue_step hs2.wf hok2 .X hcs1 (U := matX)
          (hXpend matX (by rw [hh]; simp))
        refine ⟨s3, ?_, Step.of_same hs hs3⟩
        simpa using h3
      · obtain ⟨s3, h3, hs3⟩ := enqueue_step hs2.wf hok2 .Z hcs1 (U := matX)
          (hXpend matZ (by rw [hh]; simpa using X_H))
        refine ⟨s3, ?_, Step.of_same hs hs3⟩
        have hc0 : s2.hFlag.testBit c0 = false := by
          have := hctl c0 (by simp)
          rw [hasQueued_eq] at this
          simp only [Bool.or_eq_false_iff] at this
          exact this.1.1
        simpa [hc0] using h3
    · subst hcs
      have hct : c0 ≠ t := by rintro rfl; simp at htc
      have hok3 : OpndsOk s2.idMap [t] c0 := by
        refine ⟨by simp [Ne.symm hct], ?_⟩
        intro i hi
        apply hok2.2
        simp only [List.cons_append, List.nil_append, List.mem_cons, List.not_mem_nil, or_false] at hi ⊢
        tauto
      obtain ⟨st, q, h3, hb, hv⟩ := enqueueOp_spec hs2.wf.b .X hok3
      simp only [hhc, hht, if_true, List.length_singleton, true_and]
      refine ⟨_, h3, Step.of_same hs (Step.exact ⟨hb, hs2.wf.queued⟩ rfl rfl ?_)⟩
      have hpc : pend s2 c0 = matH := by simp [pend, hrxc, hryc, hhc]
      have hpt : pend s2 t = optRx (s2.rxQ.get t) * matH := by simp [pend, hry2, hht]
      have ht2 : t ∈ s2.idMap.keys := (IMap.mem_keys _ _).2 (hok2.2 t (by simp))
      have hc2 : c0 ∈ s2.idMap.keys := (IMap.mem_keys _ _).2 (hok2.2 c0 (by simp))
      have hsplit : pendL (pend s2) s2.idMap.keys =
          pendL (update (update (pend s2) t 1) c0 1) s2.idMap.keys *
            (gateL matH c0 * gateL (optRx (s2.rxQ.get t) * matH) t) := by
        rw [pendL_extract' (IMap.keys_nodup _) ht2,
          pendL_extract' (P := update (pend s2) t 1) (IMap.keys_nodup _) hc2, update_of_ne hct, hpc,
          hpt, mul_assoc]
      have hcomm : ctrlL [c0] matX t * pendL (update (update (pend s2) t 1) c0 1) s2.idMap.keys =
          pendL (update (update (pend s2) t 1) c0 1) s2.idMap.keys * ctrlL [c0] matX t := by
        apply comm_pendL_of
        intro r
        by_cases hr : r = c0
        · left; subst hr; simp
        · by_cases hr' : r = t
          · left; subst hr'; simp [update_of_ne hr]
          · right; exact ctrlL_comm_gateL hr' (by simp [hr]) _ _
      have hK : matX * optRx (s2.rxQ.get t) = optRx (s2.rxQ.get t) * matX := by
        have := optRx_X (s2.rxQ.get t) 1
        simpa using this
      have hv' : base { s2 with state := st, opQ := q } = ctrlL [t] matX c0 (base s2) := hv
      show pendL (pend s2) s2.idMap.keys (base { s2 with state := st, opQ := q }) = _
      rw [hv']
      unfold Qir.abs
      rw [hsplit, ← Module.End.mul_apply, ← Module.End.mul_apply]
      congr 1
      rw [mul_assoc, ← cnot_turn hct _ hK, ← mul_assoc, ← hcomm, mul_assoc]

theorem mcy_step {env : Env} (he : env.eps = 0) {s : Sim} (hw : WF s) {t : ℕ} {cs : List ℕ}
    (hok : OpndsOk s.idMap cs t) :
    ∃ s', s.mcy env cs t = .ok s' ∧ Step s s' (ctrlL cs matY t) := by
  cases cs with
  | nil => exact y_step hw (hok.2 t (by simp))
  | cons c0 cs =>
    unfold mcy
    simp only
    obtain ⟨s1, h1, hs1, hc1⟩ := maybeFlush_spec he (c0 :: cs) hw
    obtain ⟨s2, h2, hs2, hc2⟩ := flushIf_spec he .HRx [t] (s1.rxQ.containsKey t) hs1.wf
    have hrx2 : s2.rxQ.get t = none := by
      split at hc2
      · rw [hc2.rx]; simp
      · rename_i h; rw [hc2]; simpa [IMap.containsKey_eq] using h
    have hcs2 : ∀ c ∈ c0 :: cs, pend s2 c = 1 := by
      intro c hc
      apply pend_of_not_queued
      split at hc2
      · exact hc2.mono_queued (hc1.not_queued hc)
      · rw [hc2]; exact hc1.not_queued hc
    have hs := hs1.trans hs2
    have hok2 := opndsOk_congr hs.idMap hok
    simp only [h1, ok_bind, h2]
    unfold enqueueIf
    cases hh : s2.hFlag.testBit t
    · obtain ⟨s3, h3, hs3⟩ := enqueue_step hs2.wf hok2 .Y hcs2 (U := matY) (by
        simp only [pend, hrx2, hh, effRy_none_left, optRx_none, optH_false, mul_one]
        have := optRy_Y (s2.ryQ.get t) 1
        simpa [opMat] using this)
      refine ⟨s3, ?_, Step.of_same hs hs3⟩
      simpa using h3
    · -- the sign is put on the controls
      obtain ⟨st3, q3, h3, hb3, hv3⟩ := enqueueOp_spec hs2.wf.b .Z hok2.cons
      have hw3 : WFB s2.idMap st3 q3 := hb3
      obtain ⟨st4, q4, h4, hb4, hv4⟩ := enqueueOp_spec (s := { s2 with state := st3, opQ := q3 })
        hw3 .Y hok2
      simp only [if_true, h3, ok_bind]
      refine ⟨_, h4, Step.of_same hs (Step.exact ⟨hb4, hs2.wf.queued⟩ rfl rfl ?_)⟩
      refine abs_ctrl ?_ (hok2.2 t (by simp)) hok.not_mem ?_ hcs2 (U' := -matY) ?_ ?_
      · rfl
      · intro q; rfl
      · simp only [pend, hrx2, hh, effRy_none_left, optRx_none, optH_true, one_mul]
        rw [optRy_Y, Y_H, mul_assoc]
      · have hv4' : base { s2 with state := st4, opQ := q4 } =
            ctrlL (c0 :: cs) matY t (base { s2 with state := st3, opQ := q3 }) := hv4
        have hv3' : base { s2 with state := st3, opQ := q3 } = ctrlL cs matZ c0 (base s2) := hv3
        refine hv4'.trans ?_
        rw [hv3', ctrlL_neg, ← Module.End.mul_apply]
        rw [ctrlZ_comm hok.not_mem]

theorem foldl_add_eq (f : ℕ → ℕ) (l : List ℕ) (n : ℕ) :
    l.foldl (fun a c => a + f c) n = n + (l.map f).sum := by
  induction l generalizing n with
  | nil => simp
  | cons c l ih => rw [List.foldl_cons, ih, List.map_cons, List.sum_cons]; omega

theorem sum_eq_zero_mem {f : ℕ → ℕ} {l : List ℕ} (h : (l.map f).sum = 0) : ∀ c ∈ l, f c = 0 := by
  intro c hc
  have := List.sum_eq_zero_iff.1 h (f c) (List.mem_map.2 ⟨c, hc, rfl⟩)
  exact this

theorem sum_eq_one_mem {f : ℕ → ℕ} {l : List ℕ} (hl : l.Nodup) (h : (l.map f).sum = 1) {c : ℕ}
    (hc : c ∈ l) (hfc : f c ≠ 0) : f c = 1 ∧ ∀ d ∈ l, d ≠ c → f d = 0 := by
  induction l with
  | nil => simp at hc
  | cons a l ih =>
    rw [List.nodup_cons] at hl
    rw [List.map_cons, List.sum_cons] at h
    rcases List.mem_cons.1 hc with rfl | hc
    · have h0 : (l.map f).sum = 0 := by omega
      refine ⟨by omega, ?_⟩
      intro d hd hdc
      rcases List.mem_cons.1 hd with rfl | hd
      · exact absurd rfl hdc
      · exact sum_eq_zero_mem h0 d hd
    · have hle : f c ≤ (l.map f).sum := List.le_sum_of_mem (List.mem_map.2 ⟨c, hc, rfl⟩)
      have ha : f a = 0 := by omega
      obtain ⟨h1, h2⟩ := ih hl.2 (by omega) hc
      refine ⟨h1, ?_⟩
      intro d hd hdc
      rcases List.mem_cons.1 hd with rfl | hd
      · exact ha
      · exact h2 d hd hdc

theorem pend_of_weight_zero {s : Sim} {q : ℕ} (h : s.mczWeight q = 0) : pend s q = 1 := by
  apply pend_of_not_queued
  unfold mczWeight at h
  rw [hasQueued_eq]
  simp only [IMap.containsKey_eq] at h
  cases h1 : s.hFlag.testBit q <;> cases h2 : (s.rxQ.get q).isSome <;>
    cases h3 : (s.ryQ.get q).isSome <;> simp [h1, h2, h3] at h ⊢

theorem pend_of_weight_one {s : Sim} {q : ℕ} (h : s.mczWeight q = 1) : pend s q = matH := by
  unfold mczWeight at h
  simp only [IMap.containsKey_eq] at h
  have h1 : s.hFlag.testBit q = true := by
    cases h1 : s.hFlag.testBit q
    · rw [h1] at h
      simp only [Bool.false_eq_true, if_false] at h
      split at h <;> omega
    · rfl
  rw [h1] at h
  have h2 : ((s.rxQ.get q).isSome || (s.ryQ.get q).isSome) = false := by
    by_contra hc
    rw [Bool.not_eq_false] at hc
    rw [hc] at h; simp at h
  simp only [Bool.or_eq_false_iff, Option.isSome_eq_false_iff, Option.isNone_iff_eq_none] at h2
  simp [pend, h1, h2.1, h2.2]

theorem mcz_step {env : Env} (he : env.eps = 0) {s : Sim} (hw : WF s) {t : ℕ} {cs : List ℕ}
    (hok : OpndsOk s.idMap cs t) :
    ∃ s', s.mcz env cs t = .ok s' ∧ Step s s' (ctrlL cs matZ t) := by
  cases cs with
  | nil => exact z_step hw (hok.2 t (by simp))
  | cons c0 cs =>
    unfold mcz
    simp only
    have htc : t ∉ c0 :: cs := hok.not_mem
    have hnd : (c0 :: cs).Nodup := (List.nodup_append.1 hok.1).1
    split
    · rename_i hcount
      have hcount' : ((c0 :: cs).map s.mczWeight).sum + s.mczWeight t = 1 := by
        have := hcount
        unfold mczCount at this
        rw [foldl_add_eq] at this
        omega
      cases hf : (c0 :: cs).find? (fun c => s.hFlag.testBit c) with
      | some hCtl =>
        simp only
        have hmem : hCtl ∈ c0 :: cs := List.mem_of_find?_eq_some hf
        have hh : s.hFlag.testBit hCtl = true := by simpa using List.find?_some hf
        have hw1 : s.mczWeight hCtl ≠ 0 := by unfold mczWeight; rw [hh]; simp
        have hle : s.mczWeight hCtl ≤ ((c0 :: cs).map s.mczWeight).sum :=
          List.le_sum_of_mem (List.mem_map.2 ⟨hCtl, hmem, rfl⟩)
        have ht0 : s.mczWeight t = 0 := by omega
        obtain ⟨hone, hoth⟩ := sum_eq_one_mem hnd (by omega) hmem hw1
        have hne : hCtl ≠ t := by rintro rfl; exact htc hmem
        have hmem' : ∀ r, r ∈ (c0 :: cs).map (fun c => if c = hCtl then t else c) ↔
            r = t ∨ (r ∈ c0 :: cs ∧ r ≠ hCtl) := by
          intro r
          rw [List.mem_map]
          constructor
          · rintro ⟨c, hc, rfl⟩
            split
            · left; rfl
            · rename_i h; right; exact ⟨hc, h⟩
          · rintro (rfl | ⟨h1, h2⟩)
            · exact ⟨hCtl, hmem, by simp⟩
            · exact ⟨r, h1, by simp [h2]⟩
        have hok' : OpndsOk s.idMap ((c0 :: cs).map (fun c => if c = hCtl then t else c)) hCtl := by
          refine ⟨?_, ?_⟩
          · rw [List.nodup_append]
            refine ⟨?_, by simp, ?_⟩
            · apply List.Nodup.map_on _ hnd
              intro a ha b hb hab
              by_cases h1 : a = hCtl <;> by_cases h2 : b = hCtl
              · rw [h1, h2]
              · simp only [h1, h2, if_true, if_false] at hab
                exact absurd hb (by rw [← hab]; exact htc)
              · simp only [h1, h2, if_true, if_false] at hab
                exact absurd ha (by rw [hab]; exact htc)
              · simpa [h1, h2] using hab
            · intro a ha b hb
              simp only [List.mem_singleton] at hb
              rw [hb]
              rcases (hmem' a).1 ha with h | ⟨_, h⟩
              · rw [h]; exact Ne.symm hne
              · exact h
          · intro i hi
            apply hok.2
            rw [List.mem_append, List.mem_singleton] at hi
            rw [List.mem_append, List.mem_singleton]
            rcases hi with hi | hi
            · rcases (hmem' i).1 hi with h | h
              · exact Or.inr h
              · exact Or.inl h.1
            · rw [hi]; exact Or.inl hmem
        have hsym : ctrlL (c0 :: cs) matZ t =
            ctrlL ((c0 :: cs).map (fun c => if c = hCtl then t else c)) matZ hCtl := by
          apply ctrlL_Z_congr
          intro r
          rw [List.mem_cons, List.mem_cons (a := r) (b := hCtl), hmem']
          by_cases h : r = hCtl
          · subst h; simp [hmem]
          · simp only [h, false_or, ne_eq, not_false_eq_true, and_true]
        rw [hsym]
        apply enqueue_step hw hok' .X (U := matZ)
        · intro c hc
          rcases (hmem' c).1 hc with h | ⟨h1, h2⟩
          · rw [h]; exact pend_of_weight_zero ht0
          · exact pend_of_weight_zero (hoth c h1 h2)
        · rw [pend_of_weight_one hone]; exact Z_H
      | none =>
        simp only
        have hno : ∀ c ∈ c0 :: cs, s.hFlag.testBit c = false := by
          intro c hc
          have := List.find?_eq_none.1 hf c hc
          simpa using this
        have hzero : ∀ c ∈ c0 :: cs, s.mczWeight c = 0 := by
          intro c hc
          have hle : s.mczWeight c ≤ ((c0 :: cs).map s.mczWeight).sum :=
            List.le_sum_of_mem (List.mem_map.2 ⟨c, hc, rfl⟩)
          have h1 : s.mczWeight c ≤ 1 := by omega
          unfold mczWeight at h1 ⊢
          rw [hno c hc] at h1 ⊢
          simp only [Bool.false_eq_true, if_false, zero_add] at h1 ⊢
          split
          · rename_i h; rw [if_pos h] at h1; omega
          · rfl
        have hsum : ((c0 :: cs).map s.mczWeight).sum = 0 := by
          apply List.sum_eq_zero
          intro n hn
          obtain ⟨c, hc, rfl⟩ := List.mem_map.1 hn
          exact hzero c hc
        apply enqueue_step hw hok .X (U := matZ)
        · intro c hc; exact pend_of_weight_zero (hzero c hc)
        · rw [pend_of_weight_one (by omega)]; exact Z_H
    · obtain ⟨s1, h1, hs1, hc1, _⟩ := flushQueue_spec he .HRxRy (c0 :: cs) hw
      obtain ⟨s2, h2, hs2, hc2, _⟩ := flushQueue_spec he .HRxRy [t] hs1.wf
      have hs := hs1.trans hs2
      obtain ⟨s3, h3, hs3⟩ := enqueue_step hs2.wf (opndsOk_congr hs.idMap hok) .Z (U := matZ)
        (fun c hc => pend_of_not_queued (hc2.mono_queued (hc1.not_queued hc)))
        (by rw [hc2.pend_eq_one (by simp)]; simp [opMat])
      simp only [h1, ok_bind, h2]
      exact ⟨s3, h3, Step.of_same hs hs3⟩

/-- `mcx` when nothing is pending on its operands except X rotations of the target. -/
theorem mcx_enqueue {env : Env} {s : Sim} (hw : WFB s.idMap s.state s.opQ) {t : ℕ}
    {cs : List ℕ} (hok : OpndsOk s.idMap cs t) (hcs : ∀ c ∈ cs, s.hasQueued c = false)
    (hry : s.ryQ.get t = none) (hh : s.hFlag.testBit t = false) :
    ∃ st q, s.mcx env cs t = .ok { s with state := st, opQ := q } ∧ WFB s.idMap st q ∧
      opsL q (view s.idMap st) = ctrlL cs matX t (base s) := by
  cases cs with
  | nil => exact x_enqueue hw (hok.2 t (by simp)) hry hh
  | cons c0 cs =>
    have h0 := hcs c0 (by simp)
    rw [hasQueued_eq] at h0
    simp only [Bool.or_eq_false_iff] at h0
    have h1 : s.mcxFlushCtls env c0 cs t = .ok s := by
      unfold mcxFlushCtls
      split
      · unfold maybeFlush
        rw [if_neg]
        simp only [List.any_eq_true, not_exists, not_and]
        intro c hc
        simp [hcs c hc]
      · simp [flushIf, IMap.containsKey_eq, h0.1.1, h0.1.2, h0.2]
    obtain ⟨st, q, hs, hb, hv⟩ := enqueueOp_spec hw .X hok
    refine ⟨st, q, ?_, hb, hv⟩
    simp only [mcx, flushIf, IMap.containsKey_eq, hry, Option.isSome_none, Bool.false_eq_true, if_false,
      ok_bind, h1, hh]
    exact hs

theorem mcy_enqueue {env : Env} {s : Sim} (hw : WFB s.idMap s.state s.opQ) {t : ℕ}
    {cs : List ℕ} (hok : OpndsOk s.idMap cs t) (hcs : ∀ c ∈ cs, s.hasQueued c = false)
    (hrx : s.rxQ.get t = none) (hh : s.hFlag.testBit t = false) :
    ∃ st q, s.mcy env cs t = .ok { s with state := st, opQ := q } ∧ WFB s.idMap st q ∧
      opsL q (view s.idMap st) = ctrlL cs matY t (base s) := by
  cases cs with
  | nil => exact y_enqueue hw (hok.2 t (by simp)) hrx
  | cons c0 cs =>
    have h1 : s.maybeFlush env (c0 :: cs) .HRxRy = .ok s := by
      unfold maybeFlush
      rw [if_neg]
      simp only [List.any_eq_true, not_exists, not_and]
      intro c hc
      simp [hcs c hc]
    obtain ⟨st, q, hs, hb, hv⟩ := enqueueOp_spec hw .Y hok
    refine ⟨st, q, ?_, hb, hv⟩
    simp only [mcy, h1, flushIf, enqueueIf, IMap.containsKey_eq, hrx, Option.isSome_none,
      Bool.false_eq_true, if_false, ok_bind, hh]
    exact hs

theorem mcrx_step {env : Env} (he : env.eps = 0) {s : Sim} (hw : WF s) {t : ℕ} {cs : List ℕ}
    (hok : OpndsOk s.idMap cs t) (θ : ℝ) :
    ∃ s', s.mcrx env cs θ t = .ok s' ∧ Step s s' (ctrlL cs (matRx θ) t) := by
  obtain ⟨s1, h1, hs1, hc1, _⟩ := flushQueue_spec he .HRxRy cs hw
  obtain ⟨s2, h2, hs2, hcl⟩ : ∃ s2, (if s1.ryQ.containsKey t then s1.flushQueue env [t] .HRxRy
      else s1.flushIf env (s1.hFlag.testBit t) [t] .H) = .ok s2 ∧ Same s1 s2 ∧
      s2.ryQ.get t = none ∧ s2.hFlag.testBit t = false ∧
      (∀ c ∈ cs, s2.hasQueued c = false) := by
    split
    · obtain ⟨s2, h2, hs2, hc2, _⟩ := flushQueue_spec he .HRxRy [t] hs1.wf
      exact ⟨s2, h2, hs2, by rw [hc2.ry]; simp, by rw [hc2.h]; simp,
        fun c hc => hc2.mono_queued (hc1.not_queued hc)⟩
    · rename_i hry
      have hry' : s1.ryQ.get t = none := by simpa [IMap.containsKey_eq] using hry
      obtain ⟨s2, h2, hs2, hc2⟩ := flushIf_spec he .H [t] (s1.hFlag.testBit t) hs1.wf
      refine ⟨s2, h2, hs2, ?_⟩
      split at hc2
      · exact ⟨by rw [hc2.ry]; simp [hry'], by rw [hc2.h]; simp,
          fun c hc => hc2.mono_queued (hc1.not_queued hc)⟩
      · rename_i hh
        rw [hc2]
        exact ⟨hry', by simpa using hh, fun c hc => hc1.not_queued hc⟩
  obtain ⟨hry2, hh2, hcs2⟩ := hcl
  have hs := hs1.trans hs2
  have hok2 := opndsOk_congr hs.idMap hok
  obtain ⟨st, q, h3, hb, hv⟩ := mcrotation_spec he hs2.wf.b hok2 (pauli := Sim.mcx env cs t)
    (flip := false) (θ := θ) (fun _ => mcx_enqueue hs2.wf.b hok2 hcs2 hry2 hh2)
  have hrun : s.mcrx env cs θ t = .ok { s2 with state := st, opQ := q } := by
    unfold mcrx
    rw [h1, ok_bind]
    split
    · rename_i h; rw [if_pos h] at h2; rw [h2]; exact h3
    · rename_i h; rw [if_neg h] at h2; rw [h2]; exact h3
  refine ⟨_, hrun, Step.of_same hs (Step.exact ⟨hb, hs2.wf.queued⟩ rfl rfl ?_)⟩
  refine abs_ctrl ?_ (hok2.2 t (by simp)) hok.not_mem ?_
    (fun c hc => pend_of_not_queued (hcs2 c hc)) (U' := matRx θ) ?_ hv
  · rfl
  · intro q; rfl
  · simp only [pend, hry2, hh2, effRy_none_right, optRy_none, optH_false, one_mul, mul_one]
    cases s2.rxQ.get t with
    | none => simp
    | some b => simp only [optRx_some, Rx_Rx]; rw [add_comm]

theorem mcry_step {env : Env} (he : env.eps = 0) {s : Sim} (hw : WF s) {t : ℕ} {cs : List ℕ}
    (hok : OpndsOk s.idMap cs t) (θ : ℝ) :
    ∃ s', s.mcry env cs θ t = .ok s' ∧ Step s s' (ctrlL cs (matRy θ) t) := by
  obtain ⟨s1, h1, hs1, hc1, _⟩ := flushQueue_spec he .HRxRy cs hw
  obtain ⟨s2, h2, hs2, hcl⟩ : ∃ s2, (if s1.rxQ.containsKey t then s1.flushQueue env [t] .HRx
      else s1.flushIf env (s1.hFlag.testBit t) [t] .H) = .ok s2 ∧ Same s1 s2 ∧
      s2.rxQ.get t = none ∧ s2.hFlag.testBit t = false ∧
      (∀ c ∈ cs, s2.hasQueued c = false) := by
    split
    · obtain ⟨s2, h2, hs2, hc2, _⟩ := flushQueue_spec he .HRx [t] hs1.wf
      exact ⟨s2, h2, hs2, by rw [hc2.rx]; simp, by rw [hc2.h]; simp,
        fun c hc => hc2.mono_queued (hc1.not_queued hc)⟩
    · rename_i hrx
      have hrx' : s1.rxQ.get t = none := by simpa [IMap.containsKey_eq] using hrx
      obtain ⟨s2, h2, hs2, hc2⟩ := flushIf_spec he .H [t] (s1.hFlag.testBit t) hs1.wf
      refine ⟨s2, h2, hs2, ?_⟩
      split at hc2
      · exact ⟨by rw [hc2.rx]; simp [hrx'], by rw [hc2.h]; simp,
          fun c hc => hc2.mono_queued (hc1.not_queued hc)⟩
      · rename_i hh
        rw [hc2]
        exact ⟨hrx', by simpa using hh, fun c hc => hc1.not_queued hc⟩
  obtain ⟨hrx2, hh2, hcs2⟩ := hcl
  have hs := hs1.trans hs2
  have hok2 := opndsOk_congr hs.idMap hok
  obtain ⟨st, q, h3, hb, hv⟩ := mcrotation_spec he hs2.wf.b hok2 (pauli := Sim.mcy env cs t)
    (flip := true) (θ := θ) (fun _ => mcy_enqueue hs2.wf.b hok2 hcs2 hrx2 hh2)
  have hrun : s.mcry env cs θ t = .ok { s2 with state := st, opQ := q } := by
    unfold mcry
    rw [h1, ok_bind]
    split
    · rename_i h; rw [if_pos h] at h2; rw [h2]; exact h3
    · rename_i h; rw [if_neg h] at h2; rw [h2]; exact h3
  refine ⟨_, hrun, Step.of_same hs (Step.exact ⟨hb, hs2.wf.queued⟩ rfl rfl ?_)⟩
  refine abs_ctrl ?_ (hok2.2 t (by simp)) hok.not_mem ?_
    (fun c hc => pend_of_not_queued (hcs2 c hc)) (U' := matRy θ) ?_ hv
  · rfl
  · intro q; rfl
  · simp only [pend, hrx2, hh2, effRy_none_left, optRx_none, optH_false, mul_one]
    cases s2.ryQ.get t with
    | none => simp
    | some b => simp only [optRy_some, Ry_Ry]; rw [add_comm]

end Qir
