import Verif.Proof.Refine

/-! What every method leaves alone, for arbitrary (also invalid) arguments and any tolerance. -/

noncomputable section
namespace Qir
open Spec Sim

theorem bind_ok {α β : Type} {r : Except Panic α} {f : α → Except Panic β} {b : β}
    (h : (r >>= f) = .ok b) : ∃ a, r = .ok a ∧ f a = .ok b := by
  cases r with
  | error e => cases h
  | ok a => exact ⟨a, rfl, h⟩

/-- The operands of a queued operation are distinct and allocated. -/
def OpOk (m : IMap ℕ) (op : List ℕ × ℕ × OpCode) : Prop :=
  (op.1 ++ [op.2.1]).Nodup ∧ ∀ i ∈ op.1 ++ [op.2.1], (m.get i).isSome = true

/-- Some queued operation has invalid operands. -/
def HasBad (s : Sim) : Prop := ∃ op ∈ s.opQ, ¬ OpOk s.idMap op

/-- What all gate-like methods leave alone. -/
structure Keep (s s' : Sim) : Prop where
  ids : s'.idMap = s.idMap
  rng : s'.rng = s.rng
  bound : s.opQ.length ≤ QUEUE_LIMIT → s'.opQ.length ≤ QUEUE_LIMIT
  rx : (∀ q, s.rxQ.get q = none) → ∀ q, s'.rxQ.get q = none
  bad : HasBad s → HasBad s'

theorem Keep.refl (s : Sim) : Keep s s := ⟨rfl, rfl, id, id, id⟩

theorem Keep.trans {a b c : Sim} (h : Keep a b) (h' : Keep b c) : Keep a c :=
  ⟨h'.ids.trans h.ids, h'.rng.trans h.rng, h'.bound ∘ h.bound, h'.rx ∘ h.rx, h'.bad ∘ h.bad⟩

/-- Changes outside the queue of operations and the X rotations. -/
theorem Keep.of_eq {s s' : Sim} (h1 : s'.idMap = s.idMap) (h2 : s'.rng = s.rng) (h3 : s'.opQ = s.opQ)
    (h4 : (∀ q, s.rxQ.get q = none) → ∀ q, s'.rxQ.get q = none) : Keep s s' := by
  refine ⟨h1, h2, by rw [h3]; exact id, h4, ?_⟩
  rintro ⟨op, ho, hb⟩
  exact ⟨op, by rw [h3]; exact ho, by rw [h1]; exact hb⟩

theorem resolveIds_inv {m : IMap ℕ} {ids locs : List ℕ} (h : resolveIds m ids = .ok locs) :
    ∀ i ∈ ids, (m.get i).isSome = true := by
  induction ids generalizing locs with
  | nil => simp
  | cons i ids ih =>
    unfold resolveIds at h
    obtain ⟨l, h1, h⟩ := bind_ok h
    obtain ⟨ls, h2, h⟩ := bind_ok h
    intro j hj
    rcases List.mem_cons.1 hj with rfl | hj
    · unfold resolveId at h1
      cases hm : m.get j with
      | none => simp [hm] at h1
      | some _ => rfl
    · exact ih h2 j hj

theorem resolveId_ok {m : IMap ℕ} {i loc : ℕ} (h : resolveId m i = .ok loc) : m.get i = some loc := by
  unfold resolveId at h
  cases hm : m.get i with
  | none => simp [hm] at h
  | some _ => simp [hm] at h; rw [h]

theorem resolveAndCheck_inv {m : IMap ℕ} {t : ℕ} {cs : List ℕ} {r : ℕ × List ℕ}
    (h : resolveAndCheck m t cs = .ok r) (o : OpCode) : OpOk m (cs, t, o) := by
  unfold resolveAndCheck at h
  obtain ⟨_, h0, h⟩ := bind_ok h
  obtain ⟨l, h1, h⟩ := bind_ok h
  obtain ⟨ls, h2, h⟩ := bind_ok h
  constructor
  · unfold checkForDuplicates at h0
    by_contra hc
    rw [if_neg hc] at h0
    cases h0
  · intro i hi
    rcases List.mem_append.1 hi with hi | hi
    · exact resolveIds_inv h2 i hi
    · rw [List.mem_singleton] at hi
      rw [hi, resolveId_ok h1]; rfl

theorem resolveOps_inv {m : IMap ℕ} {ops r : List (List ℕ × ℕ × OpCode)} (h : resolveOps m ops = .ok r) :
    ∀ op ∈ ops, OpOk m op := by
  induction ops generalizing r with
  | nil => simp
  | cons op ops ih =>
    obtain ⟨cs, t, o⟩ := op
    unfold resolveOps at h
    obtain ⟨a, h1, h⟩ := bind_ok h
    obtain ⟨b, h2, h⟩ := bind_ok h
    intro op' hop
    rcases List.mem_cons.1 hop with rfl | hop
    · exact resolveAndCheck_inv h1 o
    · exact ih h2 op' hop

theorem takeOps_ok {s : Sim} {ops : List (List ℕ × ℕ × OpCode)} {s' : Sim} (h : s.takeOps = .ok (ops, s')) :
    s' = { s with opQ := [] } ∧ ¬ HasBad s := by
  unfold takeOps at h
  obtain ⟨a, h1, h⟩ := bind_ok h
  cases h
  refine ⟨rfl, ?_⟩
  rintro ⟨op, ho, hb⟩
  exact hb (resolveOps_inv h1 op ho)

/-- A method that applies the queue. -/
theorem keep_take {s : Sim} {ops : List (List ℕ × ℕ × OpCode)} {s' : Sim} (h : s.takeOps = .ok (ops, s')) :
    Keep s s' := by
  obtain ⟨rfl, hb⟩ := takeOps_ok h
  exact ⟨rfl, rfl, by simp, id, fun h => absurd h hb⟩

theorem keep_state (s : Sim) (st : List (ℕ × ℂ)) : Keep s { s with state := st } :=
  Keep.of_eq rfl rfl rfl id

theorem keep_flushOps {s s' : Sim} (h : s.flushOps = .ok s') : Keep s s' ∧ ¬ HasBad s := by
  unfold flushOps at h
  split at h
  · rename_i he
    cases h
    refine ⟨.refl _, ?_⟩
    rintro ⟨op, ho, _⟩
    rw [List.isEmpty_iff.1 he] at ho
    simp at ho
  · obtain ⟨⟨ops, s1⟩, h1, h⟩ := bind_ok h
    cases h
    exact ⟨(keep_take h1).trans (keep_state _ _), (takeOps_ok h1).2⟩

theorem flushOps_empty {s s' : Sim} (h : s.flushOps = .ok s') : s'.opQ = [] := by
  unfold flushOps at h
  split at h
  · rename_i he
    cases h
    exact List.isEmpty_iff.1 he
  · obtain ⟨⟨ops, s1⟩, h1, h⟩ := bind_ok h
    cases h
    rw [(takeOps_ok h1).1]

theorem enqueueOp_mem {s s' : Sim} {t : ℕ} {cs : List ℕ} {o : OpCode} (h : s.enqueueOp t cs o = .ok s') :
    Keep s s' ∧ (cs, t, o) ∈ s'.opQ := by
  have h' : ∃ s1, (if s.opQ.length = QUEUE_LIMIT then flushOps s else .ok s) = .ok s1 ∧
      s' = { s1 with opQ := s1.opQ ++ [(cs, t, o)] } := by
    unfold enqueueOp at h
    simp only at h
    split at h
    · rename_i hl
      obtain ⟨s1, h1, h⟩ := bind_ok h
      cases h
      exact ⟨s1, by rw [if_pos hl]; exact h1, rfl⟩
    · rename_i hl
      obtain ⟨s1, h1, h⟩ := bind_ok h
      cases h
      exact ⟨s1, by rw [if_neg hl]; exact h1, rfl⟩
  obtain ⟨s1, h1, rfl⟩ := h'
  refine ⟨?_, by simp⟩
  split at h1
  · have hk := (keep_flushOps h1).1
    have he := flushOps_empty h1
    refine hk.trans ⟨rfl, rfl, fun _ => ?_, id, ?_⟩
    · simp [he, QUEUE_LIMIT]
    · rintro ⟨op, ho, _⟩
      rw [he] at ho; simp at ho
  · cases h1
    rename_i hne
    refine ⟨rfl, rfl, fun hb => ?_, id, ?_⟩
    · have : s.opQ.length < QUEUE_LIMIT := lt_of_le_of_ne hb hne
      simp; omega
    · rintro ⟨op, ho, hb⟩
      exact ⟨op, by simp [ho], hb⟩

theorem keep_enqueue {s s' : Sim} {t : ℕ} {cs : List ℕ} {o : OpCode} (h : s.enqueueOp t cs o = .ok s') :
    Keep s s' := (enqueueOp_mem h).1

theorem keep_modify_ry (s : Sim) (t : ℕ) (f : ℝ → ℝ) : Keep s { s with ryQ := s.ryQ.modify t f } :=
  Keep.of_eq rfl rfl rfl id

theorem keep_modify_rx (s : Sim) (t : ℕ) (f : ℝ → ℝ) : Keep s { s with rxQ := s.rxQ.modify t f } := by
  refine Keep.of_eq rfl rfl rfl (fun h q => ?_)
  simp only [IMap.get_modify, h]
  split <;> simp

theorem keep_x {s s' : Sim} {t : ℕ} (h : s.x t = .ok s') : Keep s s' := by
  unfold x at h
  simp only at h
  split at h <;> exact (keep_modify_ry s t _).trans (keep_enqueue h)

theorem keep_y {s s' : Sim} {t : ℕ} (h : s.y t = .ok s') : Keep s s' := by
  unfold y at h
  exact (keep_modify_rx s t _).trans (keep_enqueue h)

theorem keep_z {s s' : Sim} {t : ℕ} (h : s.z t = .ok s') : Keep s s' := by
  unfold z at h
  simp only at h
  have hk := (keep_modify_ry s t (fun a => a * (-1))).trans
    (keep_modify_rx { s with ryQ := s.ryQ.modify t (fun a => a * (-1)) } t (fun a => a * (-1)))
  split at h <;> exact hk.trans (keep_enqueue h)

theorem keep_applyMch {env : Env} {s s' : Sim} {t : ℕ} {cs : List ℕ} (h : s.applyMch env cs t = .ok s') :
    Keep s s' ∧ OpOk s.idMap (cs, t, .X) ∧ ¬ HasBad s := by
  unfold applyMch at h
  obtain ⟨⟨t', cs'⟩, h1, h⟩ := bind_ok h
  obtain ⟨⟨ops, s1⟩, h2, h⟩ := bind_ok h
  cases h
  exact ⟨(keep_take h2).trans (keep_state _ _), resolveAndCheck_inv h1 _, (takeOps_ok h2).2⟩

theorem keep_mcrotation {env : Env} {s s' : Sim} {p : Sim → Except Panic Sim} {t : ℕ} {cs : List ℕ}
    {θ : ℝ} {f : Bool} (hp : ∀ s s', p s = .ok s' → Keep s s')
    (h : s.mcrotation env p cs θ t f = .ok s') : Keep s s' := by
  unfold mcrotation at h
  simp only at h
  split at h
  · obtain ⟨s1, h1, h⟩ := bind_ok h
    obtain ⟨⟨_, cs'⟩, h2, h⟩ := bind_ok h
    by_cases hfac : rotM01 θ f * (if f then Complex.I else 1) ≠ 1
    · rw [if_pos hfac] at h
      obtain ⟨⟨ops, s2⟩, h3, h⟩ := bind_ok h
      cases h
      exact (hp _ _ h1).trans ((keep_take h3).trans (keep_state _ _))
    · rw [if_neg hfac] at h
      cases h
      exact hp _ _ h1
  · split at h
    · split at h
      · obtain ⟨⟨ops, s2⟩, h3, h⟩ := bind_ok h
        obtain ⟨⟨_, cs'⟩, h2, h⟩ := bind_ok h
        cases h
        exact (keep_take h3).trans (keep_state _ _)
      · cases h; exact .refl _
    · obtain ⟨⟨_, cs'⟩, h2, h⟩ := bind_ok h
      obtain ⟨⟨ops, s2⟩, h3, h⟩ := bind_ok h
      cases h
      exact (keep_take h3).trans (keep_state _ _)

theorem keep_flushRx {env : Env} {s s' : Sim} {t : ℕ} (h : s.flushRx env t = .ok s') : Keep s s' := by
  unfold flushRx at h
  split at h
  · obtain ⟨s1, h1, h⟩ := bind_ok h
    cases h
    refine (keep_mcrotation (fun _ _ h => keep_x h) h1).trans (Keep.of_eq rfl rfl rfl (fun h q => ?_))
    rw [IMap.get_remove, h]; simp
  · cases h; exact .refl _

theorem keep_flushRy {env : Env} {s s' : Sim} {t : ℕ} (h : s.flushRy env t = .ok s') : Keep s s' := by
  unfold flushRy at h
  split at h
  · obtain ⟨s1, h1, h⟩ := bind_ok h
    cases h
    exact (keep_mcrotation (fun _ _ h => keep_y h) h1).trans (Keep.of_eq rfl rfl rfl id)
  · cases h; exact .refl _

theorem keep_flushH {env : Env} {s s' : Sim} {t : ℕ} (h : s.flushH env t = .ok s') : Keep s s' := by
  unfold flushH at h
  split at h
  · obtain ⟨s1, h1, h⟩ := bind_ok h
    cases h
    exact (keep_applyMch h1).1.trans (Keep.of_eq rfl rfl rfl id)
  · cases h; exact .refl _

theorem keep_flushOne {env : Env} {s s' : Sim} {l : FlushLevel} {t : ℕ} (h : s.flushOne env l t = .ok s') :
    Keep s s' := by
  unfold flushOne at h
  obtain ⟨s1, h1, h⟩ := bind_ok h
  have hk := keep_flushH h1
  cases l with
  | H => cases h; exact hk
  | HRx => exact hk.trans (keep_flushRx h)
  | HRxRy =>
    obtain ⟨s2, h2, h⟩ := bind_ok h
    exact hk.trans ((keep_flushRx h2).trans (keep_flushRy h))

theorem keep_flushLoop {env : Env} {l : FlushLevel} {ids : List ℕ} : ∀ {s s' : Sim},
    s.flushLoop env l ids = .ok s' → Keep s s' := by
  induction ids with
  | nil => intro s s' h; cases h; exact .refl _
  | cons q ids ih =>
    intro s s' h
    unfold flushLoop at h
    obtain ⟨s1, h1, h⟩ := bind_ok h
    exact (keep_flushOne h1).trans (ih h)

/-- A flush panics if some queued operation is invalid. -/
theorem keep_flushQueue {env : Env} {s s' : Sim} {l : FlushLevel} {ids : List ℕ}
    (h : s.flushQueue env ids l = .ok s') : Keep s s' ∧ ¬ HasBad s := by
  unfold flushQueue at h
  obtain ⟨s1, h1, h⟩ := bind_ok h
  have hk := keep_flushLoop h1
  obtain ⟨h2, h3⟩ := keep_flushOps h
  exact ⟨hk.trans h2, fun hb => h3 (hk.bad hb)⟩

theorem keep_maybeFlush {env : Env} {s s' : Sim} {l : FlushLevel} {ids : List ℕ}
    (h : s.maybeFlush env ids l = .ok s') : Keep s s' := by
  unfold maybeFlush at h
  split at h
  · exact (keep_flushQueue h).1
  · cases h; exact .refl _

theorem keep_flushIf {env : Env} {c : Bool} {s s' : Sim} {l : FlushLevel} {ids : List ℕ}
    (h : s.flushIf env c ids l = .ok s') : Keep s s' := by
  unfold flushIf at h
  split at h
  · exact (keep_flushQueue h).1
  · cases h; exact .refl _

theorem keep_mcx {env : Env} {s s' : Sim} {t : ℕ} {cs : List ℕ} (h : s.mcx env cs t = .ok s') : Keep s s' := by
  unfold mcx at h
  split at h
  · exact keep_x h
  · obtain ⟨s1, h1, h⟩ := bind_ok h
    obtain ⟨s2, h2, h⟩ := bind_ok h
    have hk : Keep s s2 := by
      refine (keep_flushIf h1).trans ?_
      unfold mcxFlushCtls at h2
      split at h2
      · exact keep_maybeFlush h2
      · exact keep_flushIf h2
    refine hk.trans ?_
    split at h
    · split at h <;> exact keep_enqueue h
    · exact keep_enqueue h

theorem keep_mcy {env : Env} {s s' : Sim} {t : ℕ} {cs : List ℕ} (h : s.mcy env cs t = .ok s') : Keep s s' := by
  unfold mcy at h
  split at h
  · exact keep_y h
  · obtain ⟨s1, h1, h⟩ := bind_ok h
    obtain ⟨s2, h2, h⟩ := bind_ok h
    obtain ⟨s3, h3, h⟩ := bind_ok h
    refine (keep_maybeFlush h1).trans ((keep_flushIf h2).trans (Keep.trans ?_ (keep_enqueue h)))
    unfold enqueueIf at h3
    split at h3
    · exact keep_enqueue h3
    · cases h3; exact .refl _

theorem keep_mcz {env : Env} {s s' : Sim} {t : ℕ} {cs : List ℕ} (h : s.mcz env cs t = .ok s') : Keep s s' := by
  unfold mcz at h
  split at h
  · exact keep_z h
  · split at h
    · split at h <;> exact keep_enqueue h
    · obtain ⟨s1, h1, h⟩ := bind_ok h
      obtain ⟨s2, h2, h⟩ := bind_ok h
      exact (keep_flushQueue h1).1.trans ((keep_flushQueue h2).1.trans (keep_enqueue h))

theorem keep_diag {env : Env} {o : OpCode} {s s' : Sim} {t : ℕ} (h : s.diagGate env o t = .ok s') : Keep s s' := by
  unfold diagGate at h
  obtain ⟨s1, h1, h⟩ := bind_ok h
  exact (keep_maybeFlush h1).trans (keep_enqueue h)

theorem keep_mcDiag {env : Env} {o : OpCode} {s s' : Sim} {t : ℕ} {cs : List ℕ}
    (h : s.mcDiagGate env o cs t = .ok s') : Keep s s' := by
  unfold mcDiagGate at h
  obtain ⟨s1, h1, h⟩ := bind_ok h
  obtain ⟨s2, h2, h⟩ := bind_ok h
  exact (keep_maybeFlush h1).trans ((keep_maybeFlush h2).trans (keep_enqueue h))

theorem keep_mcphase {env : Env} {s s' : Sim} {t : ℕ} {cs : List ℕ} {φ : ℂ}
    (h : s.mcphase env cs φ t = .ok s') : Keep s s' ∧ OpOk s.idMap (cs, t, .X) ∧ ¬ HasBad s := by
  unfold mcphase at h
  obtain ⟨s1, h1, h⟩ := bind_ok h
  obtain ⟨s2, h2, h⟩ := bind_ok h
  obtain ⟨⟨t', cs'⟩, h3, h⟩ := bind_ok h
  cases h
  have hk := (keep_flushQueue h1).1.trans (keep_flushQueue h2).1
  refine ⟨hk.trans (keep_state _ _), ?_, (keep_flushQueue h1).2⟩
  rw [← hk.ids]
  exact resolveAndCheck_inv h3 _

theorem keep_h {env : Env} {s s' : Sim} {t : ℕ} (h : s.h env t = .ok s') : Keep s s' := by
  unfold Sim.h at h
  simp only at h
  obtain ⟨s1, h1, h⟩ := bind_ok h
  cases h
  exact (keep_modify_ry s t _).trans ((keep_flushIf h1).trans (Keep.of_eq rfl rfl rfl id))

theorem keep_mch {env : Env} {s s' : Sim} {t : ℕ} {cs : List ℕ} (h : s.mch env cs t = .ok s') :
    Keep s s' ∧ OpOk s.idMap (cs, t, .X) ∧ ¬ HasBad s := by
  unfold mch at h
  obtain ⟨s1, h1, h⟩ := bind_ok h
  obtain ⟨s2, h2, h⟩ := bind_ok h
  have hk := (keep_flushQueue h1).1.trans (keep_flushIf h2)
  obtain ⟨h3, h4, _⟩ := keep_applyMch h
  exact ⟨hk.trans h3, by rw [hk.ids] at h4; exact h4, (keep_flushQueue h1).2⟩

theorem keep_mcrx {env : Env} {s s' : Sim} {t : ℕ} {cs : List ℕ} {θ : ℝ} (h : s.mcrx env cs θ t = .ok s') :
    Keep s s' ∧ ¬ HasBad s := by
  unfold mcrx at h
  obtain ⟨s1, h1, h⟩ := bind_ok h
  have hk : ∃ s2, Keep s1 s2 ∧ Keep s2 s' := by
    simp only at h
    split at h
    · obtain ⟨s2, h2, h⟩ := bind_ok h
      exact ⟨s2, (keep_flushQueue h2).1, keep_mcrotation (fun _ _ h => keep_mcx h) h⟩
    · obtain ⟨s2, h2, h⟩ := bind_ok h
      exact ⟨s2, keep_flushIf h2, keep_mcrotation (fun _ _ h => keep_mcx h) h⟩
  obtain ⟨s2, hk1, hk2⟩ := hk
  exact ⟨(keep_flushQueue h1).1.trans (hk1.trans hk2), (keep_flushQueue h1).2⟩

theorem keep_mcry {env : Env} {s s' : Sim} {t : ℕ} {cs : List ℕ} {θ : ℝ} (h : s.mcry env cs θ t = .ok s') :
    Keep s s' ∧ ¬ HasBad s := by
  unfold mcry at h
  obtain ⟨s1, h1, h⟩ := bind_ok h
  have hk : ∃ s2, Keep s1 s2 ∧ Keep s2 s' := by
    simp only at h
    split at h
    · obtain ⟨s2, h2, h⟩ := bind_ok h
      exact ⟨s2, (keep_flushQueue h2).1, keep_mcrotation (fun _ _ h => keep_mcy h) h⟩
    · obtain ⟨s2, h2, h⟩ := bind_ok h
      exact ⟨s2, keep_flushIf h2, keep_mcrotation (fun _ _ h => keep_mcy h) h⟩
  obtain ⟨s2, hk1, hk2⟩ := hk
  exact ⟨(keep_flushQueue h1).1.trans (hk1.trans hk2), (keep_flushQueue h1).2⟩

theorem keep_ry {env : Env} {s s' : Sim} {t : ℕ} {θ : ℝ} (h : s.ry env θ t = .ok s') : Keep s s' := by
  cases h
  exact Keep.of_eq rfl rfl rfl id

theorem adjacentDup_false {l : List ℕ} (hs : l.Pairwise (· ≤ ·)) (h : adjacentDup l = false) : l.Nodup := by
  induction l with
  | nil => simp
  | cons a l ih =>
    cases l with
    | nil => simp
    | cons b l =>
      simp only [adjacentDup, Bool.or_eq_false_iff, beq_eq_false_iff_ne] at h
      rw [List.pairwise_cons] at hs
      refine List.nodup_cons.2 ⟨?_, ih hs.2 h.2⟩
      intro hm
      rcases List.mem_cons.1 hm with hab | hm
      · exact h.1 hab
      · have h1 := hs.1 b (by simp)
        have h2 := (List.pairwise_cons.1 hs.2).1 a hm
        exact h.1 (le_antisymm h1 h2)

theorem resolveIds_nodup_inv {m : IMap ℕ} {ids locs : List ℕ} (h : resolveIds m ids = .ok locs)
    (hn : locs.Nodup) : ids.Nodup ∧ locs.length = ids.length ∧ ∀ i ∈ ids, ∃ l ∈ locs, m.get i = some l := by
  induction ids generalizing locs with
  | nil => cases h; simp
  | cons i ids ih =>
    unfold resolveIds at h
    obtain ⟨l, h1, h⟩ := bind_ok h
    obtain ⟨ls, h2, h⟩ := bind_ok h
    cases h
    rw [List.nodup_cons] at hn
    obtain ⟨g1, g2, g3⟩ := ih h2 hn.2
    refine ⟨List.nodup_cons.2 ⟨?_, g1⟩, by simp [g2], ?_⟩
    · intro hi
      obtain ⟨l', hl', hg⟩ := g3 i hi
      rw [resolveId_ok h1] at hg
      cases hg
      exact hn.1 hl'
    · intro j hj
      rcases List.mem_cons.1 hj with rfl | hj
      · exact ⟨l, by simp, resolveId_ok h1⟩
      · obtain ⟨l', hl', hg⟩ := g3 j hj
        exact ⟨l', by simp [hl'], hg⟩

theorem resolveIds_append_inv {m : IMap ℕ} {a b la lb : List ℕ} (h : resolveIds m a = .ok la)
    (h' : resolveIds m b = .ok lb) : resolveIds m (a ++ b) = .ok (la ++ lb) := by
  induction a generalizing la with
  | nil => cases h; exact h'
  | cons i a ih =>
    unfold resolveIds at h
    obtain ⟨l, h1, h⟩ := bind_ok h
    obtain ⟨ls, h2, h⟩ := bind_ok h
    cases h
    simp only [List.cons_append, resolveIds, h1, ih h2, ok_bind, pure_ok]

theorem keep_mcexp {env : Env} {s s' : Sim} {ts cs : List ℕ} {ps : List MPauli} {θ : ℝ}
    (h : s.mcexp env cs ps θ ts = .ok s') :
    Keep s s' ∧ (cs ++ ts).Nodup ∧ (∀ i ∈ cs ++ ts, (s.idMap.get i).isSome = true) ∧ ¬ HasBad s := by
  unfold mcexp at h
  obtain ⟨s1, h1, h⟩ := bind_ok h
  obtain ⟨s2, h2, h⟩ := bind_ok h
  obtain ⟨cl, h3, h⟩ := bind_ok h
  obtain ⟨tl, h4, h⟩ := bind_ok h
  obtain ⟨_, h5, h⟩ := bind_ok h
  obtain ⟨mk, h6, h⟩ := bind_ok h
  cases h
  have hk := (keep_flushQueue h1).1.trans (keep_flushQueue h2).1
  have hres := resolveIds_append_inv h3 h4
  have hn : (cl ++ tl).Nodup := by
    unfold expCheckDup at h5
    split at h5
    · cases h5
    · rename_i hd
      have hp := List.mergeSort_perm (cl ++ tl) (fun a b => decide (a ≤ b))
      rw [← hp.nodup_iff]
      apply adjacentDup_false
      · have := List.pairwise_mergeSort (le := fun a b : ℕ => decide (a ≤ b))
          (by intro a b c; simp; omega) (by intro a b; simp; omega) (cl ++ tl)
        exact this.imp (by simp)
      · simpa using hd
  refine ⟨hk.trans (keep_state _ _), (resolveIds_nodup_inv hres hn).1, ?_, (keep_flushQueue h1).2⟩
  have := resolveIds_inv hres
  rw [hk.ids] at this
  exact this

end Qir
