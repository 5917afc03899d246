import Verif.Proof.Apply
import Verif.Proof.Refine

/-! # `apply` as one step of the simulator -/

noncomputable section
namespace Qir
open Spec Sim Function

/-- `apply` after the choice of operands and matrix. -/
def applyOn (env : Env) (u : Mat) (ops : List ℕ) (s : Sim) : Except Panic Sim := do
  checkForDuplicates ops
  let s ← flushQueue env ops .HRxRy s
  let s ← place env 0 ops.reverse s
  let s := { s with state := env.shuffle (s.state.foldl (scatter env.eps u) []) }
  if s.state.isEmpty then .error .assertion
  else return s

theorem apply_some {env : Env} {u : Mat} {ts cs : List ℕ} {s : Sim} (h1 : u.cols = u.rows)
    (h2 : u.rows = 2 ^ ts.length) :
    s.apply env u ts (some cs) = applyOn env (controlled u cs.length) (cs ++ ts) s := by
  unfold apply
  rw [if_neg (by simp [h1]), if_neg (by simp [h1, h2])]
  rfl

theorem apply_none {env : Env} {u : Mat} {ts : List ℕ} {s : Sim} (h1 : u.cols = u.rows)
    (h2 : u.rows = 2 ^ ts.length) : s.apply env u ts none = applyOn env u ts s := by
  unfold apply
  rw [if_neg (by simp [h1]), if_neg (by simp [h1, h2])]
  rfl

theorem controlled_entry {u : Mat} {n c : ℕ} (h1 : u.cols = u.rows) (h2 : u.rows = 2 ^ n) :
    (controlled u c).entry = extend c n u.entry := by
  funext i j
  have : 2 ^ n * 2 ^ c - 2 ^ n = (2 ^ c - 1) * 2 ^ n := by rw [Nat.sub_mul, one_mul, mul_comm]
  simp only [controlled, extend, h1, h2, this]

theorem controlled_rows {u : Mat} {ts cs : List ℕ} (h2 : u.rows = 2 ^ ts.length) :
    (controlled u cs.length).rows = 2 ^ (cs ++ ts).length := by
  simp only [controlled, h2, List.length_append, pow_add]
  rw [mul_comm]

theorem Cleared.calm {s s' : Sim} {ts : List ℕ} (h : Cleared .HRxRy ts s s') {q : ℕ} (hq : q ∈ ts) :
    s'.hasQueued q = false := by
  rw [hasQueued_eq, h.h, h.rx, h.ry]
  simp [hq]

theorem applyOn_spec {env : Env} (he : env.eps = 0) {s : Sim} (hw : WF s) {ops : List ℕ} (hn : ops.Nodup)
    (ha : Alloc s.idMap ops) (hu : ∀ l < ops.length, Used s.idMap l) {u : Mat} (hr : u.rows = 2 ^ ops.length)
    (hnz : applyMatrix [] u.entry ops (abs s) ≠ 0) :
    ∃ s', applyOn env u ops s = .ok s' ∧ WF s' ∧ s'.rng = s.rng ∧
      (∀ i, (s'.idMap.get i).isSome = (s.idMap.get i).isSome) ∧
      (∀ l, Used s'.idMap l ↔ Used s.idMap l) ∧
      abs s' = applyMatrix [] u.entry ops (abs s) := by
  obtain ⟨s1, h1, hs1, hc1, ho1⟩ := flushQueue_spec he .HRxRy ops hw
  have hrev : ([] ++ ops.reverse).Nodup := by simpa using List.nodup_reverse.2 hn
  have hla : Alloc s1.idMap ([] ++ ops.reverse) := by
    intro i hi; rw [hs1.idMap]; exact ha i (by simpa using hi)
  have hus : ∀ l < ([] ++ ops.reverse).length, Used s1.idMap l := by
    intro l hl; rw [hs1.idMap]; exact hu l (by simpa using hl)
  obtain ⟨s2, h2, hm2, hp2⟩ := place_spec he ops.reverse [] s1 hs1.wf hrev hla (by simp) hus
  have hlow : Low s2.idMap ops := by
    intro p hp
    have := hp2 p (by simpa using hp)
    simpa [List.getElem_reverse] using this
  have hb2 := hm2.wf.b
  have ho2 := hm2.ops ho1
  obtain ⟨hcore, hview⟩ := scatter_all hn hlow hr s2.state [] ⟨hb2.core.inj, by simp, by simp⟩ hb2.core.bits
  rw [view_nil, zero_add] at hview
  set st := env.shuffle (s2.state.foldl (scatter env.eps u) []) with hst
  rw [he] at hst
  have hperm : st.Perm (s2.state.foldl (scatter 0 u) []) := by rw [hst]; exact env.shuffle_perm _
  have hcm : matL [] u.entry ops * pendL (pend s2) s2.idMap.keys = pendL (pend s2) s2.idMap.keys * matL [] u.entry ops := by
    apply comm_pendL_of
    intro q
    by_cases hq : q ∈ ops
    · left; exact pend_of_not_queued (hm2.calm q (hc1.calm hq))
    · right; exact matL_comm_gateL (by simp) hq _ _
  have habs : abs { s2 with state := st } = applyMatrix [] u.entry ops (abs s) := by
    rw [← hs1.abs, ← hm2.abs, ← matL_apply]
    unfold Qir.abs base
    rw [ho2]
    have e1 : pend { s2 with state := st } = pend s2 := rfl
    have e2 : ∀ φ : Wave, opsL [] φ = φ := fun φ => rfl
    simp only [e1, e2]
    rw [view_perm hperm, hview]
    exact (LinearMap.congr_fun hcm _).symm
  have hne : st.isEmpty = false := by
    cases hst' : st with
    | cons _ _ => rfl
    | nil =>
      exfalso
      apply hnz
      rw [← habs, hst']
      unfold Qir.abs base
      rw [ho2]
      have e2 : ∀ φ : Wave, opsL [] φ = φ := fun φ => rfl
      simp only [e2, view_nil, map_zero]
  refine ⟨{ s2 with state := st }, ?_, ⟨?_, hm2.wf.queued⟩, hm2.rng.trans hs1.rng, ?_, ?_, habs⟩
  · unfold applyOn checkForDuplicates
    rw [if_pos hn]
    simp only [ok_bind, h1]
    simp only [List.length_nil] at h2
    rw [h2]
    simp only [ok_bind, ← hst]
    rw [he, ← hst, hne]
    rfl
  · show WFB s2.idMap st s2.opQ
    rw [ho2]
    exact WFB.nil (hcore.perm hperm)
  · intro i; rw [← hs1.idMap]; exact hm2.some i
  · intro l; rw [← hs1.idMap]; exact hm2.used l

/-- The state before the matrix is applied, with a hole among the locations that the operands must take. -/
theorem applyOn_hole {env : Env} (he : env.eps = 0) {s : Sim} (hw : WF s) {ops : List ℕ} (hn : ops.Nodup)
    (ha : Alloc s.idMap ops) (hu : ∃ l < ops.length, ¬ Used s.idMap l) (u : Mat) :
    applyOn env u ops s = .error .outOfBounds := by
  obtain ⟨s1, h1, hs1, hc1, ho1⟩ := flushQueue_spec he .HRxRy ops hw
  obtain ⟨l, hl, hul⟩ := hu
  have h2 := place_panics he ops.reverse 0 s1 hs1.wf
    (by intro i hi; rw [hs1.idMap]; exact ha i (by simpa using hi))
    ⟨l, by omega, by simpa using hl, by rw [hs1.idMap]; exact hul⟩
  unfold applyOn checkForDuplicates
  rw [if_pos hn]
  simp only [ok_bind, h1, h2]
  rfl

theorem place_unknown {env : Env} (he : env.eps = 0) (rest : List ℕ) : ∀ (n : ℕ) (s : Sim), WF s →
    (∃ q ∈ rest, s.idMap.get q = none) → ∃ e, s.place env n rest = .error e := by
  induction rest with
  | nil => rintro n s _ ⟨q, hq, _⟩; simp at hq
  | cons t rest ih =>
    rintro n s hw ⟨q, hq, hnone⟩
    cases ht : s.idMap.get t with
    | none =>
      refine ⟨.unknownQubit, ?_⟩
      simp only [place, placeOne, resolveId, ht]
      rfl
    | some loc =>
      have hq' : q ∈ rest := by
        rcases List.mem_cons.1 hq with h | h
        · subst h; rw [ht] at hnone; cases hnone
        · exact h
      cases hf : findByLoc s.idMap n with
      | none =>
        refine ⟨.outOfBounds, ?_⟩
        simp only [place, placeOne, resolveId, ht, hf]
        rfl
      | some sk =>
        obtain ⟨s1, h1, hm, _⟩ := placeOne_spec he hw ht hf
        obtain ⟨e, h2⟩ := ih (n + 1) s1 hm.wf ⟨q, hq', by
          have := hm.some q
          rw [hnone] at this
          simpa using this⟩
        exact ⟨e, by simp only [place, h1, ok_bind, h2]⟩

theorem applyOn_unknown {env : Env} (he : env.eps = 0) {s : Sim} (hw : WF s) {ops : List ℕ}
    (ha : ∃ q ∈ ops, s.idMap.get q = none) (u : Mat) : ∃ e, applyOn env u ops s = .error e := by
  unfold applyOn checkForDuplicates
  split
  · obtain ⟨s1, h1, hs1, hc1, ho1⟩ := flushQueue_spec he .HRxRy ops hw
    obtain ⟨q, hq, hnone⟩ := ha
    obtain ⟨e, h2⟩ := place_unknown he ops.reverse 0 s1 hs1.wf ⟨q, by simpa using hq, by rw [hs1.idMap]; exact hnone⟩
    exact ⟨e, by simp only [ok_bind, h1, h2]; rfl⟩
  · exact ⟨_, rfl⟩

theorem Confined.matrix {L : Finset ℕ} {ψ : Wave} (h : Confined L ψ) {ts : List ℕ} (ht : ∀ t ∈ ts, t ∈ L)
    (cs : List ℕ) (U : ℕ → ℕ → ℂ) : Confined L (applyMatrix cs U ts ψ) := by
  intro b hb r hr
  unfold applyMatrix at hb
  split at hb
  · obtain ⟨k, _, hk⟩ := Finset.exists_ne_zero_of_sum_ne_zero hb
    have := h _ (right_ne_zero_of_mul hk) r hr
    rwa [setRow, if_neg (fun hc => hr (ht r hc))] at this
  · exact h b hb r hr

theorem Good.matrix {σ : Ideal} (h : Good σ) {cs ts : List ℕ} (hn : (cs ++ ts).Nodup) (ht : ∀ t ∈ cs ++ ts, t ∈ σ.live)
    {U : ℕ → ℕ → ℂ} (hU : Unitary (2 ^ ts.length) U) :
    Good { σ with psi := applyMatrix cs U ts σ.psi } :=
  ⟨h.fin.matrix _ _ (List.nodup_append.1 hn).2.1, (normSq_matrix h.fin hn hU).trans h.norm,
    h.conf.matrix (fun t hm => ht t (by simp [hm])) _ _, h.samples⟩

/-- The matrix `apply` multiplies by, and its operands. -/
theorem apply_on {env : Env} {U : ℕ → ℕ → ℂ} {ts cs : List ℕ} {s : Sim} {ctrls : Option (List ℕ)}
    (hc : ctrls.getD [] = cs) (hn : (cs ++ ts).Nodup) : ∃ u : Mat,
      s.apply env ⟨2 ^ ts.length, 2 ^ ts.length, U⟩ ts ctrls = applyOn env u (cs ++ ts) s ∧
      u.rows = 2 ^ (cs ++ ts).length ∧ applyMatrix [] u.entry (cs ++ ts) = applyMatrix cs U ts := by
  cases ctrls with
  | none =>
    have : cs = [] := hc.symm
    subst this
    exact ⟨_, apply_none rfl rfl, rfl, rfl⟩
  | some c =>
    have : cs = c := hc.symm
    subst this
    refine ⟨_, apply_some rfl rfl, controlled_rows rfl, ?_⟩
    rw [controlled_entry rfl rfl]
    funext ψ
    exact applyMatrix_extend hn U ψ

theorem refine_apply {env : Env} (he : env.eps = 0) {s : Sim} {σ : Ideal} (h : Refines s σ) {cs ts : List ℕ}
    (hn : (cs ++ ts).Nodup) (ht : ∀ t ∈ cs ++ ts, t ∈ σ.live) {U : ℕ → ℕ → ℂ} (hU : Unitary (2 ^ ts.length) U)
    (hu : ∀ l < (cs ++ ts).length, Used s.idMap l) {ctrls : Option (List ℕ)} (hc : ctrls.getD [] = cs) :
    ∃ s', s.apply env ⟨2 ^ ts.length, 2 ^ ts.length, U⟩ ts ctrls = .ok s' ∧
      Refines s' { σ with psi := applyMatrix cs U ts σ.psi } ∧ ∀ l, Used s'.idMap l ↔ Used s.idMap l := by
  obtain ⟨u, h1, h2, h3⟩ := apply_on (env := env) (s := s) (U := U) hc hn
  obtain ⟨w, hw, ha⟩ := h.psi
  have hlin : applyMatrix cs U ts (abs s) = w • applyMatrix cs U ts σ.psi := by
    rw [ha, ← matL_apply, ← matL_apply, map_smul]
  obtain ⟨s', g1, g2, g3, g4, g6, g5⟩ := applyOn_spec he h.wf hn (h.alloc ht) hu h2 (by
    rw [h3]
    intro h0
    have := normSq_matrix (finSupp_abs s) hn hU
    rw [h0, h.norm] at this
    simp [Spec.normSq] at this)
  refine ⟨s', by rw [h1, g1], ⟨g2, ?_, g3.trans h.rng, ⟨w, hw, ?_⟩, h.good.matrix hn ht hU⟩, g6⟩
  · intro q; rw [g4 q]; exact h.live q
  · rw [g5, h3, hlin]

end Qir
