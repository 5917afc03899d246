import Verif.Proof.Refine

/-! The state a well-formed simulator stands for is the one `get_state` reports. -/

noncomputable section
namespace Qir
open Spec Function Sim

/-- Basis states that are zero outside `qs` have an index. -/
theorem exists_index {qs : List ℕ} (hn : qs.Nodup) {b : Basis} (hb : ∀ q, q ∉ qs → b q = false) :
    ∃ k < 2 ^ qs.length, indexed qs k = b := by
  refine ⟨Nat.ofBits (fun i : Fin qs.length => b qs[i]), Nat.ofBits_lt_two_pow _, ?_⟩
  funext q
  unfold indexed
  by_cases hq : q ∈ qs
  · have hi : qs.idxOf q < qs.length := List.idxOf_lt_length_iff.2 hq
    simp [hq, Nat.testBit_ofBits_lt _ _ hi]
  · simp [hq, hb q hq]

theorem indexed_inj {qs : List ℕ} (hn : qs.Nodup) {k k' : ℕ} (hk : k < 2 ^ qs.length)
    (hk' : k' < 2 ^ qs.length) (h : indexed qs k = indexed qs k') : k = k' := by
  apply Nat.eq_of_testBit_eq
  intro i
  by_cases hi : i < qs.length
  · have := congrFun h qs[i]
    unfold indexed at this
    simpa [hn.idxOf_getElem] using this
  · have hle : 2 ^ qs.length ≤ 2 ^ i := Nat.pow_le_pow_right (by norm_num) (not_lt.1 hi)
    rw [Nat.testBit_lt_two_pow (lt_of_lt_of_le hk hle), Nat.testBit_lt_two_pow (lt_of_lt_of_le hk' hle)]

/-- A listing determines the state. -/
theorem lists_unique {qs : List ℕ} (hn : qs.Nodup) {ψ φ : Wave} {l : List (ℕ × ℂ)}
    (h : Lists qs ψ l) (h' : Lists qs φ l) (hψ : ∀ b, ψ b ≠ 0 → ∀ q, q ∉ qs → b q = false)
    (hφ : ∀ b, φ b ≠ 0 → ∀ q, q ∉ qs → b q = false) : ψ = φ := by
  have key : ∀ {ψ φ : Wave}, Lists qs ψ l → Lists qs φ l → ∀ k < 2 ^ qs.length,
      ψ (indexed qs k) ≠ 0 → ψ (indexed qs k) = φ (indexed qs k) := by
    intro ψ φ h h' k hk hne
    exact (h'.sound _ (h.complete k hk hne)).2
  funext b
  by_cases hb : ∀ q, q ∉ qs → b q = false
  · obtain ⟨k, hk, rfl⟩ := exists_index hn hb
    by_cases h1 : ψ (indexed qs k) = 0
    · by_cases h2 : φ (indexed qs k) = 0
      · rw [h1, h2]
      · exact (key h' h k hk h2).symm
    · exact key h h' k hk h1
  · have h1 : ψ b = 0 := by by_contra hc; exact hb (hψ b hc)
    have h2 : φ b = 0 := by by_contra hc; exact hb (hφ b hc)
    rw [h1, h2]

/-- The squared length can be read off a listing. -/
theorem lists_normSq {qs : List ℕ} (hn : qs.Nodup) {ψ : Wave} {l : List (ℕ × ℂ)}
    (h : Lists qs ψ l) (hψ : ∀ b, ψ b ≠ 0 → ∀ q, q ∉ qs → b q = false) :
    (l.map (fun e => Complex.normSq e.2)).sum = Spec.normSq ψ := by
  classical
  have hnd : (l.map (fun e => indexed qs e.1)).Nodup := by
    apply List.Nodup.map_on
    · intro x hx y hy hxy
      have h1 := h.sound x hx
      have h2 := h.sound y hy
      have h3 := indexed_inj hn h1.1 h2.1 hxy
      exact Prod.ext h3 (by rw [h1.2, h2.2, h3])
    · exact h.sorted.imp (by rintro a _ h rfl; omega)
  have hsub : Function.support (fun b => Complex.normSq (ψ b)) ⊆
      ((l.map (fun e => indexed qs e.1)).toFinset : Set Basis) := by
    intro b hb
    have hb' : ψ b ≠ 0 := by intro h0; apply hb; simp [h0]
    obtain ⟨k, hk, rfl⟩ := exists_index hn (hψ b hb')
    have := h.complete k hk hb'
    simp only [List.coe_toFinset, List.mem_map, Set.mem_setOf_eq]
    exact ⟨_, this, rfl⟩
  unfold Spec.normSq
  rw [finsum_eq_sum_of_support_subset _ hsub, List.sum_toFinset _ hnd, List.map_map]
  congr 1
  apply List.map_congr_left
  intro e he
  simp only [comp_apply]
  rw [(h.sound e he).2]

theorem Refines.conf {s : Sim} {σ : Ideal} (h : Refines s σ) : Confined σ.live (abs s) := by
  obtain ⟨c, _, ha⟩ := h.psi
  intro b hb
  apply h.good.conf b
  intro h0
  apply hb
  simp [ha, h0]

theorem mem_sort_iff {L : Finset ℕ} {q : ℕ} : q ∈ L.sort (· ≤ ·) ↔ q ∈ L := Finset.mem_sort _

theorem Refines.shows {env : Env} (he : env.eps = 0) {s : Sim} {σ : Ideal} (h : Refines s σ) :
    Shows env s σ.live (abs s) := by
  obtain ⟨l, s', h1, _, _, _, _, hl⟩ := getState_spec he h.wf
  refine ⟨h.live, h.conf, l, s', ?_, ?_⟩
  · rw [h1, h.keys, Ideal.ids, Finset.length_sort]
  · rw [h.keys] at hl; exact hl

/-- What is shown is unique. -/
theorem Shows.unique {env : Env} {s : Sim} {L L' : Finset ℕ} {ψ ψ' : Wave} (h : Shows env s L ψ)
    (h' : Shows env s L' ψ') : L = L' ∧ ψ = ψ' := by
  have hL : L = L' := by ext q; rw [h.ids, h'.ids]
  subst hL
  refine ⟨rfl, ?_⟩
  obtain ⟨l, s1, h1, hl⟩ := h.reported
  obtain ⟨l', s1', h1', hl'⟩ := h'.reported
  rw [h1] at h1'
  simp only [Except.ok.injEq, Prod.mk.injEq, and_true] at h1'
  obtain ⟨rfl, rfl⟩ := h1'
  refine lists_unique (Finset.sort_nodup _ _) hl hl' ?_ ?_
  · intro b hb q hq; exact h.confined b hb q (fun hc => hq (mem_sort_iff.2 hc))
  · intro b hb q hq; exact h'.confined b hb q (fun hc => hq (mem_sort_iff.2 hc))

theorem Refines.shows_eq {env : Env} (he : env.eps = 0) {s : Sim} {σ : Ideal} (h : Refines s σ)
    {L : Finset ℕ} {ψ : Wave} (hs : Shows env s L ψ) : L = σ.live ∧ ψ = abs s :=
  hs.unique (h.shows he)

/-! ### Reachability -/

theorem runCalls_append (env : Env) (cs ds : List Call) (s : Sim) :
    runCalls env (cs ++ ds) s = (do
      let (os, s) ← runCalls env cs s
      let (os', s) ← runCalls env ds s
      return (os ++ os', s)) := by
  induction cs generalizing s with
  | nil =>
    simp only [List.nil_append, runCalls, ok_bind]
    cases runCalls env ds s with
    | error e => rfl
    | ok r => rfl
  | cons c cs ih =>
    simp only [List.cons_append, runCalls]
    cases call env c s with
    | error e => rfl
    | ok r =>
      simp only [ok_bind, ih]
      cases runCalls env cs r.2 with
      | error e => rfl
      | ok r' =>
        simp only [ok_bind, pure_ok]
        cases runCalls env ds r'.2 with
        | error e => rfl
        | ok r'' => rfl

theorem validRun_append (cs ds : List Call) (σ : Ideal) :
    σ.ValidRun (cs ++ ds) ↔ σ.ValidRun cs ∧ (σ.run cs).ValidRun ds := by
  induction cs generalizing σ with
  | nil => simp [Ideal.ValidRun, Ideal.run]
  | cons c cs ih =>
    simp only [List.cons_append, Ideal.ValidRun, ih, Ideal.run, List.foldl_cons, and_assoc]

theorem live_run_congr (cs : List Call) : ∀ {σ τ : Ideal}, σ.live = τ.live →
    (σ.run cs).live = (τ.run cs).live := by
  induction cs with
  | nil => intro σ τ h; exact h
  | cons c cs ih => intro σ τ h; exact ih (live_step_congr h c)

theorem twist_live_run {cs ds : List Call} (h : List.Forall₂ Call.Twist cs ds) :
    ∀ (σ τ : Ideal), σ.live = τ.live → (σ.run cs).live = (τ.run ds).live := by
  induction h with
  | nil => intro σ τ h; exact h
  | cons hc _ ih =>
    intro σ τ h
    exact ih _ _ ((live_step_congr h _).trans (twist_live_step hc τ))

theorem Reachable.refines {env : Env} (he : env.eps = 0) {s : Sim} (h : Reachable env s) :
    ∃ σ, Refines s σ := by
  obtain ⟨rng, cs, os, hr, hv, hrun⟩ := h
  obtain ⟨ds, os', s', h1, _, _, _, h5⟩ := refine_run he cs (refines_new hr) hv
  rw [h1] at hrun
  cases hrun
  exact ⟨_, h5⟩

/-- Valid calls lead from reachable states to reachable states. -/
theorem Reachable.call {env : Env} (he : env.eps = 0) {s : Sim} (h : Reachable env s) {σ : Ideal}
    (hσ : Refines s σ) {c : Call} (hv : c.ValidOn σ.live) {o : Out} {s' : Sim}
    (hc : call env c s = .ok (o, s')) : Reachable env s' := by
  obtain ⟨rng, cs, os, hr, hv', hrun⟩ := h
  refine ⟨rng, cs ++ [c], os ++ [o], hr, (validRun_append _ _ _).2 ⟨hv', ?_, trivial⟩, ?_⟩
  · obtain ⟨ds, os', s1, h1, h2, _, _, h5⟩ := refine_run he cs (refines_new hr) hv'
    rw [h1] at hrun
    cases hrun
    show c.ValidOn _
    have hl := twist_live_run h2 (Ideal.init rng) (Ideal.init rng) rfl
    rw [hl]
    have : (Ideal.run (Ideal.init rng) ds).live = σ.live := by
      ext q; rw [h5.live, hσ.live]
    rw [this]; exact hv
  · rw [runCalls_append, hrun]
    simp only [ok_bind, runCalls, hc, pure_ok]

/-- The phase of the ideal state is a matter of choice. -/
theorem Refines.exact {s : Sim} {σ : Ideal} (h : Refines s σ) : Refines s ⟨σ.live, abs s, s.rng⟩ := by
  refine ⟨h.wf, h.live, rfl, ⟨1, by simp, by simp⟩, ⟨finSupp_abs s, h.norm, h.conf, ?_⟩⟩
  rw [h.rng]; exact h.good.samples

/-- Everything the local property theorems need. -/
theorem Reachable.step {env : Env} (he : env.eps = 0) {s : Sim} (h : Reachable env s) {L : Finset ℕ}
    {ψ : Wave} (hs : Shows env s L ψ) {c : Call} (hv : c.ValidOn L) :
    Good ⟨L, ψ, s.rng⟩ ∧ Refines s ⟨L, ψ, s.rng⟩ ∧ ∃ (d : Call) (o : Out) (s' : Sim) (w : ℂ),
      Sim.call env c s = .ok (o, s') ∧ Meant s c d ∧
      (⟨L, ψ, s.rng⟩ : Ideal).Answer d o ∧ Reachable env s' ∧
      s'.rng = ((⟨L, ψ, s.rng⟩ : Ideal).step d).rng ∧ ‖w‖ = 1 ∧
      Shows env s' ((⟨L, ψ, s.rng⟩ : Ideal).step d).live
        (w • ((⟨L, ψ, s.rng⟩ : Ideal).step d).psi) := by
  obtain ⟨σ', hσ'⟩ := h.refines he
  have hσ := hσ'.exact
  obtain ⟨h1, h2⟩ := hσ.shows_eq he hs
  have h1' : L = σ'.live := h1
  subst h1' h2
  obtain ⟨d, o, s', h1, h2, h3, h4⟩ := refine_call he hσ (c := c) hv
  obtain ⟨w, hw, ha⟩ := h4.psi
  refine ⟨hσ.good, hσ, d, o, s', w, h1, h2, h3, h.call he hσ hv h1, h4.rng, hw, ?_⟩
  rw [← ha]; exact h4.shows he

/-- Every reachable state shows something. -/
theorem Reachable.shows {env : Env} (he : env.eps = 0) {s : Sim} (h : Reachable env s) :
    ∃ L ψ, Shows env s L ψ := by
  obtain ⟨σ, hσ⟩ := h.refines he
  exact ⟨_, _, hσ.shows he⟩

/-- Valid histories can be run, and every state on the way is reachable. -/
theorem Reachable.of_history {env : Env} (he : env.eps = 0) {rng : ℕ → ℝ}
    (hr : ∀ n, 0 ≤ rng n ∧ rng n < 1) {cs : List Call} (hv : (Ideal.init rng).ValidRun cs) :
    ∃ os s, runCalls env cs (Sim.new rng) = .ok (os, s) ∧ Reachable env s := by
  obtain ⟨_, os, s, h1, _⟩ := refine_run he cs (refines_new hr) hv
  exact ⟨os, s, h1, rng, cs, os, hr, hv, h1⟩

end Qir
