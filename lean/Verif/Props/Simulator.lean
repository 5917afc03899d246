import Verif.Proof.Examples
import Mathlib.MeasureTheory.Measure.Lebesgue.Basic

/-!
# Properties of the simulator: measurement, allocation, release, observation

Every theorem speaks about an arbitrary reachable state `s` in which `get_state` would report the
state vector `ψ` on the allocated qubits `L`.  Arithmetic is exact (`env.eps = 0`).
-/

noncomputable section
namespace Qir
open Spec Sim

variable {env : Env} {s : Sim} {L : Finset ℕ} {ψ : Wave}

/-- A case meeting the hypotheses `Reachable env s`, `Shows env s L ψ`, `q ∈ L`, `L ≠ {q}` shared by
the theorems below: a Bell pair, whose qubit 0 is one with probability one half. -/
example (he : env.eps = 0) : ∃ s L ψ, Reachable env s ∧ Shows env s L ψ ∧ 0 ∈ L ∧ 1 ∈ L ∧ L ≠ {0} ∧
    [0, 1].Nodup ∧ prob [0] true ψ = 1 / 2 := by
  obtain ⟨s, w, hr, hw, hs⟩ := bell_reachable he
  exact ⟨s, _, _, hr, hs, by simp, by simp, by decide, by simp, prob_bell hw true⟩

/-! ### C02 Born rule -/

/-- **C02.** `measure(q)` does not panic; it returns one exactly when the next random sample is below
the probability of one; it uses up one sample; and afterwards the reported state is the projected,
renormalised one (up to a global phase). -/
theorem C02_born (he : env.eps = 0) (hr : Reachable env s) (hs : Shows env s L ψ) {q : ℕ}
    (hq : q ∈ L) :
    ∃ (b : Bool) (s' : Sim) (w : ℂ), s.measure env q = .ok (b, s') ∧
      (b = true ↔ s.rng 0 < prob [q] true ψ) ∧ s'.rng = (fun n => s.rng (n + 1)) ∧
      ‖w‖ = 1 ∧ Shows env s' L (w • postMeasure [q] b ψ) ∧ Reachable env s' := by
  obtain ⟨_, _, d, o, s', w, h1, h2, h3, h4, h5, h6, h7⟩ := hr.step he hs (c := .measure q) hq
  cases h2
  have h3' : o = .bit _ := h3
  subst h3'
  exact ⟨_, _, w, call_measure h1, by simp [Ideal.outcome], h5, h6, h7, h4⟩

/-- **C02**, as a probability: over a uniformly distributed sample in `[0, 1)` the outcome one has
exactly the probability of quantum mechanics. -/
theorem C02_probability (he : env.eps = 0) (hr : Reachable env s) (hs : Shows env s L ψ) {q : ℕ}
    (hq : q ∈ L) :
    MeasureTheory.volume {u : ℝ | u ∈ Set.Ico 0 1 ∧
        ∃ s', ({ s with rng := fun _ => u } : Sim).measure env q = .ok (true, s')} =
      ENNReal.ofReal (prob [q] true ψ) := by
  obtain ⟨hR, ha⟩ := hr.rel he hs
  have hle : prob [q] true ψ ≤ 1 := by
    have h1 := prob_add hR.good.fin [q]
    have h2 := prob_nonneg [q] false ψ
    have h3 := hR.good.norm
    simp only at h1 h3
    linarith
  have hset : {u : ℝ | u ∈ Set.Ico 0 1 ∧
      ∃ s', ({ s with rng := fun _ => u } : Sim).measure env q = .ok (true, s')} =
      Set.Ico 0 (prob [q] true ψ) := by
    ext u
    obtain ⟨s', h1, _⟩ := measure_spec he (s := { s with rng := fun _ => u })
      ⟨hR.wf.b, hR.wf.queued⟩ ((hR.live q).1 hq)
    have ha' : abs { s with rng := fun _ => u } = ψ := ha
    rw [ha'] at h1
    simp only [Set.mem_setOf_eq, Set.mem_Ico, h1]
    constructor
    · rintro ⟨⟨h0, _⟩, s'', hs''⟩
      simp at hs''
      exact ⟨h0, hs''.1⟩
    · rintro ⟨h0, hp⟩
      exact ⟨⟨h0, lt_of_lt_of_le hp hle⟩, s', by simp [hp]⟩
  rw [hset, Real.volume_Ico, sub_zero]

/-! ### C03 Repeated measurement -/

/-- **C03.** Measuring a qubit again, after any number of observations, gives the same result,
whatever the samples. -/
theorem C03_repeatable (he : env.eps = 0) (hr : Reachable env s) (hs : Shows env s L ψ) {q : ℕ}
    (hq : q ∈ L) {b : Bool} {s1 : Sim} (hm : s.measure env q = .ok (b, s1)) (cs : List Call)
    (hc : ∀ c ∈ cs, c.IsLook ∧ c.ValidOn L) :
    ∃ os s2 s3, runCalls env cs s1 = .ok (os, s2) ∧ s2.measure env q = .ok (b, s3) := by
  obtain ⟨hg, _⟩ := hr.rel he hs
  have hpos := hg.good.outcome_pos [q]
  obtain ⟨b', s1', w, h1, h2, h3, h4, h5, h6⟩ := C02_born he hr hs hq
  rw [hm] at h1
  cases h1
  have hb : (⟨L, ψ, s.rng⟩ : Ideal).outcome [q] = b := by
    unfold Ideal.outcome
    cases b <;> simp_all
  rw [hb] at hpos
  obtain ⟨hR1, _⟩ := h6.rel he h5
  obtain ⟨os, s2, hrun, hab, hR2⟩ := look_run he cs hR1 hc
  have hr2 := h6.look he hR1 hc hrun
  have hs2 : Shows env s2 L (w • postMeasure [q] b ψ) := by
    have := hR2.shows he
    rw [hab, (h6.rel he h5).2] at this
    exact this
  obtain ⟨b2, s3, w2, g1, g2, _⟩ := C02_born he hr2 hs2 hq
  refine ⟨os, s2, s3, hrun, ?_⟩
  rw [g1]
  have hp := prob_post hpos true
  rw [← prob_phase h4] at hp
  rw [hp] at g2
  have hsam := hR2.good.samples 0
  have hrng : s2.rng 0 = s1.rng 0 := by rw [hR2.rng]
  simp only at hsam
  rw [hrng] at g2
  have : b2 = b := by
    cases b <;> cases b2 <;> simp_all
    linarith
  rw [this]

/-- A case meeting the hypotheses: half of a Bell pair is measured; then the state is looked at
twice. -/
example (he : env.eps = 0) : ∃ s L ψ b s1, Reachable env s ∧ Shows env s L ψ ∧ 0 ∈ L ∧
    s.measure env 0 = .ok (b, s1) ∧ ∀ c ∈ [Call.getState, .jointProb [0, 1]], c.IsLook ∧ c.ValidOn L := by
  obtain ⟨s, w, hr, hw, hs⟩ := bell_reachable he
  obtain ⟨b, s1, _, hm, _⟩ := C02_born he hr hs (q := 0) (by simp)
  exact ⟨s, _, _, b, s1, hr, hs, by simp, hm, by simp [Call.IsLook, Call.ValidOn]⟩

/-! ### C04 Normalisation -/

/-- **C04.** After every history the squared amplitudes of the reported state, of the listing
`get_state` returns, and of the stored sparse state sum to one. -/
theorem C04_normalised (he : env.eps = 0) (hr : Reachable env s) (hs : Shows env s L ψ) :
    Spec.normSq ψ = 1 ∧ (s.state.map (fun e => Complex.normSq e.2)).sum = 1 ∧
    ∃ l n s', s.getState env = .ok ((l, n), s') ∧ (l.map (fun e => Complex.normSq e.2)).sum = 1 := by
  obtain ⟨hR, ha⟩ := hr.rel he hs
  refine ⟨hR.good.norm, ?_, ?_⟩
  · rw [stored_normSq hR.wf, hR.norm]
  · obtain ⟨l, s', h1, hl⟩ := hs.reported
    refine ⟨l, _, s', h1, ?_⟩
    rw [lists_normSq (Finset.sort_nodup _ _) hl]
    · exact hR.good.norm
    · intro b hb q hq
      exact hs.confined b hb q (fun hc => hq (mem_sort_iff.2 hc))

/-! ### C05 No impossible outcomes -/

theorem state_ne_nil (he : env.eps = 0) (hr : Reachable env s) : s.state ≠ [] := by
  obtain ⟨L, ψ, hs⟩ := hr.shows he
  intro h
  have := (C04_normalised he hr hs).2.1
  rw [h] at this
  simp at this

/-- **C05**, `measure`. -/
theorem C05_measure (he : env.eps = 0) (hr : Reachable env s) (hs : Shows env s L ψ) {q : ℕ}
    (hq : q ∈ L) {b : Bool} {s' : Sim} (hm : s.measure env q = .ok (b, s')) :
    0 < prob [q] b ψ ∧ s'.state ≠ [] := by
  obtain ⟨hg, _⟩ := hr.rel he hs
  have hpos := hg.good.outcome_pos [q]
  obtain ⟨b', s1', w, h1, h2, h3, h4, h5, h6⟩ := C02_born he hr hs hq
  rw [hm] at h1
  cases h1
  refine ⟨?_, state_ne_nil he h6⟩
  have hb : (⟨L, ψ, s.rng⟩ : Ideal).outcome [q] = b := by
    unfold Ideal.outcome
    cases b <;> simp_all
  rwa [hb] at hpos

/-! ### C13, C14 joint probability and joint measurement -/

theorem parity_odd (qs : List ℕ) (b : Basis) :
    parity qs b = true ↔ Odd (qs.countP (fun q => b q)) := by
  induction qs with
  | nil => simp [parity]
  | cons q qs ih =>
    have : parity (q :: qs) b = xor (b q) (parity qs b) := rfl
    rw [this, List.countP_cons]
    cases hb : b q
    · simpa using ih
    · simp only [Bool.true_xor, Bool.not_eq_true', if_true, Nat.odd_add_one, ← ih,
        Bool.not_eq_true]

/-- **C13.** `joint_probability(qs)` is the total probability of the basis states in which an odd
number of the given qubits are one. -/
theorem C13_joint_probability (he : env.eps = 0) (hr : Reachable env s) (hs : Shows env s L ψ)
    {qs : List ℕ} (hn : qs.Nodup) (hq : ∀ q ∈ qs, q ∈ L) :
    ∃ s', s.jointProbability env qs = .ok (∑ᶠ b, if Odd (qs.countP (fun q => b q)) then
      Complex.normSq (ψ b) else 0, s') := by
  obtain ⟨_, _, d, o, s', w, h1, h2, h3, _⟩ := hr.step he hs (c := .jointProb qs) ⟨hn, hq⟩
  cases h2
  have h3' : o = .real _ := h3
  subst h3'
  refine ⟨s', ?_⟩
  rw [call_jointProb h1]
  congr 2
  unfold prob
  apply finsum_congr
  intro b
  have hpar := parity_odd qs b
  by_cases h : parity qs b = true
  · rw [if_pos h, if_pos (hpar.1 h)]
  · rw [if_neg h, if_neg (fun hc => h (hpar.2 hc))]

/-- **C14.** `joint_measure(qs)` returns odd parity exactly when the sample is below the odd-parity
probability, leaves the projected renormalised state, and a second joint measurement of the same
qubits gives the same answer. -/
theorem C14_joint_measure (he : env.eps = 0) (hr : Reachable env s) (hs : Shows env s L ψ)
    {qs : List ℕ} (hn : qs.Nodup) (hq : ∀ q ∈ qs, q ∈ L) :
    ∃ (b : Bool) (s' : Sim) (w : ℂ), s.jointMeasure env qs = .ok (b, s') ∧
      (b = true ↔ s.rng 0 < prob qs true ψ) ∧ s'.rng = (fun n => s.rng (n + 1)) ∧
      ‖w‖ = 1 ∧ Shows env s' L (w • postMeasure qs b ψ) ∧ Reachable env s' ∧
      0 < prob qs b ψ ∧ ∃ s'', s'.jointMeasure env qs = .ok (b, s'') := by
  have key : ∀ {s : Sim} {ψ : Wave}, Reachable env s → Shows env s L ψ →
      ∃ (b : Bool) (s' : Sim) (w : ℂ), s.jointMeasure env qs = .ok (b, s') ∧
      (b = true ↔ s.rng 0 < prob qs true ψ) ∧ s'.rng = (fun n => s.rng (n + 1)) ∧
      ‖w‖ = 1 ∧ Shows env s' L (w • postMeasure qs b ψ) ∧ Reachable env s' ∧ 0 < prob qs b ψ := by
    intro s ψ hr hs
    obtain ⟨hg, _, d, o, s', w, h1, h2, h3, h4, h5, h6, h7⟩ :=
      hr.step he hs (c := .jointMeasure qs) ⟨hn, hq⟩
    cases h2
    have h3' : o = .bit _ := h3
    subst h3'
    exact ⟨_, _, w, call_jointMeasure h1, by simp [Ideal.outcome], h5, h6, h7, h4, hg.outcome_pos qs⟩
  obtain ⟨b, s', w, h1, h2, h3, h4, h5, h6, h7⟩ := key hr hs
  obtain ⟨b2, s2, w2, g1, g2, _⟩ := key h6 h5
  refine ⟨b, s', w, h1, h2, h3, h4, h5, h6, h7, s2, ?_⟩
  rw [g1]
  have hp := prob_post h7 true
  rw [← prob_phase h4] at hp
  rw [hp] at g2
  have hsam := (h6.rel he h5).1.good.samples 0
  simp only at hsam
  have : b2 = b := by
    cases b <;> cases b2 <;> simp_all
  rw [this]

/-! ### C20 force_collapse -/

/-- **C20.** `force_collapse(v, q)` returns the probability of `q` being `v` before the call; if it is
non-zero the state afterwards is the projected renormalised state, otherwise the state is
unchanged. -/
theorem C20_force_collapse (he : env.eps = 0) (hr : Reachable env s) (hs : Shows env s L ψ)
    {q : ℕ} (hq : q ∈ L) (v : Bool) :
    ∃ (s' : Sim) (w : ℂ), s.forceCollapse env v q = .ok (prob [q] v ψ, s') ∧ ‖w‖ = 1 ∧
      s'.rng = s.rng ∧ Reachable env s' ∧
      (prob [q] v ψ ≠ 0 → Shows env s' L (w • postMeasure [q] v ψ)) ∧
      (prob [q] v ψ = 0 → Shows env s' L (w • ψ)) := by
  obtain ⟨_, _, d, o, s', w, h1, h2, h3, h4, h5, h6, h7⟩ := hr.step he hs (c := .collapse v q) hq
  cases h2
  have h3' : o = .real _ := h3
  subst h3'
  by_cases h0 : prob [q] v ψ = 0
  · simp only [Ideal.step, h0, if_true] at h5 h7
    exact ⟨s', w, call_collapse h1, h6, h5, h4, fun h => absurd h0 h, fun _ => h7⟩
  · simp only [Ideal.step, h0, if_false] at h5 h7
    exact ⟨s', w, call_collapse h1, h6, h5, h4, fun _ => h7, fun h => absurd h h0⟩

/-- **C05**, `force_collapse` and `joint_measure`: the projection is only ever onto an outcome of
positive probability (see `C14_joint_measure`, `C20_force_collapse`), and the stored state never
becomes empty. -/
theorem C05_collapse (he : env.eps = 0) (hr : Reachable env s) (hs : Shows env s L ψ)
    {q : ℕ} (hq : q ∈ L) (v : Bool) {p : ℝ} {s' : Sim} (h : s.forceCollapse env v q = .ok (p, s')) :
    s'.state ≠ [] ∧ (p = 0 → ∃ w : ℂ, ‖w‖ = 1 ∧ Shows env s' L (w • ψ)) := by
  obtain ⟨s1, w, h1, h2, _, h4, _, h6⟩ := C20_force_collapse he hr hs hq v
  rw [h] at h1
  cases h1
  exact ⟨state_ne_nil he h4, fun h0 => ⟨w, h2, h6 h0⟩⟩

/-! ### C08 allocation -/

/-- **C08.** `allocate` returns the smallest identifier that is not allocated; the reported state is
unchanged, and in it the new qubit is zero in every basis state. -/
theorem C08_allocate (he : env.eps = 0) (hr : Reachable env s) (hs : Shows env s L ψ) :
    s.allocate.1 ∉ L ∧ (∀ m < s.allocate.1, m ∈ L) ∧
    Shows env s.allocate.2 (insert s.allocate.1 L) ψ ∧ Reachable env s.allocate.2 ∧
    s.allocate.2.rng = s.rng ∧ ∀ b, ψ b ≠ 0 → b s.allocate.1 = false := by
  obtain ⟨hR, ha⟩ := hr.rel he hs
  obtain ⟨h1, h2, hw', hl, hrng, hab⟩ := allocate_spec hR.wf
  have hn : s.allocate.1 ∉ L := by
    intro hc
    have := (hs.ids _).1 hc
    rw [h1] at this; cases this
  obtain ⟨_, _, d, o, s', w, g1, g2, g3, g4, g5, g6, g7⟩ := hr.step he hs (c := .allocate) trivial
  cases g2
  have hs' : s' = s.allocate.2 := by
    simp only [call, Except.ok.injEq, Prod.mk.injEq] at g1
    exact g1.2.symm
  subst hs'
  refine ⟨hn, fun m hm => (hs.ids m).2 (h2 m hm), ?_, g4, hrng, fun b hb => hs.confined b hb _ hn⟩
  obtain ⟨hR', ha'⟩ := g4.rel he g7
  have := hR'.shows he
  rw [hab, ha] at this
  have hl' : ((⟨L, ψ, s.rng⟩ : Ideal).step .allocate).live = insert s.allocate.1 L := by
    show insert (Ideal.fresh _) L = _
    rw [← fresh_eq hR]
  rw [← hl']
  exact this

/-! ### C09 release -/

/-- **C09**, two or more qubits: `release(q)` is a measurement of `q` with outcome `v` followed by
removal of the qubit.  In the remaining state a basis state of the other qubits has the amplitude
it had, together with `q = v`, in the post-measurement state. -/
theorem C09_release (he : env.eps = 0) (hr : Reachable env s) (hs : Shows env s L ψ) {q : ℕ}
    (hq : q ∈ L) (hL : L ≠ {q}) :
    ∃ (v : Bool) (s' : Sim) (w : ℂ) (φ : Wave), s.release env q = .ok s' ∧
      (v = true ↔ s.rng 0 < prob [q] true ψ) ∧ 0 < prob [q] v ψ ∧
      s'.rng = (fun n => s.rng (n + 1)) ∧ ‖w‖ = 1 ∧ Reachable env s' ∧ s'.state ≠ [] ∧
      Shows env s' (L.erase q) φ ∧
      ∀ b, φ b = if b q then 0 else w * postMeasure [q] v ψ (Function.update b q v) := by
  obtain ⟨hg, _, d, o, s', w, h1, h2, h3, h4, h5, h6, h7⟩ := hr.step he hs (c := .release q) hq
  cases h2
  have hv := hg.outcome_pos [q]
  have ho : ((⟨L, ψ, s.rng⟩ : Ideal).outcome [q] = true ↔ s.rng 0 < prob [q] true ψ) := by
    simp [Ideal.outcome]
  simp only [Ideal.step, hL, if_false, Ideal.measured] at h5 h7
  generalize (⟨L, ψ, s.rng⟩ : Ideal).outcome [q] = v at hv ho h5 h7
  refine ⟨v, s', w, _, quiet_ok h1, ho, hv, h5, h6, h4, state_ne_nil he h4, h7, ?_⟩
  intro b
  simp only [Pi.smul_apply, smul_eq_mul]
  cases v
  · simp only [Bool.false_eq_true, if_false]
    cases hb : b q
    · simp only [Bool.false_eq_true, if_false]
      rw [show Function.update b q false = b by rw [← hb, Function.update_eq_self]]
    · simp [postMeasure, proj, parity, hb]
  · simp only [if_true]
    cases hb : b q
    · simp [ctrl, matX, mat, hb]
    · simp [ctrl, matX, mat, hb, postMeasure, proj, parity]

/-- **C09**, a qubit in a definite classical state: whatever the sample, releasing it does not
disturb the others. -/
theorem C09_release_classical (he : env.eps = 0) (hr : Reachable env s) (hs : Shows env s L ψ)
    {q : ℕ} (hq : q ∈ L) (hL : L ≠ {q}) {v : Bool} (hv : ∀ b, ψ b ≠ 0 → b q = v) :
    ∃ (s' : Sim) (w : ℂ) (φ : Wave), s.release env q = .ok s' ∧ ‖w‖ = 1 ∧
      Shows env s' (L.erase q) φ ∧
      ∀ b, φ b = if b q then 0 else w * ψ (Function.update b q v) := by
  obtain ⟨u, s', w, φ, h1, h2, h3, h4, h5, h6, h7, h8, h9⟩ := C09_release he hr hs hq hL
  obtain ⟨hR, _⟩ := hr.rel he hs
  have hproj : ∀ x, proj [q] x ψ = if x = v then ψ else 0 := by
    intro x
    funext b
    simp only [proj, parity, List.foldr_cons, List.foldr_nil, Bool.xor_false]
    by_cases h0 : ψ b = 0
    · split <;> split <;> simp [h0]
    · rw [hv b h0]
      by_cases hx : x = v
      · simp [hx]
      · rw [if_neg (fun h => hx h.symm), if_neg hx]; rfl
  have hp : ∀ x, prob [q] x ψ = if x = v then 1 else 0 := by
    intro x
    rw [← normSq_proj, hproj]
    split
    · exact hR.good.norm
    · simp [Spec.normSq]
  have hu : u = v := by
    by_contra hne
    rw [hp, if_neg hne] at h3
    exact lt_irrefl _ h3
  subst hu
  have hpm : postMeasure [q] u ψ = ψ := by
    unfold postMeasure
    rw [hp, hproj]; simp
  rw [hpm] at h9
  exact ⟨s', w, φ, h1, h5, h8, h9⟩

/-- A case meeting the hypotheses: after qubit 0 of a Bell pair has been measured, it is in a
definite classical state. -/
example (he : env.eps = 0) : ∃ s L ψ v, Reachable env s ∧ Shows env s L ψ ∧ 0 ∈ L ∧ L ≠ {0} ∧
    ∀ b : Basis, ψ b ≠ 0 → b 0 = v := by
  obtain ⟨s, w, hr, hw, hs⟩ := bell_reachable he
  obtain ⟨b, s1, w1, hm, _, _, _, hs1, hr1⟩ := C02_born he hr hs (q := 0) (by simp)
  refine ⟨s1, _, _, b, hr1, hs1, by simp, by decide, fun c hc => ?_⟩
  by_contra hne
  apply hc
  simp [postMeasure, proj, parity, hne]

/-- **C09**, the last qubit: releasing it puts the simulator back into its initial state (empty
queues, no allocated qubit, the state vector of no qubits) without using a sample. -/
theorem C09_release_last (he : env.eps = 0) (hr : Reachable env s) {q : ℕ}
    (hs : Shows env s {q} ψ) :
    ∃ s', s.release env q = .ok s' ∧ s'.rng = s.rng ∧ s'.state = [(0, 1)] ∧ s'.opQ = [] ∧
      (∀ i, s'.hasQueued i = false) ∧ (∀ i, s'.idMap.get i = none) ∧ Shows env s' ∅ (ket zeroBasis) ∧
      Reachable env s' := by
  obtain ⟨hR, _⟩ := hr.rel he hs
  obtain ⟨_, _, d, o, s', w, h1, h2, h3, h4, h5, h6, h7⟩ :=
    hr.step he hs (c := .release q) (Finset.mem_singleton_self q)
  cases h2
  simp only [Ideal.step, if_true] at h5 h7
  have hrel := quiet_ok h1
  have hlen : s.idMap.iter.length = 1 := by
    have := congrArg List.length hR.keys
    unfold IMap.keys Ideal.ids at this
    rw [List.length_map, Finset.length_sort] at this
    simpa using this
  have hs' : s' = { s with
      opQ := []
      hFlag := 0
      rxQ := IMap.empty
      ryQ := IMap.empty
      state := [(0, 1)]
      idMap := s.idMap.remove q } := by
    unfold release releaseState at hrel
    rw [if_pos hlen] at hrel
    simp only [ok_bind, pure_ok, Except.ok.injEq] at hrel
    exact hrel.symm
  obtain ⟨s2, g1, _, _, _, hab⟩ := release_last (env := env) ((hs.ids q).1 (by simp)) hlen
  rw [hrel] at g1
  cases g1
  refine ⟨s', hrel, h5, by rw [hs'], by rw [hs'], ?_, ?_, ?_, h4⟩
  · intro i; rw [hasQueued_eq, hs']; simp
  · intro i
    rw [hs']
    simp only [IMap.get_remove]
    split
    · rfl
    · rename_i hi
      have := (not_congr (hs.ids i)).1 (by simpa using hi)
      simpa using this
  · obtain ⟨hR', ha'⟩ := h4.rel he h7
    have := hR'.shows he
    rw [hab] at this
    exact this

/-- **C05**, `release`: included in `C09_release` (`0 < prob [q] v ψ` and `s'.state ≠ []`). -/
theorem C05_release (he : env.eps = 0) (hr : Reachable env s) (hs : Shows env s L ψ) {q : ℕ}
    (hq : q ∈ L) {s' : Sim} (h : s.release env q = .ok s') : s'.state ≠ [] := by
  obtain ⟨_, _, d, o, s1, w, h1, _, _, h4, _⟩ := hr.step he hs (c := .release q) hq
  have := quiet_ok h1
  rw [h] at this
  cases this
  exact state_ne_nil he h4

/-! ### C11 own locations -/

/-- **C11.** Distinct allocated identifiers have distinct locations, every set bit of every stored
index belongs to an allocated identifier, and the stored indices are pairwise distinct. -/
theorem C11_locations (he : env.eps = 0) (hr : Reachable env s) :
    (∀ i j l, s.idMap.get i = some l → s.idMap.get j = some l → i = j) ∧
    (∀ e ∈ s.state, ∀ l, e.1.testBit l = true → ∃ i, s.idMap.get i = some l) ∧
    (s.state.map Prod.fst).Nodup := by
  obtain ⟨σ, hσ⟩ := hr.refines he
  exact ⟨hσ.wf.b.core.inj, hσ.wf.b.core.bits, hσ.wf.b.core.nodup⟩

/-! ### C12 swap_qubit_ids -/

/-- **C12.** `swap_qubit_ids(a, b)` is the SWAP gate on the reported state, whatever is pending. -/
theorem C12_swap (he : env.eps = 0) (hr : Reachable env s) (hs : Shows env s L ψ) {a b : ℕ}
    (ha : a ∈ L) (hb : b ∈ L) :
    ∃ (s' : Sim), s.swapQubitIds a b = .ok s' ∧ s'.rng = s.rng ∧ Reachable env s' ∧
      Shows env s' L (swapQubits a b ψ) := by
  obtain ⟨hR, habs⟩ := hr.rel he hs
  obtain ⟨s1, g1, _, _, hrng, hab⟩ := swapQubitIds_spec hR.wf ((hs.ids a).1 ha) ((hs.ids b).1 hb)
  obtain ⟨_, _, d, o, s', w, h1, h2, h3, h4, h5, h6, h7⟩ := hr.step he hs (c := .swap a b) ⟨ha, hb⟩
  cases h2
  have := quiet_ok h1
  rw [g1] at this
  cases this
  refine ⟨_, g1, hrng, h4, ?_⟩
  obtain ⟨hR', _⟩ := h4.rel he h7
  have := hR'.shows he
  rw [hab, habs] at this
  exact this

end Qir
