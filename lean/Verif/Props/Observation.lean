import Verif.Props.Circuit

/-!
# Properties of the simulator: observation, listing, exponentials, invalid operands, queue bound
-/

noncomputable section
namespace Qir
open Spec Sim

variable {env : Env} {s : Sim} {L : Finset ℕ} {ψ : Wave}

/-! ### C06 observing does not disturb

Full claim (false, see `C06_counterexample`): `C06_future_partial` without the two `RunOk`
hypotheses.  What is missing is again an uncontrolled `ry` requested while a half-turn about X is
pending: an observation flushes the half-turn, and then `ry` turns the right way. -/

/-- **C06**, the state: an observation leaves the reported state exactly as it was, and uses no
random sample. -/
theorem C06_state (he : env.eps = 0) (hr : Reachable env s) (hs : Shows env s L ψ) {c : Call}
    (hc : c.IsLook) (hv : c.ValidOn L) :
    ∃ o s', call env c s = .ok (o, s') ∧ Shows env s' L ψ ∧ s'.rng = s.rng ∧ Reachable env s' := by
  obtain ⟨hR, ha⟩ := hr.rel he hs
  obtain ⟨o, s', h1, hab, hR', _⟩ := look_step he hR hc hv
  refine ⟨o, s', h1, ?_, by rw [hR'.rng], hr.call he hR hv h1⟩
  have := hR'.shows he
  rw [hab, ha] at this
  exact this

theorem sameAnswer {σ : Ideal} {c : Call} {o o' : Out} (h : σ.Answer c o) (h' : σ.Answer c o') :
    SameAnswer o o' := by
  have hn : σ.ids.Nodup := Finset.sort_nodup _ _
  have hphase : ∀ {w w' : ℂ}, ‖w‖ = 1 → ‖w'‖ = 1 → ∃ u : ℂ, ‖u‖ = 1 ∧ w' • σ.psi = u • w • σ.psi := by
    intro w w' hw hw'
    have h0 : w ≠ 0 := by intro h; rw [h] at hw; simp at hw
    exact ⟨w' / w, by simp [hw, hw'], by rw [smul_smul, div_mul_cancel₀ _ h0]⟩
  have same : ∀ {o o' x : Out}, o = x → o' = x → (∀ l n, x ≠ .state l n) → (∀ t, x ≠ .text t) →
      SameAnswer o o' := by
    intro o o' x h1 h2 h3 h4
    subst h1 h2
    cases o' with
    | state l n => exact absurd rfl (h3 l n)
    | text t => exact absurd rfl (h4 t)
    | _ => rfl
  cases c with
  | getState =>
    obtain ⟨w, l, hw, hl, rfl⟩ := h
    obtain ⟨w', l', hw', hl', rfl⟩ := h'
    obtain ⟨u, hu, hφ⟩ := hphase hw hw'
    exact ⟨rfl, σ.ids, w • σ.psi, u, hn, by simp [Ideal.ids], hu, hl, by rw [← hφ]; exact hl'⟩
  | dump fmt =>
    obtain ⟨w, l, hw, hl, rfl⟩ := h
    obtain ⟨w', l', hw', hl', rfl⟩ := h'
    obtain ⟨u, hu, hφ⟩ := hphase hw hw'
    exact ⟨fmt, σ.ids, w • σ.psi, u, l, l', hn, hu, hl, by rw [← hφ]; exact hl', rfl, rfl⟩
  | _ => exact same h h' (by simp) (by simp)

theorem sameAnswers {cs : List Call} : ∀ {σ : Ideal} {os os' : List Out}, σ.Answers cs os →
    σ.Answers cs os' → List.Forall₂ SameAnswer os os' := by
  induction cs with
  | nil =>
    intro σ os os' h h'
    have h : os = [] := h
    have h' : os' = [] := h'
    subst h h'
    exact .nil
  | cons c cs ih =>
    intro σ os os' h h'
    obtain ⟨o, r, rfl, h1, h2⟩ := h
    obtain ⟨o', r', rfl, h1', h2'⟩ := h'
    exact .cons (sameAnswer h1 h1') (ih h2 h2')

/-- **C06**, all futures: whatever valid calls follow, every one of their answers is the same
whether the observation was made or not. -/
theorem C06_future_partial (he : env.eps = 0) (hr : Reachable env s) (hs : Shows env s L ψ) {c : Call}
    (hc : c.IsLook) (hv : c.ValidOn L) {cs : List Call}
    (hcs : (⟨L, ψ, s.rng⟩ : Ideal).ValidRun cs) :
    ∃ o s' os os' s1 s1', call env c s = .ok (o, s') ∧ runCalls env cs s = .ok (os, s1) ∧
      runCalls env cs s' = .ok (os', s1') ∧
      (RunOk env s cs → RunOk env s' cs → List.Forall₂ SameAnswer os os') := by
  obtain ⟨hR, ha⟩ := hr.rel he hs
  obtain ⟨o, s', h1, hab, hR', _⟩ := look_step he hR hc hv
  obtain ⟨ds, os, s1, g1, _, g3, g4, _⟩ := refine_run he cs hR hcs
  obtain ⟨ds', os', s1', g1', _, g3', g4', _⟩ := refine_run he cs hR' hcs
  refine ⟨o, s', os, os', s1, s1', h1, g1, g1', ?_⟩
  intro hok hok'
  rw [g3 hok] at g4
  rw [g3' hok'] at g4'
  exact sameAnswers g4 g4'

/-- **C06** without a side condition for futures that contain no uncontrolled `ry`. -/
theorem C06_future_without_ry (he : env.eps = 0) (hr : Reachable env s) (hs : Shows env s L ψ)
    {c : Call} (hc : c.IsLook) (hv : c.ValidOn L) {cs : List Call}
    (hcs : (⟨L, ψ, s.rng⟩ : Ideal).ValidRun cs) (hry : ∀ θ q, Call.gate (.ry θ) q ∉ cs) :
    ∃ o s' os os' s1 s1', call env c s = .ok (o, s') ∧ runCalls env cs s = .ok (os, s1) ∧
      runCalls env cs s' = .ok (os', s1') ∧ List.Forall₂ SameAnswer os os' := by
  obtain ⟨o, s', os, os', s1, s1', h1, h2, h3, h4⟩ := C06_future_partial he hr hs hc hv hcs
  exact ⟨o, s', os, os', s1, s1', h1, h2, h3, h4 (RunOk.of_no_ry hry _) (RunOk.of_no_ry hry _)⟩

/-- The full claim of **C06** is false: calling `get_state` after the half-turn changes the
measurement result from zero to one, whatever the samples are. -/
theorem C06_counterexample (he : env.eps = 0) {rng : ℕ → ℝ} (hrng : ∀ n, 0 ≤ rng n ∧ rng n < 1) :
    ∃ (before after : List Call) (os os' : List Out) (s s' s1 s1' : Sim),
      (Ideal.init rng).ValidRun (before ++ [.getState] ++ after) ∧
      runCalls env (before ++ after) (Sim.new rng) = .ok (os, s) ∧
      runCalls env (before ++ [.getState] ++ after) (Sim.new rng) = .ok (os', s') ∧
      s.measure env 0 = .ok (false, s1) ∧ s'.measure env 0 = .ok (true, s1') := by
  obtain ⟨hval, hp, os, s, s1, hrun, hm⟩ := C01_counterexample he hrng
  have hval2 : (Ideal.init rng).ValidRun [.allocate, .gate (.rx Real.pi) 0] := ⟨hval.1, hval.2.1, trivial⟩
  obtain ⟨_, os1, t1, h1, _, h3, _, hR1⟩ := refine_run he _ (refines_new hrng) hval2
  have hd := h3 (RunOk.of_no_ry (by simp) _)
  subst hd
  obtain ⟨a, t2, ha1, ha2, hw2, hq2, hrng2, hsome2, hab2, _⟩ := arrange_spec he hR1.wf
  have hget : call env .getState t1 = .ok (.state (sortState t2.state) t1.idMap.keys.length, t2) := by
    simp only [call, getState, show t1.idMap.iter.map Prod.fst = t1.idMap.keys from rfl, ha1, ha2,
      ok_bind, pure_ok]
  have hR2 : Refines t2 ((Ideal.init rng).run [.allocate, .gate (.rx Real.pi) 0]) :=
    ⟨hw2, fun q => by rw [hsome2]; exact hR1.live q, hrng2.trans hR1.rng, by rw [hab2]; exact hR1.psi, hR1.good⟩
  have hval3 : ((Ideal.init rng).run [.allocate, .gate (.rx Real.pi) 0]).ValidRun
      [.gate (.ry (Real.pi / 2)) 0, .gate .h 0] := ⟨hval.2.2.1, hval.2.2.2.1, trivial⟩
  obtain ⟨_, os2, t3, g1, _, g3, _, hR3⟩ := refine_run he _ hR2 hval3
  have hnone : ∀ q, t2.rxQ.get q = none := by
    intro q
    have := hq2.none q
    rw [hasQueued_eq] at this
    simp only [Bool.or_eq_false_iff, Option.isSome_eq_false_iff, Option.isNone_iff_eq_none] at this
    exact this.1.2
  have hd := g3 (RunOk.of_no_rx (by simp) hnone)
  subst hd
  have hfin : ((Ideal.init rng).run [.allocate, .gate (.rx Real.pi) 0]).run
      [.gate (.ry (Real.pi / 2)) 0, .gate .h 0] = (Ideal.init rng).run wrongTurn := rfl
  rw [hfin] at hR3
  have hlive : ((Ideal.init rng).run wrongTurn).live = {0} := by
    show ((Ideal.init rng).step .allocate).live = _
    rw [alloc_one]
  have hms := measure_spec he hR3.wf (id := 0) ((hR3.live 0).1 (by rw [hlive]; simp))
  obtain ⟨t4, hm4, _⟩ := hms
  rw [hR3.prob, hp] at hm4
  have hsam := hR3.good.samples 0
  rw [← hR3.rng] at hsam
  rw [decide_eq_true hsam.2] at hm4
  have hsplit : ([.allocate, .gate (.rx Real.pi) 0] ++ [.gate (.ry (Real.pi / 2)) 0, .gate .h 0] :
    List Call) = wrongTurn := rfl
  refine ⟨[.allocate, .gate (.rx Real.pi) 0], [.gate (.ry (Real.pi / 2)) 0, .gate .h 0], os,
    os1 ++ [.state (sortState t2.state) t1.idMap.keys.length] ++ os2, s, t3, s1, t4, ?_, ?_, ?_, hm, hm4⟩
  · rw [validRun_append, validRun_append]
    refine ⟨⟨hval2, trivial, trivial⟩, ?_⟩
    exact hval3
  · rw [hsplit]; exact hrun
  · rw [runCalls_append, runCalls_append]
    have hone : runCalls env [.getState] t1 =
        .ok ([.state (sortState t2.state) t1.idMap.keys.length], t2) := by
      simp only [runCalls, hget, ok_bind, pure_ok]
    simp only [h1, hone, g1, ok_bind, pure_ok]

/-- A case meeting the hypotheses: both qubits of a Bell pair. -/
example (he : env.eps = 0) : ∃ s L ψ, Reachable env s ∧ Shows env s L ψ ∧
    (Call.jointProb [0, 1]).IsLook ∧ (Call.jointProb [0, 1]).ValidOn L ∧ prob [0] true ψ = 1 / 2 := by
  obtain ⟨s, w, hr, hw, hs⟩ := bell_reachable he
  exact ⟨s, _, _, hr, hs, trivial, ⟨by simp, by simp⟩, prob_bell hw true⟩

/-! ### C15 the reported state -/

/-- **C15.** At the end of any history that avoids the wrong turn of **C01**, `get_state` returns the
number of allocated qubits and the ideal state, up to a global phase, listed in strictly increasing
order, bit `i` of an index being the value of the `i`-th smallest identifier; indices that are not
listed have amplitude zero.  `dump` prints that listing. -/
theorem C15_get_state_partial (he : env.eps = 0) {rng : ℕ → ℝ} (hrng : ∀ n, 0 ≤ rng n ∧ rng n < 1)
    {cs : List Call} (hv : (Ideal.init rng).ValidRun cs) (hok : RunOk env (Sim.new rng) cs)
    {os : List Out} (hrun : runCalls env cs (Sim.new rng) = .ok (os, s)) (fmt : ℂ → String) :
    ∃ (w : ℂ) (l : List (ℕ × ℂ)) (s' s'' : Sim), ‖w‖ = 1 ∧
      s.getState env = .ok ((l, ((Ideal.init rng).run cs).live.card), s') ∧
      s.dump env fmt = .ok (stateText fmt l, s'') ∧
      Lists (((Ideal.init rng).run cs).live.sort (· ≤ ·)) (w • ((Ideal.init rng).run cs).psi) l := by
  obtain ⟨os', s1, h1, _, w, hw, hs⟩ := C01_history_partial he hrng hv hok
  rw [hrun] at h1
  cases h1
  obtain ⟨l, s', h2, hl⟩ := hs.reported
  have hr : Reachable env s := ⟨rng, cs, os, hrng, hv, hrun⟩
  have hR := (hr.rel he hs).1
  obtain ⟨a, t2, ha1, ha2, hw2, hq2, hrng2, hsome2, hab2, _⟩ := arrange_spec he hR.wf
  have hget : s.getState env = .ok ((sortState t2.state, s.idMap.keys.length), t2) := by
    simp only [getState, show s.idMap.iter.map Prod.fst = s.idMap.keys from rfl, ha1, ha2,
      ok_bind, pure_ok]
  have hdump : s.dump env fmt = .ok (dumpText fmt (sortState t2.state),
      { t2 with state := sortState t2.state }) := by
    simp only [dump, show s.idMap.iter.map Prod.fst = s.idMap.keys from rfl, ha1, ha2,
      ok_bind, pure_ok]
  rw [hget] at h2
  simp only [Except.ok.injEq, Prod.mk.injEq] at h2
  obtain ⟨⟨rfl, h2'⟩, rfl⟩ := h2
  exact ⟨w, _, _, _, hw, by rw [hget, h2'], by rw [hdump, dumpText_eq], hl⟩

/-- **C15** in every reachable state, relative to the other observations: the amplitudes `get_state`
lists give the probabilities `joint_probability` returns. -/
theorem C15_consistent (he : env.eps = 0) (hr : Reachable env s) {l : List (ℕ × ℂ)} {n : ℕ} {s' : Sim}
    (hg : s.getState env = .ok ((l, n), s')) :
    ∃ L ψ, Shows env s L ψ ∧ n = L.card ∧ Lists (L.sort (· ≤ ·)) ψ l ∧
      ∀ qs, qs.Nodup → (∀ q ∈ qs, q ∈ L) → ∃ s'', s.jointProbability env qs = .ok (prob qs true ψ, s'') := by
  obtain ⟨L, ψ, hs⟩ := hr.shows he
  obtain ⟨l', s1, h1, hl⟩ := hs.reported
  rw [hg] at h1
  cases h1
  refine ⟨L, ψ, hs, rfl, hl, fun qs hn hq => ?_⟩
  obtain ⟨_, _, d, o, s', w, h1, h2, h3, _⟩ := hr.step he hs (c := .jointProb qs) ⟨hn, hq⟩
  cases h2
  have h3' : o = .real _ := h3
  subst h3'
  exact ⟨s', call_jointProb h1⟩

/-! ### C18 exponentials of Pauli strings -/

/-- **C18.** `mcexp` multiplies the subspace in which all controls are one by
`cos θ + i sin θ P`, `P` being the given Pauli string on the targets, and leaves the rest alone. -/
theorem C18_mcexp (he : env.eps = 0) (hr : Reachable env s) (hs : Shows env s L ψ) (cs : List ℕ)
    (ps : List Pauli) (θ : ℝ) (ts : List ℕ) (hn : (cs ++ ts).Nodup) (hL : ∀ i ∈ cs ++ ts, i ∈ L)
    (hlen : ps.length ≤ ts.length) :
    ∃ (s' : Sim) (w : ℂ), s.mcexp env cs (ps.map pauliArg) θ ts = .ok s' ∧ ‖w‖ = 1 ∧
      Shows env s' L (w • fun b => if ∀ c ∈ cs, b c = true then
        Real.cos θ * ψ b + Complex.I * Real.sin θ * pauliString (ps.zip ts) ψ b else ψ b) ∧
      Reachable env s' := by
  obtain ⟨s', w, h1, h2, h3, _, h5⟩ := C01_gate_partial he hr hs (c := .exp cs ps θ ts) trivial
    ⟨hn, hL, hlen⟩ trivial
  exact ⟨s', w, quiet_inv h1, h2, h3, h5⟩

/-- **C18** without controls: `exp` multiplies the whole state by `cos θ + i sin θ P`. -/
theorem C18_exp (he : env.eps = 0) (hr : Reachable env s) (hs : Shows env s L ψ) (ps : List Pauli) (θ : ℝ)
    (ts : List ℕ) (hn : ts.Nodup) (hL : ∀ i ∈ ts, i ∈ L) (hlen : ps.length ≤ ts.length) :
    ∃ (s' : Sim) (w : ℂ), s.exp env (ps.map pauliArg) θ ts = .ok s' ∧ ‖w‖ = 1 ∧
      Shows env s' L (w • fun b => Real.cos θ * ψ b + Complex.I * Real.sin θ * pauliString (ps.zip ts) ψ b) ∧
      Reachable env s' := by
  obtain ⟨s', w, h1, h2, h3, h4⟩ := C18_mcexp he hr hs [] ps θ ts hn hL hlen
  exact ⟨s', w, h1, h2, by simpa using h3, h4⟩

/-- **C18**, the special branches: for no angle and no tolerance below one half does one of the two
coefficients vanish, so that the pure Pauli-Z case always takes its general branch. -/
theorem C18_no_special_branch (heps : env.eps < 1 / 2) (ctls : List ℕ) (yz : ℕ) (θ : ℝ)
    (st : List (ℕ × ℂ)) :
    expDiag env.eps ctls yz ⟨Real.cos θ, 0⟩ ⟨0, Real.sin θ⟩ st = st.map (fun e =>
      if ctls.all (fun c => e.1.testBit c) then
        (e.1, e.2 * (if oddParity e.1 yz = false then Complex.exp (Complex.I * θ)
          else Complex.exp (-(Complex.I * θ)))) else e) := by
  have hsc := Real.sin_sq_add_cos_sq θ
  have hz : ∀ x y : ℝ, y ^ 2 + x ^ 2 = 1 → ¬ NearlyZero env.eps ⟨x, y⟩ := by
    rintro x y h ⟨h1, h2⟩
    unfold NearlyZeroR at h1 h2
    simp only at h1 h2
    have hx : |x| ≤ env.eps := by
      rcases le_total 0 x with h0 | h0
      · simp only [max_eq_left h0, min_eq_left h0, sub_zero] at h1
        rwa [abs_of_nonneg h0]
      · simp only [max_eq_right h0, min_eq_right h0] at h1
        rw [abs_of_nonpos h0]; linarith
    have hy : |y| ≤ env.eps := by
      rcases le_total 0 y with h0 | h0
      · simp only [max_eq_left h0, min_eq_left h0, sub_zero] at h2
        rwa [abs_of_nonneg h0]
      · simp only [max_eq_right h0, min_eq_right h0] at h2
        rw [abs_of_nonpos h0]; linarith
    have h1' : x ^ 2 ≤ 1 / 4 := by
      rw [← sq_abs]; nlinarith [abs_nonneg x]
    have h2' : y ^ 2 ≤ 1 / 4 := by
      rw [← sq_abs]; nlinarith [abs_nonneg y]
    linarith
  have e1 : (⟨0, Real.sin θ⟩ + ⟨Real.cos θ, 0⟩ : ℂ) = ⟨Real.cos θ, Real.sin θ⟩ := by
    apply Complex.ext <;> simp
  have e2 : (2 * ⟨Real.cos θ, 0⟩ - ⟨Real.cos θ, Real.sin θ⟩ : ℂ) = ⟨Real.cos θ, -Real.sin θ⟩ := by
    apply Complex.ext <;> simp
    ring
  have x1 : (⟨Real.cos θ, Real.sin θ⟩ : ℂ) = Complex.exp (Complex.I * θ) := by
    rw [mul_comm, Complex.exp_mul_I]
    apply Complex.ext <;> simp [← Complex.ofReal_cos, ← Complex.ofReal_sin]
  have x2 : (⟨Real.cos θ, -Real.sin θ⟩ : ℂ) = Complex.exp (-(Complex.I * θ)) := by
    rw [show -(Complex.I * (θ : ℂ)) = ((-θ : ℝ) : ℂ) * Complex.I by push_cast; ring, Complex.exp_mul_I]
    apply Complex.ext <;> simp [← Complex.ofReal_cos, ← Complex.ofReal_sin]
  unfold expDiag
  simp only [e1, e2]
  rw [if_neg (hz _ _ hsc), if_neg (hz _ _ (by rw [neg_sq]; exact hsc)), x1, x2]

/-! ### C10 release of an identifier that is not allocated

Full claim (false, see `C10_counterexample`): the theorem without the hypothesis on the number of
qubits.  What is missing: with exactly one allocated qubit, `release` never looks at its argument. -/

/-- **C10.** Unless exactly one qubit is allocated, releasing an identifier that is not allocated
panics, in any state and with any tolerance. -/
theorem C10_release_unknown_partial {q : ℕ} (hq : s.idMap.get q = none)
    (hn : s.idMap.iter.length ≠ 1) : ∃ p, s.release env q = .error p := by
  cases h : s.release env q with
  | error p => exact ⟨p, rfl⟩
  | ok s' =>
    have := ((mild_release h).2 hn).2
    rw [hq] at this
    cases this

/-- A state with two qubits; 5 is not allocated. -/
example (he : env.eps = 0) : ∃ s, Reachable env s ∧ s.idMap.get 5 = none ∧ s.idMap.iter.length ≠ 1 := by
  obtain ⟨s, w, hr, hw, hs⟩ := bell_reachable he
  have hR := (hr.rel he hs).1
  refine ⟨s, hr, ?_, ?_⟩
  · have := (not_congr (hs.ids 5)).1 (by simp)
    simpa using this
  · have := congrArg List.length hR.keys
    unfold IMap.keys Ideal.ids at this
    rw [List.length_map, Finset.length_sort] at this
    rw [this]
    simp

/-- The full claim of **C10** is false: with one qubit, in state one, releasing the identifier 7,
which was never allocated, succeeds and silently sets that qubit to zero. -/
theorem C10_counterexample (he : env.eps = 0) {rng : ℕ → ℝ} (hrng : ∀ n, 0 ≤ rng n ∧ rng n < 1) :
    ∃ (os : List Out) (s s' : Sim) (w : ℂ),
      runCalls env [.allocate, .gate .x 0] (Sim.new rng) = .ok (os, s) ∧
      ‖w‖ = 1 ∧ Shows env s {0} (w • ket (Function.update zeroBasis 0 true)) ∧
      s.idMap.get 7 = none ∧ s.release env 7 = .ok s' ∧ Shows env s' {0} (ket zeroBasis) := by
  have hval : (Ideal.init rng).ValidRun [.allocate, .gate .x 0] := by
    refine ⟨trivial, ?_, trivial⟩
    show (0 : ℕ) ∈ ((Ideal.init rng).step .allocate).live
    rw [alloc_one]; simp
  obtain ⟨os, s, h1, _, w, hw, hs⟩ := C01_history_partial he hrng hval (RunOk.of_no_ry (by simp) _)
  have hrun : (Ideal.init rng).run [.allocate, .gate .x 0] =
      ⟨{0}, ket (Function.update zeroBasis 0 true), rng⟩ := by
    unfold Ideal.run
    simp only [List.foldl_cons, List.foldl_nil, alloc_one]
    show Ideal.mk {0} (Spec.ctrl [] matX 0 (ket zeroBasis)) rng = _
    rw [ctrl_ket (by simp), if_pos (by simp)]
    simp [matX, mat, zeroBasis]
  rw [hrun] at hs
  dsimp only at hs
  have hr : Reachable env s := ⟨rng, _, os, hrng, hval, h1⟩
  have hR := (hr.rel he hs).1
  have hlen : s.idMap.iter.length = 1 := by
    have := congrArg List.length hR.keys
    unfold IMap.keys Ideal.ids at this
    rw [List.length_map, Finset.length_sort] at this
    simpa using this
  have h7 : s.idMap.get 7 = none := by
    have := (not_congr (hs.ids 7)).1 (by simp)
    simpa using this
  have hrel : s.release env 7 = .ok { s with
      opQ := []
      hFlag := 0
      rxQ := IMap.empty
      ryQ := IMap.empty
      state := [(0, 1)]
      idMap := s.idMap.remove 7 } := by
    unfold release releaseState
    rw [if_pos hlen]
    rfl
  refine ⟨os, s, _, w, h1, hw, hs, h7, hrel, ?_⟩
  have hid : ∀ i, (s.idMap.remove 7).get i = s.idMap.get i := by
    intro i
    rw [IMap.get_remove]
    split
    · rename_i h; rw [h, h7]
    · rfl
  have habs : abs { s with
      opQ := []
      hFlag := 0
      rxQ := IMap.empty
      ryQ := IMap.empty
      state := [(0, 1)]
      idMap := s.idMap.remove 7 } = ket zeroBasis := by
    rw [Quiet.abs ⟨rfl, fun q => by rw [hasQueued_eq]; simp⟩]
    simp only [view_cons, view_nil, add_zero, entryWave, one_smul]
    congr 1
    funext j
    simp [idBits, zeroBasis]
    split <;> rfl
  have hR2 : Refines { s with
      opQ := []
      hFlag := 0
      rxQ := IMap.empty
      ryQ := IMap.empty
      state := [(0, 1)]
      idMap := s.idMap.remove 7 } ⟨{0}, ket zeroBasis, s.rng⟩ := by
    refine ⟨⟨⟨⟨?_, by simp, by simp [BitsIn]⟩, by simp⟩, ?_⟩, ?_, rfl, ⟨1, by simp, ?_⟩,
      ⟨(good_init (rng := s.rng) hR.good.samples).fin, normSq_ket _, confined_ket_zero _, hR.good.samples⟩⟩
    · intro i j l hi hj
      simp only [hid] at hi hj
      exact hR.wf.b.core.inj i j l hi hj
    · intro q hq
      rw [hasQueued_eq] at hq
      simp at hq
    · intro q
      simp only [hid]
      exact hR.live q
    · rw [one_smul, habs]
  have := hR2.shows he
  rw [habs] at this
  exact this

end Qir
