import Verif.Proof.Operands
import Verif.Props.Simulator
import Verif.Props.Circuit

/-!
# Invalid operands, released identifiers, and the length of the queue

Every theorem here but the counterexamples is about arbitrary states and histories, valid or not,
and any tolerance.
-/

noncomputable section
namespace Qir
open Spec Sim

variable {env : Env} {s : Sim}

/-! ### C21 the queue is bounded -/

/-- **C21.** However the simulator is used, as long as it has not panicked it holds at most 10000
queued operations. -/
theorem C21_queue_bounded (env : Env) (rng : ℕ → ℝ) (cs : List Call) {os : List Out} {s : Sim}
    (h : runCalls env cs (Sim.new rng) = .ok (os, s)) : s.opQ.length ≤ 10000 := by
  have key : ∀ (cs : List Call) (s : Sim) {os : List Out} {s' : Sim}, s.opQ.length ≤ QUEUE_LIMIT →
      runCalls env cs s = .ok (os, s') → s'.opQ.length ≤ QUEUE_LIMIT := by
    intro cs
    induction cs with
    | nil => intro s os s' hs h; cases h; exact hs
    | cons c cs ih =>
      intro s os s' hs h
      obtain ⟨o, s1, os', h1, h2, _⟩ := run_cons h
      exact ih s1 (call_bound h1 hs) h2
  exact key cs _ (by simp [Sim.new]) h

/-- The bound is attained: 10000 requests for X queue 10000 operations. -/
theorem C21_attained (env : Env) (rng : ℕ → ℝ) : ∃ os s,
    runCalls env (.allocate :: List.replicate 10000 (.gate .x 0)) (Sim.new rng) = .ok (os, s) ∧
    s.opQ.length = 10000 := by
  have key : ∀ (n : ℕ) (s : Sim), s.opQ.length + n ≤ 10000 → s.hFlag = 0 →
      ∃ os s', runCalls env (List.replicate n (.gate .x 0)) s = .ok (os, s') ∧
        s'.opQ.length = s.opQ.length + n := by
    intro n
    induction n with
    | zero => intro s _ _; exact ⟨[], s, rfl, rfl⟩
    | succ n ih =>
      intro s hs hf
      have h1 : call env (.gate .x 0) s = .ok (.none, { s with
          ryQ := s.ryQ.modify 0 (fun a => a * (-1))
          opQ := s.opQ ++ [([], 0, .X)] }) := by
        show quiet (s.x 0) = _
        unfold x enqueueOp
        simp only [hf, Nat.zero_testBit, Bool.false_eq_true, if_false]
        rw [if_neg (by unfold QUEUE_LIMIT; omega)]
        rfl
      obtain ⟨os, s', h2, h3⟩ := ih { s with
          ryQ := s.ryQ.modify 0 (fun a => a * (-1))
          opQ := s.opQ ++ [([], 0, .X)] } (by simp; omega) hf
      refine ⟨.none :: os, s', ?_, ?_⟩
      · rw [List.replicate_succ]
        exact runCalls_cons h1 h2
      · rw [h3]; simp; omega
  obtain ⟨os, s', h1, h2⟩ := key 10000 (Sim.new rng).allocate.2 (by simp [allocate, Sim.new]) rfl
  exact ⟨_, s', runCalls_cons (c := .allocate) rfl h1, by rw [h2]; simp [allocate, Sim.new]⟩

/-! ### C16 invalid operands

Full claim (false, see `C16_counterexample_allocate` and `C16_counterexample_release`): the theorems
without the hypotheses on `more`.  What is missing: a later allocation can make an unallocated
operand valid before the queue is applied; releasing the only qubit discards the queue. -/

/-- The operands of a gate are not all different, or one of them is not allocated. -/
def BadOperands (s : Sim) (qs : List ℕ) : Prop := ¬ qs.Nodup ∨ ∃ q ∈ qs, s.idMap.get q = none

theorem opOk_not_bad {cs : List ℕ} {t : ℕ} {o : OpCode} (h : OpOk s.idMap (cs, t, o)) :
    ¬ BadOperands s (cs ++ [t]) := by
  rintro (hb | ⟨q, hq, hb⟩)
  · exact hb h.1
  · have := h.2 q hq
    rw [hb] at this
    cases this

/-- **C16.** A controlled gate with invalid operands is never carried out: either the call panics,
or every further history, without allocation and without release of the only qubit, panics no later
than at its first observation.  Controlled rotations about X and Y by a multiple of a full turn are
excepted: their operands are not looked at. -/
theorem C16_controlled_partial {g : Gate} {cs : List ℕ} {q : ℕ} (hb : BadOperands s (cs ++ [q]))
    (hg : ∀ θ, g = .rx θ ∨ g = .ry θ → env.eps < |Real.sin (θ / 2)|) {more : List Call}
    (ha : .allocate ∉ more) (hr : s.idMap.iter.length ≠ 1 ∨ ∀ q, .release q ∉ more)
    (hm : ∃ c ∈ more, c.Observes) : ∃ p, runCalls env (.ctrl g cs q :: more) s = .error p := by
  cases h : runCalls env (.ctrl g cs q :: more) s with
  | error p => exact ⟨p, rfl⟩
  | ok r =>
    obtain ⟨os, s'⟩ := r
    obtain ⟨o, s1, os', h1, h2, _⟩ := run_cons h
    have hk := keep_ctrlCall (quiet_inv h1)
    have hsin : ∀ θ : ℝ, max (Real.sin (θ / -2)) 0 - min 0 (Real.sin (θ / -2)) = |Real.sin (θ / 2)| := by
      intro θ
      rw [show θ / -2 = -(θ / 2) by ring, Real.sin_neg, ← abs_neg (Real.sin (θ / 2))]
      rcases le_total 0 (-Real.sin (θ / 2)) with h | h
      · rw [max_eq_left h, min_eq_left h, abs_of_nonneg h, sub_zero]
      · rw [max_eq_right h, min_eq_right h, abs_of_nonpos h, zero_sub]
    rcases ctrlCall_bad (quiet_inv h1) with h3 | h3 | h3
    · exact absurd hb (opOk_not_bad h3)
    · exfalso
      obtain ⟨c, hc, ho⟩ := hm
      have := run_bad h3 ha (by rw [hk.ids]; exact hr) h2 c hc
      cases c <;> first | exact ho | exact this
    · exfalso
      cases g <;> try exact h3
      · rename_i θ
        have h4 := h3.2
        unfold NearlyZeroR rotM01 at h4
        simp only [Bool.false_eq_true, if_false, mul_one] at h4
        rw [hsin] at h4
        exact absurd h4 (not_le.2 (hg θ (.inl rfl)))
      · rename_i θ
        have h4 := h3.1
        unfold NearlyZeroR rotM01 at h4
        simp only [if_true, Complex.mul_re, Complex.neg_re, Complex.I_re, Complex.neg_im, Complex.I_im,
          neg_zero, zero_mul, zero_sub, mul_neg, mul_one, neg_neg] at h4
        rw [hsin] at h4
        exact absurd h4 (not_le.2 (hg θ (.inr rfl)))

/-- **C16**, the gates that are carried out at once: a controlled Hadamard, phase or exponential with
invalid operands panics. -/
theorem C16_immediate {cs : List ℕ} {q : ℕ} (hb : BadOperands s (cs ++ [q])) (φ : ℂ) :
    (∃ p, s.mch env cs q = .error p) ∧ ∃ p, s.mcphase env cs φ q = .error p := by
  constructor
  · cases h : s.mch env cs q with
    | error p => exact ⟨p, rfl⟩
    | ok s' => exact absurd hb (opOk_not_bad (keep_mch h).2.1)
  · cases h : s.mcphase env cs φ q with
    | error p => exact ⟨p, rfl⟩
    | ok s' => exact absurd hb (opOk_not_bad (keep_mcphase h).2.1)

/-- What `allocate` does to the identifiers of a new simulator. -/
theorem allocate_new (rng : ℕ → ℝ) : (Sim.new rng).allocate = (0, { Sim.new rng with
    idMap := IMap.empty.insert 0 0 }) := by
  simp [allocate, Sim.new, IMap.empty, IMap.iter, IMap.iterFrom, IMap.values, firstFree]

/-- A CNOT with nothing pending just goes into the queue. -/
theorem ctrl_x_quiet {c q : ℕ} (h1 : s.hFlag = 0) (h2 : ∀ i, s.ryQ.get i = none) (h3 : ∀ i, s.rxQ.get i = none)
    (h4 : s.opQ = []) :
    call env (.ctrl .x [c] q) s = .ok (.none, { s with opQ := [([c], q, .X)] }) := by
  show quiet (s.mcx env [c] q) = _
  have e1 : ∀ i, s.ryQ.containsKey i = false := fun i => by rw [IMap.containsKey_eq, h2]; rfl
  have e2 : ∀ i, s.rxQ.containsKey i = false := fun i => by rw [IMap.containsKey_eq, h3]; rfl
  simp [mcx, flushIf, mcxFlushCtls, e1, e2, h1, h4, enqueueOp, QUEUE_LIMIT, quiet, ok_bind, pure_ok]

/-- A case meeting the hypotheses: controlled X of a qubit by itself is accepted at first. -/
example (rng : ℕ → ℝ) : BadOperands (Sim.new rng).allocate.2 ([0] ++ [0]) ∧
    ∃ o s, call env (.ctrl .x [0] 0) (Sim.new rng).allocate.2 = .ok (o, s) :=
  ⟨.inl (by simp), .none, _, ctrl_x_quiet rfl (by simp [allocate, Sim.new]) (by simp [allocate, Sim.new]) rfl⟩

/-- The full claim of **C16** is false: CNOT controlled by a qubit that is not allocated is carried
out without complaint if that qubit is allocated before the next measurement. -/
theorem C16_counterexample_allocate (he : env.eps = 0) {rng : ℕ → ℝ} (hrng : ∀ n, 0 ≤ rng n ∧ rng n < 1) :
    ∃ (o o' o'' : Out) (s s' s'' : Sim), call env .allocate (Sim.new rng) = .ok (o, s) ∧
      BadOperands s ([1] ++ [0]) ∧ call env (.ctrl .x [1] 0) s = .ok (o', s') ∧
      call env .allocate s' = .ok (o'', s'') ∧ ∃ b s3, s''.measure env 0 = .ok (b, s3) := by
  have hval : (Ideal.init rng).ValidRun [.allocate, .allocate, .ctrl .x [1] 0] := by
    refine ⟨trivial, trivial, ?_, trivial⟩
    show (Call.ctrl .x [1] 0).ValidOn (((Ideal.init rng).step .allocate).step .allocate).live
    rw [bell_live]
    exact ⟨by simp, by simp⟩
  obtain ⟨os, s, h1, _, w, hw, hs⟩ := C01_history_partial he hrng hval (RunOk.of_no_ry (by simp) _)
  have hr : Reachable env s := ⟨rng, _, os, hrng, hval, h1⟩
  have hl : ((Ideal.init rng).run [.allocate, .allocate, .ctrl .x [1] 0]).live = {0, 1} := by
    show (((Ideal.init rng).step .allocate).step .allocate).live = _
    rw [bell_live]
  obtain ⟨b, s3, _, hm, _⟩ := C02_born he hr hs (q := 0) (by rw [hl]; simp)
  obtain ⟨o1, s1, _, e1, h2, _⟩ := run_cons h1
  obtain ⟨o2, s2, _, e2, h3, _⟩ := run_cons h2
  obtain ⟨o3, s3', _, e3, h4, _⟩ := run_cons h3
  cases h4
  cases e1
  cases e2
  have hc := ctrl_x_quiet (env := env) (s := (Sim.new rng).allocate.2.allocate.2) (c := 1) (q := 0) rfl
    (by simp [allocate, Sim.new]) (by simp [allocate, Sim.new]) rfl
  rw [hc] at e3
  cases e3
  have hc1 := ctrl_x_quiet (env := env) (s := (Sim.new rng).allocate.2) (c := 1) (q := 0) rfl
    (by simp [allocate, Sim.new]) (by simp [allocate, Sim.new]) rfl
  refine ⟨_, _, _, _, _, _, rfl, .inr ⟨1, by simp, ?_⟩, hc1, rfl, b, s3, hm⟩
  rw [allocate_new]
  simp [IMap.get_insert]

/-- Releasing the only qubit forgets all queues. -/
theorem release_only {q : ℕ} (h : s.idMap.iter.length = 1) : call env (.release q) s = .ok (.none, { s with
    opQ := []
    hFlag := 0
    rxQ := IMap.empty
    ryQ := IMap.empty
    state := [(0, 1)]
    idMap := s.idMap.remove q }) := by
  show quiet (s.release env q) = _
  unfold release releaseState
  rw [if_pos h]
  rfl

theorem allocate_new_length (rng : ℕ → ℝ) : (Sim.new rng).allocate.2.idMap.iter.length = 1 := by
  rw [allocate_new]
  rfl

/-- After allocating and releasing a qubit, the next qubit is again zero. -/
theorem again_zero (he : env.eps = 0) {rng : ℕ → ℝ} (hrng : ∀ n, 0 ≤ rng n ∧ rng n < 1) :
    ∃ (s2 : Sim) (w : ℂ), call env (.release 0) (Sim.new rng).allocate.2 = .ok (.none, s2) ∧
      Reachable env s2.allocate.2 ∧ ‖w‖ = 1 ∧ Shows env s2.allocate.2 {0} (w • ket zeroBasis) := by
  have hrun : (Ideal.init rng).run [.allocate, .release 0, .allocate] = ⟨{0}, ket zeroBasis, rng⟩ := by
    unfold Ideal.run
    simp only [List.foldl_cons, List.foldl_nil, alloc_one]
    have : Ideal.step ⟨{0}, ket zeroBasis, rng⟩ (.release 0) = Ideal.init rng := by
      simp [Ideal.step, Ideal.init]
    rw [this, alloc_one]
  have hval : (Ideal.init rng).ValidRun [.allocate, .release 0, .allocate] := by
    refine ⟨trivial, ?_, trivial, trivial⟩
    show (0 : ℕ) ∈ ((Ideal.init rng).step .allocate).live
    rw [alloc_one]; simp
  obtain ⟨os, s, h1, _, w, hw, hs⟩ := C01_history_partial he hrng hval (RunOk.of_no_ry (by simp) _)
  rw [hrun] at hs
  dsimp only at hs
  have hr : Reachable env s := ⟨rng, _, os, hrng, hval, h1⟩
  obtain ⟨o1, s1, _, e1, h2, _⟩ := run_cons h1
  obtain ⟨o2, s2, _, e2, h3, _⟩ := run_cons h2
  obtain ⟨o3, s3, _, e3, h4, _⟩ := run_cons h3
  cases h4
  cases e1
  cases e3
  have := release_only (env := env) (q := 0) (allocate_new_length rng)
  rw [this] at e2
  cases e2
  exact ⟨_, w, this, hr, hw, hs⟩

/-- The full claim of **C16** is false also in this way: if the only qubit is released, a gate with
duplicate operands is forgotten, and later measurements succeed. -/
theorem C16_counterexample_release (he : env.eps = 0) {rng : ℕ → ℝ} (hrng : ∀ n, 0 ≤ rng n ∧ rng n < 1) :
    ∃ (os : List Out) (b : Bool) (s : Sim), BadOperands (Sim.new rng).allocate.2 ([0] ++ [0]) ∧
      runCalls env [.allocate, .ctrl .x [0] 0, .release 0, .allocate, .measure 0] (Sim.new rng) =
        .ok (os ++ [.bit b], s) := by
  obtain ⟨s2, w, h1, h2, h3, h4⟩ := again_zero he hrng
  obtain ⟨b, s3, _, hm, _⟩ := C02_born he h2 h4 (q := 0) (by simp)
  rw [release_only (allocate_new_length rng)] at h1
  cases h1
  have hc1 := ctrl_x_quiet (env := env) (s := (Sim.new rng).allocate.2) (c := 0) (q := 0) rfl
    (by simp [allocate, Sim.new]) (by simp [allocate, Sim.new]) rfl
  have hm' := call_of_measure hm
  have r := runCalls_cons (c := .allocate) rfl (runCalls_cons hc1 (runCalls_cons
    (release_only (q := 0) (allocate_new_length rng)) (runCalls_cons (c := .allocate) rfl
    (runCalls_cons hm' (cs := []) rfl))))
  exact ⟨[_, _, _, _], b, s3, .inl (by simp), r⟩

/-! ### C17 released identifiers

Full claim (false, see `C17_counterexample`): the same for every gate and every further history.
What is missing: `h`, `rx` and `ry` only set a flag for the identifier, which a later allocation
under the same identifier inherits. -/

/-- **C17.** Any gate but `h`, `rx` and `ry` on an identifier that is not allocated panics, at once or
no later than at the next observation, as long as nothing is allocated in between. -/
theorem C17_unallocated_partial {g : Gate} {q : ℕ} (hq : s.idMap.get q = none)
    (hg : g ≠ .h ∧ (∀ θ, g ≠ .rx θ) ∧ ∀ θ, g ≠ .ry θ) {more : List Call}
    (ha : .allocate ∉ more) (hr : s.idMap.iter.length ≠ 1 ∨ ∀ q, .release q ∉ more)
    (hm : ∃ c ∈ more, c.Observes) : ∃ p, runCalls env (.gate g q :: more) s = .error p := by
  cases h : runCalls env (.gate g q :: more) s with
  | error p => exact ⟨p, rfl⟩
  | ok r =>
    obtain ⟨os, s'⟩ := r
    obtain ⟨o, s1, os', h1, h2, _⟩ := run_cons h
    have hk := keep_gateCall hg.2.1 (quiet_inv h1)
    rcases gateCall_bad hg (quiet_inv h1) with h3 | h3
    · exact absurd (.inr ⟨q, by simp, hq⟩) (opOk_not_bad h3)
    · exfalso
      obtain ⟨c, hc, ho⟩ := hm
      have := run_bad h3 ha (by rw [hk.ids]; exact hr) h2 c hc
      cases c <;> first | exact ho | exact this

/-- **C17**, observations: measuring, asking for a probability or collapsing an identifier that is
not allocated panics, whatever was requested before. -/
theorem C17_observation {q : ℕ} (hq : s.idMap.get q = none) (v : Bool) :
    (∃ p, s.measure env q = .error p) ∧ (∃ p, s.forceCollapse env v q = .error p) ∧
    (∃ p, s.qubitIsZero env q = .error p) ∧
    ∀ qs, q ∈ qs → (∃ p, s.jointProbability env qs = .error p) ∧ ∃ p, s.jointMeasure env qs = .error p := by
  have hn : ∀ {r : ℕ}, s.idMap.get q = some r → False := by
    intro r h; rw [hq] at h; cases h
  have hjp : ∀ qs, q ∈ qs → ∃ p, s.jointProbability env qs = .error p := by
    intro qs hqs
    cases h : s.jointProbability env qs with
    | error p => exact ⟨p, rfl⟩
    | ok r =>
      unfold jointProbability at h
      obtain ⟨s1, h1, h⟩ := bind_ok h
      obtain ⟨_, h2, h⟩ := bind_ok h
      obtain ⟨locs, h3, h⟩ := bind_ok h
      have := resolveIds_inv h3 q hqs
      rw [(keep_maybeFlush h1).ids, hq] at this
      cases this
  refine ⟨?_, ?_, ?_, fun qs hqs => ⟨hjp qs hqs, ?_⟩⟩
  · cases h : s.measure env q with
    | error p => exact ⟨p, rfl⟩
    | ok r =>
      have := (mild_measure (s' := r.2) (b := r.1) h).2.2.2
      rw [hq] at this
      cases this
  · cases h : s.forceCollapse env v q with
    | error p => exact ⟨p, rfl⟩
    | ok r =>
      unfold forceCollapse at h
      obtain ⟨s1, h1, h⟩ := bind_ok h
      obtain ⟨loc, h2, h⟩ := bind_ok h
      have := resolveId_ok h2
      rw [(keep_maybeFlush h1).ids] at this
      exact (hn this).elim
  · obtain ⟨p, hp⟩ := hjp [q] (by simp)
    exact ⟨p, by unfold qubitIsZero; rw [hp]; rfl⟩
  · cases h : s.jointMeasure env qs with
    | error p => exact ⟨p, rfl⟩
    | ok r =>
      unfold jointMeasure at h
      obtain ⟨s1, h1, h⟩ := bind_ok h
      obtain ⟨_, h2, h⟩ := bind_ok h
      obtain ⟨locs, h3, h⟩ := bind_ok h
      have := resolveIds_inv h3 q hqs
      rw [(keep_maybeFlush h1).ids, hq] at this
      cases this

/-- A case meeting the hypotheses: qubit 5 was never allocated. -/
example (rng : ℕ → ℝ) : (Sim.new rng).allocate.2.idMap.get 5 = none ∧
    (Gate.x ≠ .h ∧ (∀ θ, Gate.x ≠ .rx θ) ∧ ∀ θ, Gate.x ≠ .ry θ) := by
  refine ⟨?_, by simp, by simp, by simp⟩
  rw [allocate_new]
  simp [IMap.get_insert]

theorem prob_two (a b : ℂ) : prob [0] true (a • ket zeroBasis +
    b • ket (Function.update zeroBasis 0 true)) = Complex.normSq b := by
  have hne : Function.update zeroBasis 0 true ≠ zeroBasis := by
    intro h
    have := congrFun h 0
    simp [zeroBasis] at this
  unfold prob
  rw [finsum_eq_single _ (Function.update zeroBasis 0 true)]
  · simp [parity, ket, hne]
  · intro c hc
    by_cases h0 : c = zeroBasis
    · subst h0; simp [parity, zeroBasis]
    · simp [ket, h0, hc]

/-- The full claim of **C17** is false: a Hadamard gate requested after `release` of qubit 0 acts on
the next qubit allocated under the identifier 0, which is then one with probability one half. -/
theorem C17_counterexample (he : env.eps = 0) {rng : ℕ → ℝ} (hrng : ∀ n, 0 ≤ rng n ∧ rng n < 1) :
    ∃ (os : List Out) (s s' : Sim),
      runCalls env [.allocate, .release 0, .gate .h 0, .allocate] (Sim.new rng) = .ok (os, s) ∧
      s.jointProbability env [0] = .ok (1 / 2, s') := by
  obtain ⟨s2, w, h1, h2, h3, h4⟩ := again_zero he hrng
  obtain ⟨s', w', g1, g2, g3, g4⟩ := C01_gates_without_ry he h2 h4 [.gate .h 0] (by simp [Call.IsGate, Call.ValidOn]) (by simp)
  obtain ⟨_, _, d, o, s'', _, e1, e2, e3, _⟩ := g4.step he g3 (c := .jointProb [0]) ⟨by simp, by simp⟩
  cases e2
  have e3' : o = .real _ := e3
  subst e3'
  have hp := call_jointProb e1
  have hval : prob [0] true (w' • [Call.gate .h 0].foldl (fun φ c => c.op φ) (w • ket zeroBasis)) = 1 / 2 := by
    rw [prob_phase g2]
    simp only [List.foldl_cons, List.foldl_nil]
    rw [op_smul, prob_phase h3]
    show prob [0] true (Spec.ctrl [] matH 0 (ket zeroBasis)) = _
    rw [ctrl_ket (by simp), if_pos (by simp)]
    have : Function.update zeroBasis 0 false = zeroBasis := Function.update_eq_self_iff.2 rfl
    rw [this, prob_two]
    simp [matH, mat, zeroBasis, Complex.normSq_apply]
  have hrel := release_only (env := env) (q := 0) (allocate_new_length rng)
  rw [hrel] at h1
  obtain ⟨o', s3, _, c1, c2, _⟩ := run_cons g1
  cases c2
  cases h1
  rw [hval] at hp
  have c1 := quiet_inv c1
  refine ⟨_, _, s'', runCalls_cons rfl (runCalls_cons hrel (runCalls_cons (o := .none) (s1 := { Sim.new rng with
    idMap := (Sim.new rng).allocate.2.idMap.remove 0
    ryQ := IMap.empty.modify 0 (fun a => a * (-1))
    hFlag := setBit 0 0 (!Nat.testBit 0 0) }) ?_ (runCalls_cons rfl rfl))), ?_⟩
  · simp [call, quiet, gateCall, h, flushIf, Sim.new, allocate, IMap.containsKey_eq]
  · have c2 : Sim.h env 0 (Sim.allocate { Sim.new rng with
        idMap := (Sim.new rng).allocate.2.idMap.remove 0 }).2 = .ok (Sim.allocate { Sim.new rng with
        idMap := (Sim.new rng).allocate.2.idMap.remove 0
        ryQ := IMap.empty.modify 0 (fun a => a * (-1))
        hFlag := setBit 0 0 (!Nat.testBit 0 0) }).2 := by
      simp [h, flushIf, Sim.new, allocate, IMap.containsKey_eq]
    have c3 := Except.ok.inj (c1.symm.trans c2)
    rw [← c3]
    exact hp

end Qir
