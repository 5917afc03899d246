import Verif.Proof.TolDrift

/-!
# C22: what the tolerance of the zero test can do

The code treats numbers of absolute value at most `eps` (1e-10) as zero: it drops such amplitudes,
takes rotations that close to a half-turn for Pauli gates, and drops queued rotations by such angles.
-/

noncomputable section
namespace Qir
open Spec Sim

/-- **C22** (partial).  Full statement: the distance between the represented state and the ideal
state is at most a constant times `eps` times the number of stored amplitudes visited.  That is
false, see `C22_counterexample`: queued rotations are dropped without visiting any amplitude.  Proved
instead, for every tolerance up to one half and every valid history of gates, allocations and queries
in which no rotation about Y meets a pending half-turn about X (where the code turns the wrong way
even with exact arithmetic, C01): nothing panics, and every answer is right within
`4 √2 eps √(2^n)` times the work of the history.  Here `n` is the number of qubits and the work of a
call is one more than the number of its operands. -/
theorem C22_bound_partial {env : Env} (h0 : 0 ≤ env.eps) (h1 : env.eps ≤ 1 / 2) {rng : ℕ → ℝ}
    (hr : ∀ n, 0 ≤ rng n ∧ rng n < 1) {cs : List Call} (hv : (Ideal.init rng).ValidRun cs)
    (hu : ∀ c ∈ cs, c.IsGate ∨ c.IsLook ∨ c = .allocate) (hs : Steady env (Sim.new rng) cs) :
    ∃ os s', runCalls env cs (Sim.new rng) = .ok (os, s') ∧
      (Ideal.init rng).AnswersWithin env.eps
        (4 * √2 * env.eps * √(2 ^ ((Ideal.init rng).run cs).live.card) * (Ideal.init rng).work cs) cs os := by
  obtain ⟨os, s', h2, h3, _⟩ := Tol.tracks_run ⟨h0, h1⟩ ((Ideal.init rng).run cs).live.card
    (4 * √2 * env.eps * √(2 ^ ((Ideal.init rng).run cs).live.card) * (Ideal.init rng).work cs) cs
    (Tol.tracks_new hr) hv hu hs (le_refl _) (le_of_eq (by unfold Tol.unit; push_cast; ring))
  exact ⟨os, s', h2, h3⟩

/-- A case meeting the hypotheses: the Bell pair followed by `get_state`, with the tolerance of the
code.  The reported state is within `4 √2 · 1e-10 · 2 · 10 < 1.4e-8` of the Bell state. -/
example {env : Env} (he : env.eps = 1e-10) {rng : ℕ → ℝ} (hr : ∀ n, 0 ≤ rng n ∧ rng n < 1) :
    ∃ (s' : Sim) (ψ : Wave) (l : List (ℕ × ℂ)) (w : ℂ),
      runCalls env (bellCalls ++ [.getState]) (Sim.new rng) =
        .ok ([.id 0, .id 1, .none, .none, .state l 2], s') ∧ ‖w‖ = 1 ∧ Lists [0, 1] ψ l ∧
      distance ψ (w • bellState) ≤ 1.4e-8 := by
  have hv : (Ideal.init rng).ValidRun (bellCalls ++ [.getState]) := by
    obtain ⟨h1, h2, h3, h4, _⟩ := bell_valid rng
    exact ⟨h1, h2, h3, h4, trivial, trivial⟩
  obtain ⟨os, s', h1, h2⟩ := C22_bound_partial (env := env) (by rw [he]; norm_num) (by rw [he]; norm_num) hr hv
    (by intro c hc; simp [bellCalls] at hc; rcases hc with rfl | rfl | rfl | rfl <;>
      simp [Call.IsGate, Call.IsLook])
    (Tol.steady_of_no_ry (by simp [bellCalls]) _)
  have hbell := bell_run rng
  have hlive : ((Ideal.init rng).run (bellCalls ++ [.getState])).live.card = 2 := by
    show (((Ideal.init rng).run bellCalls).step .getState).live.card = 2
    rw [hbell]; rfl
  have hwork : (Ideal.init rng).work (bellCalls ++ [.getState]) = 10 := by
    show _ + (_ + (_ + (_ + (Call.work ((Ideal.init rng).run bellCalls) .getState + 0)))) = 10
    rw [hbell]; rfl
  rw [hlive, hwork, he] at h2
  obtain ⟨o1, os1, rfl, a1, o2, os2, rfl, a2, o3, os3, rfl, a3, o4, os4, rfl, a4, o5, os5, rfl, a5, a6⟩ := h2
  cases a6
  change Ideal.AnswerWithin _ _ ((Ideal.init rng).run bellCalls) _ _ at a5
  rw [hbell] at a5
  obtain ⟨ψ, l, w, hw, hl, hd, rfl⟩ := a5
  have e1 : (Ideal.init rng).fresh = 0 := fresh_of (by simp [Ideal.init]) (by simp)
  have e2 : ((Ideal.init rng).step .allocate).fresh = 1 := by
    rw [Tol.alloc_init]; exact fresh_of (by simp) (by intro m hm; simp; omega)
  obtain rfl : o1 = .id 0 := by rw [← e1]; exact a1
  obtain rfl : o2 = .id 1 := by rw [← e2]; exact a2
  obtain rfl : o3 = .none := a3
  obtain rfl : o4 = .none := a4
  refine ⟨s', ψ, l, w, h1, hw, ?_, hd.trans ?_⟩
  · have : Ideal.ids ⟨{0, 1}, bellState, rng⟩ = [0, 1] := by
      show Finset.sort ({0, 1} : Finset ℕ) _ = _
      rw [Finset.sort_insert (a := 0) (s := {1}) (· ≤ ·) (by simp) (by simp), Finset.sort_singleton]
    rw [this] at hl; exact hl
  · have h2 : √2 ≤ 1.5 := by rw [Real.sqrt_le_iff]; norm_num
    have h4 : √((2 : ℝ) ^ 2) = 2 := Real.sqrt_sq (by norm_num)
    rw [h4]
    push_cast
    nlinarith

/-- **C22**, the full statement fails: for every constant there are a tolerance and a history of
rotations of one qubit such that after every call the stored state is still the single entry
`|0⟩: 1` that allocation left there, `get_state` visits just this one amplitude and reports it, but
the ideal state is further away than the constant times `eps` times one. -/
theorem C22_counterexample (C : ℝ) {rng : ℕ → ℝ} (shuffle : List (ℕ × ℂ) → List (ℕ × ℂ))
    (hsh : ∀ l, (shuffle l).Perm l) :
    ∃ (eps θ : ℝ) (k : ℕ), 0 < eps ∧ eps ≤ 1 / 2 ∧
      (Ideal.init rng).ValidRun (.allocate :: List.replicate k (.gate (.rx θ) 0)) ∧
      (∀ j ≤ k, ∃ os s, runCalls ⟨eps, shuffle, hsh⟩
        (.allocate :: List.replicate j (.gate (.rx θ) 0)) (Sim.new rng) = .ok (os, s) ∧
        s.state = [(0, 1)]) ∧
      ∃ os s s', runCalls ⟨eps, shuffle, hsh⟩
          (.allocate :: List.replicate k (.gate (.rx θ) 0)) (Sim.new rng) = .ok (os, s) ∧
        s.getState ⟨eps, shuffle, hsh⟩ = .ok (([(0, 1)], 1), s') ∧
        ∀ w : ℂ, ‖w‖ = 1 → C * eps * 1 < distance (ket zeroBasis) (w •
          ((Ideal.init rng).run (.allocate :: List.replicate k (.gate (.rx θ) 0))).psi) := by
  obtain ⟨k, hk⟩ := exists_nat_gt (max (C * Real.pi) 8)
  have hk1 : C * Real.pi < k := lt_of_le_of_lt (le_max_left _ _) hk
  have hk7 : (8 : ℝ) < k := lt_of_le_of_lt (le_max_right _ _) hk
  have hpos : (0 : ℝ) < k := by linarith
  have hpi := Real.pi_pos
  have heps : 0 < Real.pi / k := by positivity
  have hθ : |Real.pi / k / 2 + Real.pi / k / 2| ≤ Real.pi / k := by
    rw [add_halves, abs_of_pos heps]
  have hcall : ∀ (env : Env) cs, runCalls env (.allocate :: cs) (Sim.new rng) =
      (do let (os, s) ← runCalls env cs (Tol.oneQubit rng (Sim.new rng).rxQ)
          return (.id (Sim.new rng).allocate.1 :: os, s)) := by
    intro env cs; rfl
  refine ⟨Real.pi / k, Real.pi / k / 2, 2 * k, heps, ?_, ?_, ?_, ?_⟩
  · rw [div_le_iff₀ hpos]
    have := Real.pi_le_four
    linarith
  · refine ⟨trivial, ?_⟩
    apply Tol.valid_rx rng
    rw [Tol.alloc_init]
  · intro j _
    obtain ⟨os, r', h⟩ := Tol.run_replicate ⟨Real.pi / k, shuffle, hsh⟩ rng (Real.pi / k / 2) j (Sim.new rng).rxQ
    exact ⟨_, _, by rw [hcall, h]; rfl, rfl⟩
  · obtain ⟨os, r', h, hr'⟩ := Tol.run_pairs ⟨Real.pi / k, shuffle, hsh⟩ rng hθ k (Sim.new rng).rxQ
      (by intro q; simp [Sim.new])
    obtain ⟨s', hs'⟩ := Tol.getState_oneQubit ⟨Real.pi / k, shuffle, hsh⟩ rng hr'
    refine ⟨_, _, s', by rw [hcall, h]; rfl, hs', ?_⟩
    intro w hw
    have hrun : ((Ideal.init rng).run (.allocate :: List.replicate (2 * k)
        (.gate (.rx (Real.pi / k / 2)) 0))).psi = (-Complex.I) • ket (Function.update zeroBasis 0 true) := by
      show (((Ideal.init rng).step .allocate).run _).psi = _
      have h0 := Tol.run_rx rng (Real.pi / k / 2) (2 * k) 0
      rw [show ctrl [] (matRx 0) 0 (ket zeroBasis) = ket zeroBasis from by
        have : matRx 0 = 1 := by simpa using Rx_zero
        rw [this]; exact congrFun (congrArg DFunLike.coe (gateL_one 0)) _] at h0
      rw [Tol.alloc_init, h0]
      show ctrl [] _ 0 _ = _
      rw [← Tol.rx_pi]
      congr 2
      push_cast
      field_simp
      ring
    rw [hrun, Tol.distance_orthogonal hw, mul_one, mul_div_assoc', div_lt_iff₀ hpos]
    have h2 : (1 : ℝ) ≤ √2 := by rw [Real.one_le_sqrt]; norm_num
    nlinarith

end Qir
