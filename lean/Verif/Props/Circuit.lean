import Verif.Proof.Examples
import Verif.Proof.Walk2
import Verif.Props.Simulator

/-!
# Properties of the simulator: gates, observation, listing of the state
-/

noncomputable section
namespace Qir
open Spec Sim

variable {env : Env} {s : Sim} {L : Finset ℕ} {ψ : Wave}

/-! ### C01 gates compute the textbook unitary

Full claim (false, see `C01_counterexample`): the theorems below without `CallOk`/`RunOk`.
What is missing: an uncontrolled `ry` requested while an odd number of half-turns about X is pending
on the same qubit turns the other way (`C01_wrong_turn`). -/

theorem step_gate {c : Call} (hg : c.IsGate) (σ : Ideal) : σ.step c = { σ with psi := c.op σ.psi } := by
  cases c <;> first | rfl | exact hg.elim

theorem answer_gate {c : Call} (hg : c.IsGate) {σ : Ideal} {o : Out} (h : σ.Answer c o) : o = .none := by
  cases c <;> first | exact h | exact hg.elim

theorem op_smul (c : Call) (w : ℂ) (ψ : Wave) : c.op (w • ψ) = w • c.op ψ := by
  cases c with
  | exp cs ps θ ts =>
    funext b
    simp only [Call.op, ctrlExp, pauliString_smul, Pi.smul_apply, smul_eq_mul]
    split <;> ring
  | gate g q => exact ctrl_smul _ _ _ _ _
  | ctrl g cs q => exact ctrl_smul _ _ _ _ _
  | phase cs φ q => exact ctrl_smul _ _ _ _ _
  | swap a b => rfl
  | _ => rfl

/-- **C01**, one gate: up to a global phase the reported state is multiplied by the textbook
matrix, whatever is pending. -/
theorem C01_gate_partial (he : env.eps = 0) (hr : Reachable env s) (hs : Shows env s L ψ) {c : Call}
    (hg : c.IsGate) (hv : c.ValidOn L) (hok : CallOk s c) :
    ∃ (s' : Sim) (w : ℂ), call env c s = .ok (.none, s') ∧ ‖w‖ = 1 ∧
      Shows env s' L (w • c.op ψ) ∧ s'.rng = s.rng ∧ Reachable env s' := by
  obtain ⟨_, _, d, o, s', w, h1, h2, h3, h4, h5, h6, h7⟩ := hr.step he hs hv
  have hd := h2.eq hok
  subst hd
  have ho := answer_gate hg h3
  subst ho
  rw [step_gate hg] at h5 h7
  exact ⟨s', w, h1, h6, h7, h5, h4⟩

/-- **C01**, a gate sequence: the reported state becomes, up to one global phase, the product of the
textbook matrices applied to the state before. -/
theorem C01_gates_partial (he : env.eps = 0) (hr : Reachable env s) (hs : Shows env s L ψ)
    (cs : List Call) (hg : ∀ c ∈ cs, c.IsGate ∧ c.ValidOn L) (hok : RunOk env s cs) :
    ∃ (s' : Sim) (w : ℂ), runCalls env cs s = .ok (cs.map (fun _ => .none), s') ∧ ‖w‖ = 1 ∧
      Shows env s' L (w • cs.foldl (fun φ c => c.op φ) ψ) ∧ s'.rng = s.rng ∧ Reachable env s' := by
  induction cs generalizing s ψ with
  | nil => exact ⟨s, 1, rfl, by simp, by simpa using hs, rfl, hr⟩
  | cons c cs ih =>
    obtain ⟨hc, hv⟩ := hg c (by simp)
    obtain ⟨s1, w1, h1, h2, h3, h4, h5⟩ := C01_gate_partial he hr hs hc hv hok.1
    obtain ⟨s2, w2, g1, g2, g3, g4, g5⟩ := ih h5 h3 (fun c h => hg c (by simp [h])) (hok.2 _ _ h1)
    refine ⟨s2, w2 * w1, by simp [runCalls, h1, g1], by simp [g2, h2], ?_, g4.trans h4, g5⟩
    have hfold : ∀ (l : List Call) (w : ℂ) (φ : Wave),
        l.foldl (fun φ c => c.op φ) (w • φ) = w • l.foldl (fun φ c => c.op φ) φ := by
      intro l
      induction l with
      | nil => intros; rfl
      | cons c l ih => intro w φ; simp only [List.foldl_cons, op_smul, ih]
    rw [hfold, smul_smul] at g3
    exact g3

/-- **C01**, whole histories, from a new simulator: every answer is one the ideal quantum computer
gives to the same calls with the same random samples. -/
theorem C01_history_partial (he : env.eps = 0) {rng : ℕ → ℝ} (hrng : ∀ n, 0 ≤ rng n ∧ rng n < 1)
    {cs : List Call} (hv : (Ideal.init rng).ValidRun cs) (hok : RunOk env (Sim.new rng) cs) :
    ∃ os s', runCalls env cs (Sim.new rng) = .ok (os, s') ∧ (Ideal.init rng).Answers cs os ∧
      ∃ w : ℂ, ‖w‖ = 1 ∧
        Shows env s' ((Ideal.init rng).run cs).live (w • ((Ideal.init rng).run cs).psi) := by
  obtain ⟨ds, os, s', h1, h2, h3, h4, h5⟩ := refine_run he cs (refines_new hrng) hv
  have := h3 hok
  subst this
  obtain ⟨w, hw, ha⟩ := h5.psi
  exact ⟨os, s', h1, h4, w, hw, by rw [← ha]; exact h5.shows he⟩

open Classical in
/-- The call the code carries out when asked for `c`. -/
def carriedOut (s : Sim) : Call → Call
  | .gate (.ry θ) q => if PendingHalfTurn s q then .gate (.ry (-θ)) q else .gate (.ry θ) q
  | c => c

/-- The same along a run. -/
def executed (env : Env) : Sim → List Call → List Call
  | _, [] => []
  | s, c :: cs => carriedOut s c :: (match call env c s with
      | .ok (_, s') => executed env s' cs
      | .error _ => cs)

theorem Meant.carriedOut {c d : Call} (h : Meant s c d) : d = carriedOut s c := by
  unfold Meant at h
  split at h
  · rcases h with ⟨h1, rfl⟩ | ⟨h1, rfl⟩
    · exact (if_pos h1).symm
    · exact (if_neg h1).symm
  · rename_i hne
    subst h
    unfold Qir.carriedOut
    split
    · exact absurd rfl (hne _ _)
    · rfl

theorem refine_executed (he : env.eps = 0) (cs : List Call) :
    ∀ {s : Sim} {σ : Ideal}, Refines s σ → σ.ValidRun cs →
      ∃ os s', runCalls env cs s = .ok (os, s') ∧ σ.Answers (executed env s cs) os ∧
        Refines s' (σ.run (executed env s cs)) := by
  induction cs with
  | nil => intro s σ h _; exact ⟨[], s, rfl, rfl, h⟩
  | cons c cs ih =>
    intro s σ h hv
    obtain ⟨d, o, s1, h1, hm, ha, hr⟩ := refine_call he h hv.1
    obtain ⟨os, s2, h2, ha2, hr2⟩ := ih hr ((validRun_congr cs (twist_live_step hm.twist σ)).1 hv.2)
    have hd := hm.carriedOut
    have he' : executed env s (c :: cs) = d :: executed env s1 cs := by
      simp only [executed, h1, hd]
    rw [he']
    exact ⟨o :: os, s2, by simp only [runCalls, h1, ok_bind, h2, pure_ok], ⟨o, os, rfl, ha, ha2⟩, hr2⟩

/-- **C01**, exactly, for every valid history: no call panics, and every answer is the one the ideal
quantum computer gives to the calls `executed`, which are the calls requested except that each
uncontrolled `ry θ` that finds a half-turn about X pending on its qubit is replaced by `ry (-θ)`.  So
that replacement is the only disagreement between the code and the full claim. -/
theorem C01_exact (he : env.eps = 0) {rng : ℕ → ℝ} (hrng : ∀ n, 0 ≤ rng n ∧ rng n < 1)
    {cs : List Call} (hv : (Ideal.init rng).ValidRun cs) :
    ∃ os s', runCalls env cs (Sim.new rng) = .ok (os, s') ∧
      (Ideal.init rng).Answers (executed env (Sim.new rng) cs) os ∧
      ∃ w : ℂ, ‖w‖ = 1 ∧
        Shows env s' ((Ideal.init rng).run (executed env (Sim.new rng) cs)).live
          (w • ((Ideal.init rng).run (executed env (Sim.new rng) cs)).psi) := by
  obtain ⟨os, s', h1, h4, h5⟩ := refine_executed he cs (refines_new hrng) hv
  obtain ⟨w, hw, ha⟩ := h5.psi
  exact ⟨os, s', h1, h4, w, hw, by rw [← ha]; exact h5.shows he⟩

/-- A case where the replacement happens. -/
example (he : env.eps = 0) (rng : ℕ → ℝ) (θ : ℝ) :
    executed env (Sim.new rng) [.allocate, .gate (.rx Real.pi) 0, .gate (.ry θ) 0] =
      [.allocate, .gate (.rx Real.pi) 0, .gate (.ry (-θ)) 0] := by
  have h1 : call env (.gate (.rx Real.pi) 0) (Sim.new rng).allocate.2 = .ok (.none,
      { (Sim.new rng).allocate.2 with rxQ := addAngle env.eps (Sim.new rng).rxQ 0 Real.pi }) := by
    simp [call, quiet, gateCall, rx, allocate, Sim.new, flushIf, IMap.containsKey_eq]
  have h2 : PendingHalfTurn
      { (Sim.new rng).allocate.2 with rxQ := addAngle env.eps (Sim.new rng).rxQ 0 Real.pi } 0 := by
    refine ⟨Real.pi, ?_, by simp⟩
    rw [he, addAngle_get]
    simp [Sim.new]
  show _ :: executed env (Sim.new rng).allocate.2 _ = _
  unfold executed
  rw [h1]
  show _ :: _ :: (carriedOut _ (.gate (.ry θ) 0) :: _) = _
  rw [show carriedOut _ (.gate (.ry θ) 0) = .gate (.ry (-θ)) 0 from if_pos h2]
  rfl

/-- **C01** without any side condition for sequences that contain no uncontrolled `ry`. -/
theorem C01_gates_without_ry (he : env.eps = 0) (hr : Reachable env s) (hs : Shows env s L ψ)
    (cs : List Call) (hg : ∀ c ∈ cs, c.IsGate ∧ c.ValidOn L) (hry : ∀ θ q, Call.gate (.ry θ) q ∉ cs) :
    ∃ (s' : Sim) (w : ℂ), runCalls env cs s = .ok (cs.map (fun _ => .none), s') ∧ ‖w‖ = 1 ∧
      Shows env s' L (w • cs.foldl (fun φ c => c.op φ) ψ) ∧ Reachable env s' := by
  obtain ⟨s', w, h1, h2, h3, _, h5⟩ := C01_gates_partial he hr hs cs hg (RunOk.of_no_ry hry s)
  exact ⟨s', w, h1, h2, h3, h5⟩

theorem RunOk.of_no_rx {cs : List Call} (h : ∀ θ q, Call.gate (.rx θ) q ∉ cs) :
    ∀ {s : Sim}, (∀ q, s.rxQ.get q = none) → RunOk env s cs := by
  induction cs with
  | nil => intro s _; trivial
  | cons c cs ih =>
    intro s hs
    refine ⟨?_, ?_⟩
    · unfold CallOk
      split
      · rintro ⟨b, hb, _⟩
        rw [hs] at hb
        cases hb
      · trivial
    · intro o s' hc
      exact ih (fun θ q hm => h θ q (by simp [hm]))
        (call_rx_none (fun θ q he => h θ q (by simp [← he])) hc hs)

/-- **C01** without any side condition for histories that contain no uncontrolled `rx`. -/
theorem C01_history_without_rx (he : env.eps = 0) {rng : ℕ → ℝ} (hrng : ∀ n, 0 ≤ rng n ∧ rng n < 1)
    {cs : List Call} (hv : (Ideal.init rng).ValidRun cs) (hrx : ∀ θ q, Call.gate (.rx θ) q ∉ cs) :
    ∃ os s', runCalls env cs (Sim.new rng) = .ok (os, s') ∧ (Ideal.init rng).Answers cs os ∧
      ∃ w : ℂ, ‖w‖ = 1 ∧
        Shows env s' ((Ideal.init rng).run cs).live (w • ((Ideal.init rng).run cs).psi) :=
  C01_history_partial he hrng hv (RunOk.of_no_rx hrx (by simp [Sim.new]))

/-- Exactly what goes wrong: with a pending half-turn about X, `ry θ` acts as `ry (-θ)`. -/
theorem C01_wrong_turn (he : env.eps = 0) (hr : Reachable env s) (hs : Shows env s L ψ) {q : ℕ}
    (hq : q ∈ L) (θ : ℝ) (hp : PendingHalfTurn s q) :
    ∃ (s' : Sim) (w : ℂ), call env (.gate (.ry θ) q) s = .ok (.none, s') ∧ ‖w‖ = 1 ∧
      Shows env s' L (w • Spec.ctrl [] (matRy (-θ)) q ψ) ∧ Reachable env s' := by
  obtain ⟨_, _, d, o, s', w, h1, h2, h3, h4, h5, h6, h7⟩ := hr.step he hs (c := .gate (.ry θ) q) hq
  rcases h2 with ⟨_, rfl⟩ | ⟨hn, _⟩
  · have ho := answer_gate (c := .gate (.ry (-θ)) q) trivial h3
    subst ho
    exact ⟨s', w, h1, h6, h7, h4⟩
  · exact absurd hp hn

/-- The circuit of the counterexample. -/
def wrongTurn : List Call :=
  [.allocate, .gate (.rx Real.pi) 0, .gate (.ry (Real.pi / 2)) 0, .gate .h 0]

theorem alloc_one (rng : ℕ → ℝ) : (Ideal.init rng).step .allocate = ⟨{0}, ket zeroBasis, rng⟩ := by
  show Ideal.mk (insert (Ideal.fresh _) ∅) _ _ = _
  rw [fresh_of (n := 0) (by simp [Ideal.init]) (by simp)]
  rfl

theorem sqrt_two_half : Real.sqrt 2 / 2 * (1 / Real.sqrt 2) + Real.sqrt 2 / 2 * (1 / Real.sqrt 2) = 1 := by
  have : Real.sqrt 2 ≠ 0 := by positivity
  field_simp
  norm_num

/-- The three gates of `wrongTurn`, with the angle `θ` of the rotation about Y. -/
theorem wrongTurn_state (θ : ℝ) :
    Spec.ctrl [] matH 0 (Spec.ctrl [] (matRy θ) 0 (Spec.ctrl [] (matRx Real.pi) 0 (ket zeroBasis))) =
      (-Complex.I) • (((-Real.sin (θ / 2) + Real.cos (θ / 2)) * (1 / Real.sqrt 2) : ℝ) • ket zeroBasis +
        ((-Real.sin (θ / 2) - Real.cos (θ / 2)) * (1 / Real.sqrt 2) : ℝ) •
          ket (Function.update zeroBasis 0 true)) := by
  have hz : Function.update zeroBasis 0 false = zeroBasis := by
    rw [Function.update_eq_self_iff]; rfl
  have h0 : ∀ U : Mat2, Spec.ctrl [] U 0 (ket zeroBasis) =
      U false false • ket zeroBasis + U true false • ket (Function.update zeroBasis 0 true) := by
    intro U
    rw [ctrl_ket (by simp), if_pos (by simp), hz]
    rfl
  have h1 : ∀ U : Mat2, Spec.ctrl [] U 0 (ket (Function.update zeroBasis 0 true)) =
      U false true • ket zeroBasis + U true true • ket (Function.update zeroBasis 0 true) := by
    intro U
    rw [ctrl_ket (by simp), if_pos (by simp)]
    simp only [Function.update_self, Function.update_idem, hz]
  simp only [h0, h1, ctrl_add, ctrl_smul]
  simp only [matRx, matRy, matH, mat, Bool.false_eq_true, if_false, if_true, Real.cos_pi_div_two,
    Real.sin_pi_div_two]
  funext b
  simp only [Pi.add_apply, Pi.smul_apply, smul_eq_mul, Complex.real_smul]
  push_cast
  ring

/-- The full claim of **C01** is false: after `wrongTurn` the qubit is one with certainty on a
quantum computer, while the simulator measures zero whatever its random samples are. -/
theorem C01_counterexample (he : env.eps = 0) {rng : ℕ → ℝ} (hrng : ∀ n, 0 ≤ rng n ∧ rng n < 1) :
    (Ideal.init rng).ValidRun wrongTurn ∧
    prob [0] true ((Ideal.init rng).run wrongTurn).psi = 1 ∧
    ∃ os s s', runCalls env wrongTurn (Sim.new rng) = .ok (os, s) ∧
      s.measure env 0 = .ok (false, s') := by
  have hval : (Ideal.init rng).ValidRun wrongTurn := by
    refine ⟨trivial, ?_, ?_, ?_, trivial⟩ <;>
    · show (0 : ℕ) ∈ ((Ideal.init rng).step .allocate).live
      rw [alloc_one]; simp
  refine ⟨hval, ?_, ?_⟩
  · have : ((Ideal.init rng).run wrongTurn).psi = Spec.ctrl [] matH 0 (Spec.ctrl [] (matRy (Real.pi / 2)) 0
        (Spec.ctrl [] (matRx Real.pi) 0 (ket zeroBasis))) := by
      show Spec.ctrl [] matH 0 (Spec.ctrl [] (matRy (Real.pi / 2)) 0
        (Spec.ctrl [] (matRx Real.pi) 0 ((Ideal.init rng).step .allocate).psi)) = _
      rw [alloc_one]
    rw [this, wrongTurn_state, prob_smul]
    rw [show Real.pi / 2 / 2 = Real.pi / 4 by ring, Real.cos_pi_div_four, Real.sin_pi_div_four]
    rw [show (-(Real.sqrt 2 / 2) + Real.sqrt 2 / 2) * (1 / Real.sqrt 2) = 0 by ring]
    rw [show (-(Real.sqrt 2 / 2) - Real.sqrt 2 / 2) * (1 / Real.sqrt 2) = -1 by
      linarith [sqrt_two_half]]
    have hsm : ∀ (r : ℝ) (φ : Wave), r • φ = (r : ℂ) • φ := by
      intro r φ; funext b; simp
    rw [hsm, hsm]
    simp only [Complex.ofReal_zero, zero_smul, zero_add, prob_smul, prob_ket]
    simp [parity]
  · -- the run up to the half-turn
    have hval2 : (Ideal.init rng).ValidRun [.allocate, .gate (.rx Real.pi) 0] := ⟨trivial, hval.2.1, trivial⟩
    obtain ⟨os1, s1, h1, h2, w1, hw1, hs1⟩ := C01_history_partial he hrng hval2
      (RunOk.of_no_ry (by simp) _)
    have hr1 : Reachable env s1 := ⟨rng, _, os1, hrng, hval2, h1⟩
    have hrun1 : (Ideal.init rng).run [.allocate, .gate (.rx Real.pi) 0] =
        ⟨{0}, Spec.ctrl [] (matRx Real.pi) 0 (ket zeroBasis), rng⟩ := by
      unfold Ideal.run
      simp only [List.foldl_cons, List.foldl_nil, alloc_one]
      rfl
    rw [hrun1] at hs1
    dsimp only at hs1
    have hpend : PendingHalfTurn s1 0 := by
      obtain ⟨o, s2, os', hc, hrun, _⟩ := run_cons h1
      obtain ⟨o', s3, os'', hc', hrun', _⟩ := run_cons hrun
      cases hrun'
      simp only [call, Except.ok.injEq, Prod.mk.injEq] at hc
      have hc'' := quiet_inv hc'
      rw [← hc.2] at hc''
      simp only [gateCall, rx, allocate, Sim.new, flushIf] at hc''
      simp [IMap.containsKey_eq] at hc''
      refine ⟨Real.pi, ?_, by simp⟩
      rw [← hc'', he, addAngle_get]
      simp
    obtain ⟨s2, w2, h3, hw2, hs2, hr2⟩ := C01_wrong_turn he hr1 hs1 (q := 0) (by simp) (Real.pi / 2) hpend
    obtain ⟨s3, w3, h4, hw3, hs3, _, hr3⟩ := C01_gate_partial he hr2 hs2 (c := .gate .h 0) trivial
      (by show 0 ∈ _; simp) trivial
    obtain ⟨b, s4, w4, h5, h6, _⟩ := C02_born he hr3 hs3 (q := 0) (by simp)
    have hp0 : prob [0] true (w3 • (Call.gate .h 0).op (w2 • Spec.ctrl [] (matRy (-(Real.pi / 2))) 0
        (w1 • Spec.ctrl [] (matRx Real.pi) 0 (ket zeroBasis)))) = 0 := by
      show prob [0] true (w3 • Spec.ctrl [] matH 0 (w2 • Spec.ctrl [] (matRy (-(Real.pi / 2))) 0
        (w1 • Spec.ctrl [] (matRx Real.pi) 0 (ket zeroBasis)))) = 0
      simp only [ctrl_smul, smul_smul]
      rw [wrongTurn_state, smul_smul, prob_smul]
      rw [show -(Real.pi / 2) / 2 = -(Real.pi / 4) by ring, Real.cos_neg, Real.sin_neg,
        Real.cos_pi_div_four, Real.sin_pi_div_four]
      rw [show (-(-(Real.sqrt 2 / 2)) - Real.sqrt 2 / 2) * (1 / Real.sqrt 2) = 0 by ring]
      have hsm : ∀ (r : ℝ) (φ : Wave), r • φ = (r : ℂ) • φ := by
        intro r φ; funext b; simp
      rw [hsm, hsm]
      simp only [Complex.ofReal_zero, zero_smul, add_zero, prob_smul, prob_ket]
      simp [parity, zeroBasis]
    have hb : b = false := by
      have hsam := (hr3.rel he hs3).1.good.samples 0
      simp only at hsam
      rw [hp0] at h6
      cases b
      · rfl
      · have := h6.1 rfl; linarith
    refine ⟨os1 ++ [.none, .none], s3, s4, ?_, by rw [h5, hb]⟩
    have : wrongTurn = [.allocate, .gate (.rx Real.pi) 0] ++ [.gate (.ry (Real.pi / 2)) 0, .gate .h 0] := rfl
    rw [this, runCalls_append]
    simp only [h1, ok_bind]
    simp only [ok_bind, runCalls, h3, h4, pure_ok]

end Qir
