import Verif.Proof.RndAngles
import Verif.Proof.RoundedExact
import Verif.Model.Binary64
import Verif.Props.Drift

/-!
# C62: what rounded arithmetic can do
-/

noncomputable section
namespace Qir
open Spec Sim

/-- **C62**.  For every arithmetic whose rounding errors are at most a thousandth of the tolerance (double precision at
the tolerance of the code is one, `C62_binary64`), every bound `N` on the number of qubits and every valid history of
public calls, in which the angles of the uncontrolled rotations about X and Y are not so large that the rounding error
of their sum exceeds the tolerance: if no observation of the ideal machine is undecided within the error accumulated so
far, and this error stays below one half, then nothing panics and every answer is the ideal machine's answer to the
calls `executed`, within that error.  Measured bits are exactly the ideal machine's. -/
theorem C62_every_history {A : Arith} (h0 : 0 < A.eps) (h1 : A.eps ≤ 1 / 4) (h2 : 1000 * (A.u + A.eta) ≤ A.eps)
    {rng : ℕ → ℝ} (hr : ∀ n, 0 ≤ rng n ∧ rng n < 1) {cs : List Call} (hv : (Ideal.init rng).ValidRun cs)
    (ha : A.u * Rnd.totalTurn A cs + A.eta ≤ A.eps) {N : ℕ}
    (hd : (Ideal.init rng).AllDecidedR A N 0 (Rnd.executed A (Sim.new rng) cs)) :
    ∃ os s', Rnd.runCalls A cs (Sim.new rng) = .ok (os, s') ∧
      (Ideal.init rng).AnswersNearR A N 0 (Rnd.executed A (Sim.new rng) cs) os :=
  Rnd.track_run ⟨h0, h1, h2⟩ cs (Rnd.tracks_new hr) hv
    (Rnd.angles_of_total h0.le cs le_rfl (Rnd.low_new rng) (by rw [zero_add]; exact ha)) hd

/-- With exact arithmetic the model with rounding is the model without. -/
theorem C62_exact_arithmetic (env : Env) (cs : List Call) (s : Sim) :
    Rnd.runCalls (Arith.exact env) cs s = runCalls env cs s := by rw [Rnd.runCalls_exact]

namespace Rnd

theorem executed_no_ry {A : Arith} (cs : List Call) : ∀ {s : Sim}, (∀ θ q, Call.gate (.ry θ) q ∉ cs) →
    executed A s cs = cs := by
  induction cs with
  | nil => intro s _; rfl
  | cons c cs ih =>
    intro s h
    have hc : carriedOut A s c = c := by
      unfold carriedOut
      split
      · rename_i θ q; exact absurd (by simp) (h θ q)
      · rfl
    unfold executed
    rw [hc]
    congr 1
    split
    · exact ih (fun θ q hm => h θ q (List.mem_cons_of_mem _ hm))
    · rfl

theorem plain_decided {A : Arith} {N : ℕ} (he : 0 ≤ A.eps) (cs : List Call) : ∀ {σ : Ideal} {d : ℝ},
    (∀ c ∈ cs, c.IsGate ∨ c.IsLook ∨ c = .allocate) → (σ.run cs).live.card ≤ N → 0 ≤ d →
    slack A N (d + 15 * A.eps * √(2 ^ N) * σ.work cs) ≤ 1 / 2 → σ.AllDecidedR A N d cs := by
  induction cs with
  | nil => intros; trivial
  | cons c cs ih =>
    intro σ d hu hN hd0 hs
    have hcard := (Tol.card_run_le cs (σ.step c) (fun c hc => hu c (by simp [hc]))).trans hN
    have e : d + 15 * A.eps * √(2 ^ N) * σ.work (c :: cs) =
        σ.reachR A N d c + 15 * A.eps * √(2 ^ N) * (σ.step c).work cs := by
      simp only [Ideal.work, Ideal.reachR]; push_cast; ring
    rw [e] at hs
    have hnn : 0 ≤ 15 * A.eps * √(2 ^ N) * (σ.step c).work cs := by positivity
    have hr0 : 0 ≤ σ.reachR A N d c := by unfold Ideal.reachR; positivity
    have hs1 : slack A N (σ.reachR A N d c) ≤ 1 / 2 := by
      refine le_trans ?_ hs
      unfold slack; linarith
    have haf : σ.afterR A N d c = σ.reachR A N d c ∧ σ.ClearR A N d c := by
      rcases hu c (by simp) with h | h | h
      · cases c <;> first | exact ⟨rfl, trivial⟩ | simp [Call.IsGate] at h
      · cases c <;> first | exact ⟨rfl, trivial⟩ | simp [Call.IsLook] at h
      · subst h; exact ⟨rfl, trivial⟩
    refine ⟨⟨hcard, hs1, ?_, haf.2⟩, ?_⟩
    · rw [haf.1]; exact (slack_ge A N hr0).trans hs1
    · rw [haf.1]
      exact ih (fun c hc => hu c (by simp [hc])) hN hr0 hs

theorem plain_answers {A : Arith} {N : ℕ} {D : ℝ} (he : 0 ≤ A.eps) (cs : List Call) : ∀ {σ : Ideal} {d : ℝ} {os : List Out},
    (∀ c ∈ cs, c.IsGate ∨ c.IsLook ∨ c = .allocate) →
    slack A N (d + 15 * A.eps * √(2 ^ N) * σ.work cs) ≤ D → σ.AnswersNearR A N d cs os →
    σ.AnswersWithin A.eps D cs os := by
  induction cs with
  | nil => intro _ _ _ _ _ h; exact h
  | cons c cs ih =>
    intro σ d os hu hs h
    obtain ⟨o, os', rfl, ha, hrest⟩ := h
    have e : d + 15 * A.eps * √(2 ^ N) * σ.work (c :: cs) =
        σ.reachR A N d c + 15 * A.eps * √(2 ^ N) * (σ.step c).work cs := by
      simp only [Ideal.work, Ideal.reachR]; push_cast; ring
    rw [e] at hs
    have hnn : 0 ≤ 15 * A.eps * √(2 ^ N) * (σ.step c).work cs := by positivity
    have hs1 : slack A N (σ.reachR A N d c) ≤ D := by
      refine le_trans ?_ hs
      unfold slack; linarith
    have haf : σ.afterR A N d c = σ.reachR A N d c ∧
        σ.AnswerWithin A.eps (slack A N (σ.reachR A N d c)) c o := by
      rcases hu c (by simp) with h | h | h
      · cases c <;> first | exact ⟨rfl, ha⟩ | simp [Call.IsGate] at h
      · cases c <;> first | exact ⟨rfl, ha⟩ | simp [Call.IsLook] at h
      · subst h; exact ⟨rfl, ha⟩
    rw [haf.1] at hrest
    exact ⟨o, os', rfl, Tol.AnswerWithin.mono hs1 haf.2, ih (fun c hc => hu c (by simp [hc])) hs hrest⟩

theorem executed_plain {A : Arith} (cs : List Call) : ∀ {s : Sim}, (∀ c ∈ cs, c.IsGate ∨ c.IsLook ∨ c = .allocate) →
    ∀ c ∈ executed A s cs, c.IsGate ∨ c.IsLook ∨ c = .allocate := by
  induction cs with
  | nil => intro s _ c hc; simp [executed] at hc
  | cons c cs ih =>
    intro s h c' hc'
    unfold executed at hc'
    rcases List.mem_cons.1 hc' with rfl | hm
    · have := h c (by simp)
      unfold carriedOut
      split
      · split <;> exact Or.inl (by simp [Call.IsGate])
      · exact this
    · split at hm
      · exact ih (fun c hc => h c (by simp [hc])) c' hm
      · exact h c' (by simp [hm])

end Rnd

/-- **C62** in closed form, for histories of gates, allocations and queries: with `n` qubits every answer is right
within `20 eps √(2^n)` times the work of the history plus `10 · 2^n` rounding errors, provided this is at most one half.
The work of a call is one more than the number of its operands. -/
theorem C62_bound {A : Arith} (h0 : 0 < A.eps) (h1 : A.eps ≤ 1 / 4) (h2 : 1000 * (A.u + A.eta) ≤ A.eps)
    {rng : ℕ → ℝ} (hr : ∀ n, 0 ≤ rng n ∧ rng n < 1) {cs : List Call} (hv : (Ideal.init rng).ValidRun cs)
    (hu : ∀ c ∈ cs, c.IsGate ∨ c.IsLook ∨ c = .allocate)
    (ha : A.u * Rnd.totalTurn A cs + A.eta ≤ A.eps) {xs : List Call} (hx : xs = Rnd.executed A (Sim.new rng) cs)
    {n : ℕ} (hn : n = ((Ideal.init rng).run xs).live.card)
    {D : ℝ} (hD : D = 20 * A.eps * √(2 ^ n) * (Ideal.init rng).work xs + 10 * 2 ^ n * (A.u + A.eta)) (hD1 : D ≤ 1 / 2) :
    ∃ os s', Rnd.runCalls A cs (Sim.new rng) = .ok (os, s') ∧ (Ideal.init rng).AnswersWithin A.eps D xs os := by
  have hu' : ∀ c ∈ xs, c.IsGate ∨ c.IsLook ∨ c = .allocate := by rw [hx]; exact Rnd.executed_plain cs hu
  have hs : slack A n (0 + 15 * A.eps * √(2 ^ n) * (Ideal.init rng).work xs) ≤ D := by
    rw [hD]
    unfold slack
    have : 0 ≤ A.eps * √(2 ^ n) * (Ideal.init rng).work xs := by positivity
    linarith
  obtain ⟨os, s', h3, h4⟩ := C62_every_history h0 h1 h2 hr hv ha (N := n)
    (by rw [← hx]; exact Rnd.plain_decided h0.le xs hu' hn.ge le_rfl (hs.trans hD1))
  rw [← hx] at h4
  exact ⟨os, s', h3, Rnd.plain_answers h0.le xs hu' hs h4⟩

/-- Double precision at the tolerance of the code is fine enough. -/
theorem C62_binary64 (shuffle : List (ℕ × ℂ) → List (ℕ × ℂ)) (hs : ∀ l, (shuffle l).Perm l) :
    0 < (binary64 shuffle hs).eps ∧ (binary64 shuffle hs).eps ≤ 1 / 4 ∧
      1000 * ((binary64 shuffle hs).u + (binary64 shuffle hs).eta) ≤ (binary64 shuffle hs).eps := by
  have h : (2 : ℝ) ^ (-1022 - 53 : ℤ) ≤ 2 ^ (-53 : ℤ) := zpow_le_zpow_right₀ (by norm_num) (by norm_num)
  have h' : (2 : ℝ) ^ (-53 : ℤ) ≤ 1e-15 := by norm_num
  refine ⟨?_, ?_, ?_⟩
  · show (0 : ℝ) < 1e-10; norm_num
  · show (1e-10 : ℝ) ≤ 1 / 4; norm_num
  · show 1000 * ((2 : ℝ) ^ (-53 : ℤ) + 2 ^ (-1022 - 53 : ℤ)) ≤ 1e-10
    generalize (2 : ℝ) ^ (-53 : ℤ) = x at h h' ⊢
    generalize (2 : ℝ) ^ (-1022 - 53 : ℤ) = y at h ⊢
    norm_num at h' ⊢
    linarith

/-- A case of `C62_bound`: the Bell pair followed by `get_state`, in double precision at the tolerance of the code.
The reported state is within `5e-8` of the Bell state. -/
example (shuffle : List (ℕ × ℂ) → List (ℕ × ℂ)) (hsh : ∀ l, (shuffle l).Perm l) {rng : ℕ → ℝ}
    (hr : ∀ n, 0 ≤ rng n ∧ rng n < 1) :
    ∃ (s' : Sim) (ψ : Wave) (l : List (ℕ × ℂ)) (w : ℂ),
      Rnd.runCalls (binary64 shuffle hsh) (bellCalls ++ [.getState]) (Sim.new rng) =
        .ok ([.id 0, .id 1, .none, .none, .state l 2], s') ∧ ‖w‖ = 1 ∧ Lists [0, 1] ψ l ∧
      distance ψ (w • bellState) ≤ 5e-8 := by
  obtain ⟨A, hA⟩ : ∃ A, A = binary64 shuffle hsh := ⟨_, rfl⟩
  obtain ⟨g0, g1, g2⟩ := C62_binary64 shuffle hsh
  have he : A.eps = 1e-10 := by rw [hA]; rfl
  rw [← hA] at g0 g1 g2 ⊢
  clear hA
  have hv : (Ideal.init rng).ValidRun (bellCalls ++ [.getState]) := by
    obtain ⟨h1, h2, h3, h4, _⟩ := bell_valid rng
    exact ⟨h1, h2, h3, h4, trivial, trivial⟩
  have hturn : A.u * Rnd.totalTurn A (bellCalls ++ [.getState]) + A.eta ≤ A.eps := by
    have : Rnd.totalTurn A (bellCalls ++ [.getState]) = 0 := by
      simp [bellCalls, Rnd.totalTurn, Call.turn]
    rw [this, mul_zero, zero_add]
    linarith [A.u_nonneg, A.eta_nonneg]
  have hbell := bell_run rng
  have hlive : ((Ideal.init rng).run (bellCalls ++ [.getState])).live.card = 2 := by
    show (((Ideal.init rng).run bellCalls).step .getState).live.card = 2
    rw [hbell]; rfl
  have hwork : (Ideal.init rng).work (bellCalls ++ [.getState]) = 10 := by
    show _ + (_ + (_ + (_ + (Call.work ((Ideal.init rng).run bellCalls) .getState + 0)))) = 10
    rw [hbell]; rfl
  have hs4 : √((2 : ℝ) ^ 2) = 2 := Real.sqrt_sq (by norm_num)
  have hD : 20 * A.eps * √(2 ^ 2) * (Ideal.init rng).work (bellCalls ++ [.getState]) +
      10 * 2 ^ 2 * (A.u + A.eta) ≤ 5e-8 := by
    rw [hwork, hs4, he]
    rw [he] at g2
    generalize A.u + A.eta = v at g2 ⊢
    norm_num at g2 ⊢
    linarith
  obtain ⟨os, s', h1, h2⟩ := C62_bound g0 g1 g2 hr hv
    (by intro c hc; simp [bellCalls] at hc; rcases hc with rfl | rfl | rfl | rfl <;>
      simp [Call.IsGate, Call.IsLook]) hturn (Rnd.executed_no_ry _ (by simp [bellCalls])).symm hlive.symm rfl
    (hD.trans (by norm_num))
  obtain ⟨o1, os1, rfl, a1, o2, os2, rfl, a2, o3, os3, rfl, a3, o4, os4, rfl, a4, o5, os5, rfl, a5, a6⟩ := h2
  cases a6
  change Ideal.AnswerWithin _ _ ((Ideal.init rng).run bellCalls) _ _ at a5
  rw [hbell] at a5
  obtain ⟨ψ, l, w, hw, hl, hd, rfl⟩ := a5
  have e1 : (Ideal.init rng).fresh = 0 := fresh_of (by simp [Ideal.init]) (by simp)
  have e2 : ((Ideal.init rng).step .allocate).fresh = 1 := by
    rw [Tol.alloc_init]; exact fresh_of (by simp) (by intro m hm; simp; omega)
  obtain rfl : o1 = .id 0 := by rw [← e1]; exact a1
  obtain rfl : o2 = .id 1 := by rw [← e2]; exact a2
  obtain rfl : o3 = .none := a3
  obtain rfl : o4 = .none := a4
  refine ⟨s', ψ, l, w, h1, hw, ?_, hd.trans hD⟩
  have : Ideal.ids ⟨{0, 1}, bellState, rng⟩ = [0, 1] := by
    show Finset.sort ({0, 1} : Finset ℕ) _ = _
    rw [Finset.sort_insert (a := 0) (s := {1}) (· ≤ ·) (by simp) (by simp), Finset.sort_singleton]
  rw [this] at hl; exact hl

/-- A case: both halves of a Bell pair measured in double precision at the tolerance of the code.  Unless the first
sample is within `2e-7` of one half or the second within `3e-6` of zero or one, the program runs to its end and the two
bits are equal, namely what the first sample says. -/
theorem bell_measured_binary64 (shuffle : List (ℕ × ℂ) → List (ℕ × ℂ)) (hsh : ∀ l, (shuffle l).Perm l) {rng : ℕ → ℝ}
    (hr : ∀ n, 0 ≤ rng n ∧ rng n < 1) (h1 : 2e-7 < |rng 0 - 1 / 2|)
    (h2 : 3e-6 < rng 1 ∧ rng 1 < 1 - 3e-6) :
    ∃ s', Rnd.runCalls (binary64 shuffle hsh) (bellCalls ++ [.measure 0, .measure 1]) (Sim.new rng) =
      .ok ([.id 0, .id 1, .none, .none, .bit (decide (rng 0 < 1 / 2)), .bit (decide (rng 0 < 1 / 2))], s') := by
  obtain ⟨A, hA⟩ : ∃ A, A = binary64 shuffle hsh := ⟨_, rfl⟩
  obtain ⟨g0, g1, g2⟩ := C62_binary64 shuffle hsh
  have he : A.eps = 1e-10 := by rw [hA]; rfl
  rw [← hA] at g0 g1 g2 ⊢
  clear hA
  have e0 : (Ideal.init rng).step .allocate = ⟨{0}, ket zeroBasis, rng⟩ := Tol.alloc_init rng
  have e1 : (Ideal.mk {0} (ket zeroBasis) rng).step .allocate = ⟨{0, 1}, ket zeroBasis, rng⟩ := by
    rw [← e0]; exact bell_live rng
  obtain ⟨σ3, e2, hl3⟩ : ∃ σ3 : Ideal, (Ideal.mk {0, 1} (ket zeroBasis) rng).step (.gate .h 0) = σ3 ∧
      σ3.live = {0, 1} := ⟨_, rfl, rfl⟩
  have e3 : σ3.step (.ctrl .x [0] 1) = ⟨{0, 1}, bellState, rng⟩ := by
    rw [← bell_run rng, ← e2, ← e1, ← e0]; rfl
  have ho : (Ideal.mk {0, 1} bellState rng).outcome [0] = decide (rng 0 < 1 / 2) := by
    unfold Ideal.outcome; simp only [prob_bell_one]
  obtain ⟨b, hb⟩ : ∃ b, decide (rng 0 < 1 / 2) = b := ⟨_, rfl⟩
  rw [hb] at ho ⊢
  have e4 : (Ideal.mk {0, 1} bellState rng).step (.measure 0) =
      ⟨{0, 1}, ket (if b then oneOne else zeroBasis), fun n => rng (n + 1)⟩ := by
    show Ideal.measured [0] _ = _
    unfold Ideal.measured
    rw [ho]
    simp only [post_bell]
  have ho2 : (Ideal.mk {0, 1} (ket (if b then oneOne else zeroBasis)) fun n => rng (n + 1)).outcome [1] =
      b := by
    unfold Ideal.outcome
    simp only [prob_one_ket, zero_add]
    cases b
    · simpa using (hr 1).1
    · simpa using (hr 1).2
  have hp2 : prob [1] b (ket (if b then oneOne else zeroBasis)) = 1 := by
    cases b
    · have h3 := prob_add (finSupp_ket zeroBasis) [1]
      have h4 := prob_one_ket false
      rw [normSq_ket] at h3
      simp only [Bool.false_eq_true, if_false] at h4 ⊢
      linarith
    · exact prob_one_ket true
  have hv : (Ideal.init rng).ValidRun (bellCalls ++ [.measure 0, .measure 1]) := by
    obtain ⟨g1, g2, g3, g4, _⟩ := bell_valid rng
    refine ⟨g1, g2, g3, g4, ?_⟩
    show Ideal.ValidRun (((((Ideal.init rng).step .allocate).step .allocate).step (.gate .h 0)).step
      (.ctrl .x [0] 1)) _
    rw [e0, e1, e2, e3]
    refine ⟨show 0 ∈ ({0, 1} : Finset ℕ) by simp, ?_, trivial⟩
    rw [e4]
    exact show 1 ∈ ({0, 1} : Finset ℕ) by simp
  have hs4 : √((2 : ℝ) ^ 2) = 2 := Real.sqrt_sq (by norm_num)
  have hcard : ({0, 1} : Finset ℕ).card = 2 := rfl
  have hcard1 : ({0} : Finset ℕ).card = 1 := rfl
  have e5 : ((Ideal.mk {0, 1} (ket (if b then oneOne else zeroBasis)) fun n => rng (n + 1)).step (.measure 1)).live =
      {0, 1} := rfl
  obtain ⟨v, hv0⟩ : ∃ v, v = A.u + A.eta := ⟨_, rfl⟩
  have hvn : 0 ≤ v := by rw [hv0]; exact add_nonneg A.u_nonneg A.eta_nonneg
  rw [← hv0, he] at g2
  have hdec : (Ideal.init rng).AllDecidedR A 2 0 (bellCalls ++ [.measure 0, .measure 1]) := by
    simp only [bellCalls, List.cons_append, List.nil_append, Ideal.AllDecidedR, Ideal.DecidedR, Ideal.ClearR, Ideal.afterR,
      Ideal.observedR, e0, e1, e2, e3, e4, e5, Ideal.reachR, slack, Call.work, Call.width, hcard, hcard1, hs4, ho,
      ho2, hp2, and_true, prob_bell_one, prob_one_ket, he, zero_add, ← hv0, hl3, List.length_singleton]
    push_cast
    refine ⟨⟨by norm_num, ?_, ?_⟩, ⟨by norm_num, ?_, ?_⟩, ⟨by norm_num, ?_, ?_⟩, ⟨by norm_num, ?_, ?_⟩,
      ⟨by norm_num, ?_, ?_, ?_⟩, ⟨by norm_num, ?_, ?_, ?_⟩⟩
    all_goals try (norm_num; done)
    all_goals try (norm_num; linarith)
    · refine lt_of_le_of_lt (b := (3e-6 : ℝ)) ?_ ?_
      · norm_num; linarith
      · rw [lt_abs]
        cases b
        · left; simp only [Bool.false_eq_true, if_false]; linarith [h2.1]
        · right; simp only [if_true]; linarith [h2.2]
  have hex : Rnd.executed A (Sim.new rng) (bellCalls ++ [.measure 0, .measure 1]) = bellCalls ++ [.measure 0, .measure 1] :=
    Rnd.executed_no_ry _ (by simp [bellCalls])
  have hturn : A.u * Rnd.totalTurn A (bellCalls ++ [.measure 0, .measure 1]) + A.eta ≤ A.eps := by
    have : Rnd.totalTurn A (bellCalls ++ [.measure 0, .measure 1]) = 0 := by
      simp [bellCalls, Rnd.totalTurn, Call.turn]
    rw [this, mul_zero, zero_add, he]
    have := A.u_nonneg
    linarith
  obtain ⟨os, s', h3, h4⟩ := C62_every_history g0 g1 (by rw [← hv0, he]; exact g2) hr hv hturn (N := 2) (by rw [hex]; exact hdec)
  rw [hex] at h4
  simp only [bellCalls, List.cons_append, List.nil_append, Ideal.AnswersNearR, e0, e1, e2, e3, e4,
    Ideal.AnswerNear, ho, ho2] at h4
  obtain ⟨o1, os1, rfl, a1, o2, os2, rfl, a2, o3, os3, rfl, a3, o4, os4, rfl, a4, o5, os5, rfl, a5, o6,
    os6, rfl, a6, rfl⟩ := h4
  have f1 : (Ideal.init rng).fresh = 0 := fresh_of (by simp [Ideal.init]) (by simp)
  have f2 : (Ideal.mk {0} (ket zeroBasis) rng).fresh = 1 :=
    fresh_of (by simp) (by intro m hm; simp; omega)
  obtain rfl : o1 = .id 0 := by rw [← f1]; exact a1
  obtain rfl : o2 = .id 1 := by rw [← f2]; exact a2
  obtain rfl : o3 = .none := a3
  obtain rfl : o4 = .none := a4
  subst a5 a6
  exact ⟨s', h3⟩

end Qir
