import Verif.Proof.TolAll
import Verif.Proof.TolDrift
import Mathlib.MeasureTheory.Measure.Lebesgue.Basic

/-!
# C53: histories with measurements at the tolerance of the code
-/

noncomputable section
namespace Qir
open Spec Sim

/-- **C53**.  For every tolerance up to one half and every valid history of public calls, among them
measurements, collapses and releases: if no observation of the ideal machine is undecided within the
distance accumulated so far, nothing panics and every answer is the ideal machine's answer to the
calls `executed`, within that distance.  Measured bits are exactly the ideal machine's. -/
theorem C53_every_history {env : Env} (h0 : 0 ≤ env.eps) (h1 : env.eps ≤ 1 / 2) {rng : ℕ → ℝ}
    (hr : ∀ n, 0 ≤ rng n ∧ rng n < 1) {cs : List Call} (hv : (Ideal.init rng).ValidRun cs)
    (hd : (Ideal.init rng).AllDecided env.eps 0 (Tol.executed env (Sim.new rng) cs)) :
    ∃ os s', runCalls env cs (Sim.new rng) = .ok (os, s') ∧
      (Ideal.init rng).AnswersNear env.eps 0 (Tol.executed env (Sim.new rng) cs) os := by
  obtain ⟨os, s', h2, h3, _⟩ := Tol.drift_run ⟨h0, h1⟩ cs (Tol.tracks_new hr) hv hd
  exact ⟨os, s', h2, h3⟩

theorem Tol.executed_steady {env : Env} (cs : List Call) : ∀ {s : Sim}, Steady env s cs →
    Tol.executed env s cs = cs := by
  induction cs with
  | nil => intro s _; rfl
  | cons c cs ih =>
    intro s h
    have hc : Tol.carriedOut env s c = c := by
      unfold Tol.carriedOut
      split
      · exact if_neg h.1
      · rfl
    unfold Tol.executed
    rw [hc]
    congr 1
    split
    · rename_i o s' h1; exact ih (h.2 o s' h1)
    · rfl

/-- **C53** for the calls as requested, when no rotation about Y meets a pending half-turn about X. -/
theorem C53_steady_history {env : Env} (h0 : 0 ≤ env.eps) (h1 : env.eps ≤ 1 / 2) {rng : ℕ → ℝ}
    (hr : ∀ n, 0 ≤ rng n ∧ rng n < 1) {cs : List Call} (hv : (Ideal.init rng).ValidRun cs)
    (hs : Steady env (Sim.new rng) cs) (hd : (Ideal.init rng).AllDecided env.eps 0 cs) :
    ∃ os s', runCalls env cs (Sim.new rng) = .ok (os, s') ∧
      (Ideal.init rng).AnswersNear env.eps 0 cs os := by
  have := C53_every_history h0 h1 hr hv (by rw [Tol.executed_steady cs hs]; exact hd)
  rwa [Tol.executed_steady cs hs] at this

open MeasureTheory in
/-- **C53**, how rarely a measurement is undecided: the samples for which it is have measure at most
four times the distance. -/
theorem C53_undecided_rarely (eps d : ℝ) (σ : Ideal) (q : ℕ) :
    volume {r : ℝ | ¬ ({ σ with rng := fun n => if n = 0 then r else σ.rng n } : Ideal).Decided eps d
      (.measure q)} ≤ ENNReal.ofReal (4 * σ.reach eps d (.measure q)) := by
  have hsub : {r : ℝ | ¬ ({ σ with rng := fun n => if n = 0 then r else σ.rng n } : Ideal).Decided eps d
      (.measure q)} ⊆ Set.Icc (prob [q] true σ.psi - 2 * σ.reach eps d (.measure q))
        (prob [q] true σ.psi + 2 * σ.reach eps d (.measure q)) := by
    intro r hr
    have hr' : ¬ 2 * σ.reach eps d (.measure q) < |r - prob [q] true σ.psi| := hr
    rw [not_lt, abs_le] at hr'
    exact ⟨by linarith [hr'.1], by linarith [hr'.2]⟩
  refine (measure_mono hsub).trans ?_
  rw [Real.volume_Icc]
  apply ENNReal.ofReal_le_ofReal
  linarith

/-! ### The Bell pair -/

theorem prob_bell_one (v : Bool) : prob [0] v bellState = 1 / 2 := by
  have := prob_bell (w := 1) (by simp) v
  rwa [one_smul] at this

theorem post_bell (v : Bool) : postMeasure [0] v bellState = ket (if v then oneOne else zeroBasis) := by
  rw [postMeasure_eq, prob_bell_one]
  have hs : ((1 / √(1 / 2) : ℝ) : ℂ) * ((1 / √2 : ℝ) : ℂ) = 1 := by
    rw [← Complex.ofReal_mul]
    have : (1 / √(1 / 2)) * (1 / √2) = (1 : ℝ) := by
      rw [Real.sqrt_div (by norm_num), Real.sqrt_one]
      have : √(2 : ℝ) ≠ 0 := by positivity
      field_simp
    rw [this]; simp
  funext b
  by_cases h0 : b = zeroBasis
  · subst h0
    cases v
    · simpa [proj, bellState, ket, oneOne_ne.symm, parity, zeroBasis] using hs
    · have : zeroBasis ≠ oneOne := oneOne_ne.symm
      simp [proj, ket, parity, zeroBasis] at this ⊢
      exact fun h => absurd h this
  · by_cases h1 : b = oneOne
    · subst h1
      cases v
      · have : parity [0] oneOne = true := by simp [parity, oneOne]
        simp [proj, ket, this, oneOne_ne]
      · have : parity [0] oneOne = true := by simp [parity, oneOne]
        simpa [proj, bellState, ket, this, oneOne_ne] using hs
    · cases v <;> simp [proj, bellState, ket, h0, h1]

theorem prob_one_ket (v : Bool) :
    prob [1] true (ket (if v then oneOne else zeroBasis)) = if v then 1 else 0 := by
  classical
  unfold prob
  rw [finsum_eq_single _ (if v then oneOne else zeroBasis)]
  · cases v <;> simp [ket, parity, oneOne, zeroBasis]
  · intro b hb; simp [ket, hb]

/-- A case: both halves of a Bell pair measured at the tolerance of the code.  Unless the first sample
is within `1e-7` of one half or the second within `1e-6` of zero or one, the program runs to its end
and the two bits are equal, namely what the first sample says. -/
theorem bell_measured {env : Env} (he : env.eps = 1e-10) {rng : ℕ → ℝ}
    (hr : ∀ n, 0 ≤ rng n ∧ rng n < 1) (h1 : 1e-7 < |rng 0 - 1 / 2|)
    (h2 : 1e-6 < rng 1 ∧ rng 1 < 1 - 1e-6) :
    ∃ s', runCalls env (bellCalls ++ [.measure 0, .measure 1]) (Sim.new rng) =
      .ok ([.id 0, .id 1, .none, .none, .bit (decide (rng 0 < 1 / 2)), .bit (decide (rng 0 < 1 / 2))], s') := by
  have e0 : (Ideal.init rng).step .allocate = ⟨{0}, ket zeroBasis, rng⟩ := Tol.alloc_init rng
  have e1 : (Ideal.mk {0} (ket zeroBasis) rng).step .allocate = ⟨{0, 1}, ket zeroBasis, rng⟩ := by
    rw [← e0]; exact bell_live rng
  obtain ⟨σ3, e2, hl3⟩ : ∃ σ3 : Ideal, (Ideal.mk {0, 1} (ket zeroBasis) rng).step (.gate .h 0) = σ3 ∧
      σ3.live = {0, 1} := ⟨_, rfl, rfl⟩
  have e3 : σ3.step (.ctrl .x [0] 1) = ⟨{0, 1}, bellState, rng⟩ := by
    rw [← bell_run rng, ← e2, ← e1, ← e0]; rfl
  have ho : (Ideal.mk {0, 1} bellState rng).outcome [0] = decide (rng 0 < 1 / 2) := by
    unfold Ideal.outcome; simp only [prob_bell_one]
  obtain ⟨b, hb⟩ : ∃ b, decide (rng 0 < 1 / 2) = b := ⟨_, rfl⟩
  rw [hb] at ho ⊢
  have e4 : (Ideal.mk {0, 1} bellState rng).step (.measure 0) =
      ⟨{0, 1}, ket (if b then oneOne else zeroBasis), fun n => rng (n + 1)⟩ := by
    show Ideal.measured [0] _ = _
    unfold Ideal.measured
    rw [ho]
    simp only [post_bell]
  have ho2 : (Ideal.mk {0, 1} (ket (if b then oneOne else zeroBasis)) fun n => rng (n + 1)).outcome [1] =
      b := by
    unfold Ideal.outcome
    simp only [prob_one_ket, zero_add]
    cases b
    · simpa using (hr 1).1
    · simpa using (hr 1).2
  have hv : (Ideal.init rng).ValidRun (bellCalls ++ [.measure 0, .measure 1]) := by
    obtain ⟨g1, g2, g3, g4, _⟩ := bell_valid rng
    refine ⟨g1, g2, g3, g4, ?_⟩
    show Ideal.ValidRun (((((Ideal.init rng).step .allocate).step .allocate).step (.gate .h 0)).step
      (.ctrl .x [0] 1)) _
    rw [e0, e1, e2, e3]
    refine ⟨show 0 ∈ ({0, 1} : Finset ℕ) by simp, ?_, trivial⟩
    rw [e4]
    exact show 1 ∈ ({0, 1} : Finset ℕ) by simp
  have hsq : √(2 : ℝ) ≤ 1.5 := by rw [Real.sqrt_le_iff]; norm_num
  have hsq0 : 0 ≤ √(2 : ℝ) := Real.sqrt_nonneg _
  have hsq2 : √(2 : ℝ) * √2 = 2 := Real.mul_self_sqrt (by norm_num)
  have hs4 : √((2 : ℝ) ^ 2) = 2 := Real.sqrt_sq (by norm_num)
  have hcard : ({0, 1} : Finset ℕ).card = 2 := rfl
  have hcard1 : ({0} : Finset ℕ).card = 1 := rfl
  have hl0 : (Ideal.init rng).live.card = 0 := rfl
  have hdec : (Ideal.init rng).AllDecided env.eps 0 (bellCalls ++ [.measure 0, .measure 1]) := by
    simp only [bellCalls, List.cons_append, List.nil_append, Ideal.AllDecided, Ideal.Decided, Ideal.after,
      e0, e1, e2, e3, e4, Ideal.reach, Call.work, Call.width, hl3, hl0, hcard, hcard1, hs4, ho, true_and,
      and_true, prob_bell_one, prob_one_ket, pow_zero, pow_one, Real.sqrt_one, he, zero_add,
      List.length_singleton]
    push_cast
    constructor
    · refine lt_of_le_of_lt ?_ h1
      nlinarith
    · refine lt_of_le_of_lt (b := 1e-6) ?_ ?_
      · nlinarith
      · rw [lt_abs]
        cases b
        · left; simp only [Bool.false_eq_true, if_false]; linarith [h2.1]
        · right; simp only [if_true]; linarith [h2.2]
  obtain ⟨os, s', h3, h4⟩ := C53_steady_history (env := env) (by rw [he]; norm_num) (by rw [he]; norm_num) hr
    hv (Tol.steady_of_no_ry (by simp [bellCalls]) _) hdec
  simp only [bellCalls, List.cons_append, List.nil_append, Ideal.AnswersNear, e0, e1, e2, e3, e4,
    Ideal.AnswerNear, ho, ho2] at h4
  obtain ⟨o1, os1, rfl, a1, o2, os2, rfl, a2, o3, os3, rfl, a3, o4, os4, rfl, a4, o5, os5, rfl, a5, o6,
    os6, rfl, a6, rfl⟩ := h4
  have f1 : (Ideal.init rng).fresh = 0 := fresh_of (by simp [Ideal.init]) (by simp)
  have f2 : (Ideal.mk {0} (ket zeroBasis) rng).fresh = 1 :=
    fresh_of (by simp) (by intro m hm; simp; omega)
  obtain rfl : o1 = .id 0 := by rw [← f1]; exact a1
  obtain rfl : o2 = .id 1 := by rw [← f2]; exact a2
  obtain rfl : o3 = .none := a3
  obtain rfl : o4 = .none := a4
  subst a5 a6
  exact ⟨s', h3⟩

end Qir
