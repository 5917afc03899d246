import Mathlib.Probability.Moments.SubGaussian

/-!
# Hoeffding's inequality for binomial sums: the lemmas for C95 with rounding
-/

noncomputable section
namespace Qir.Bern
open MeasureTheory ProbabilityTheory

/-- A toss that is `true` with probability `a`. -/
def toss (a : ℝ) : Measure Bool := ENNReal.ofReal a • Measure.dirac true + ENNReal.ofReal (1 - a) • Measure.dirac false

theorem toss_prob {a : ℝ} (h0 : 0 ≤ a) (h1 : a ≤ 1) : IsProbabilityMeasure (toss a) := by
  constructor
  simp only [toss, Measure.coe_add, Measure.coe_smul, Pi.add_apply, Pi.smul_apply, measure_univ, smul_eq_mul, mul_one]
  rw [← ENNReal.ofReal_add h0 (by linarith)]
  simp

theorem toss_integral {a : ℝ} (h0 : 0 ≤ a) (h1 : a ≤ 1) (f : Bool → ℝ) :
    ∫ x, f x ∂toss a = a * f true + (1 - a) * f false := by
  have i : ∀ b : Bool, Integrable f (Measure.dirac b) := fun b => integrable_dirac (by simp [enorm_lt_top])
  rw [toss, integral_add_measure ((i _).smul_measure ENNReal.ofReal_ne_top) ((i _).smul_measure ENNReal.ofReal_ne_top),
    integral_smul_measure, integral_smul_measure, integral_dirac, integral_dirac,
    ENNReal.toReal_ofReal h0, ENNReal.toReal_ofReal (by linarith)]
  rfl

/-- Hoeffding's lemma for one toss. -/
theorem moment {a : ℝ} (h0 : 0 ≤ a) (h1 : a ≤ 1) (s : ℝ) :
    a * Real.exp (s * (1 - a)) + (1 - a) * Real.exp (s * -a) ≤ Real.exp (s ^ 2 / 8) := by
  have := toss_prob h0 h1
  let X : Bool → ℝ := fun b => if b then 1 else 0
  have hX : ∫ x, X x ∂toss a = a := by rw [toss_integral h0 h1]; simp [X]
  have h := (hasSubgaussianMGF_of_mem_Icc (μ := toss a) (X := X) (a := 0) (b := 1)
    (measurable_of_countable X).aemeasurable (.of_forall fun b => by cases b <;> simp [X])).mgf_le s
  rw [hX, mgf, toss_integral h0 h1] at h
  simp only [X] at h
  have e : Real.exp (((‖(1 : ℝ) - 0‖₊ / 2) ^ 2 : NNReal) * s ^ 2 / 2) = Real.exp (s ^ 2 / 8) := by
    congr 1
    push_cast
    simp
    ring
  rw [e] at h
  simpa using h

theorem one_side {a b : ℝ} (h0 : 0 ≤ a) (hb : 0 ≤ b) (h1 : a + b ≤ 1) (n : ℕ) {t s : ℝ} (D : Finset ℕ)
    (hD : D ⊆ Finset.range (n + 1)) (ht : ∀ k ∈ D, n * t * |s| ≤ s * (k - n * a)) :
    ∑ k ∈ D, (n.choose k * a ^ k * b ^ (n - k)) ≤ Real.exp (n * s ^ 2 / 8 - n * t * |s|) := by
  have hp : ∀ k : ℕ, 0 ≤ n.choose k * a ^ k * b ^ (n - k) := fun k => by positivity
  have e1 : ∀ k ∈ D, n.choose k * a ^ k * b ^ (n - k) ≤ Real.exp (-(n * t * |s|)) *
      ((a * Real.exp (s * (1 - a))) ^ k * (b * Real.exp (s * -a)) ^ (n - k) * n.choose k) := by
    intro k hk
    have hkn : k ≤ n := Nat.lt_succ_iff.1 (Finset.mem_range.1 (hD hk))
    have : Real.exp (-(n * t * |s|)) * ((a * Real.exp (s * (1 - a))) ^ k * (b * Real.exp (s * -a)) ^ (n - k) *
        n.choose k) = n.choose k * a ^ k * b ^ (n - k) * Real.exp (s * (k - n * a) - n * t * |s|) := by
      rw [mul_pow, mul_pow, ← Real.exp_nat_mul, ← Real.exp_nat_mul,
        show s * (k - n * a) - n * t * |s| = -(n * t * |s|) + k * (s * (1 - a)) + (n - k : ℕ) * (s * -a) by
          rw [Nat.cast_sub hkn]; ring, Real.exp_add, Real.exp_add]
      ring
    rw [this]
    exact le_mul_of_one_le_right (hp k) (Real.one_le_exp (by linarith [ht k hk]))
  refine (Finset.sum_le_sum e1).trans ?_
  rw [← Finset.mul_sum]
  have e2 : ∑ k ∈ D, (a * Real.exp (s * (1 - a))) ^ k * (b * Real.exp (s * -a)) ^ (n - k) * n.choose k ≤
      (a * Real.exp (s * (1 - a)) + b * Real.exp (s * -a)) ^ n := by
    rw [add_pow]
    exact Finset.sum_le_sum_of_subset_of_nonneg hD fun k _ _ => by positivity
  have e3 : a * Real.exp (s * (1 - a)) + b * Real.exp (s * -a) ≤ Real.exp (s ^ 2 / 8) :=
    le_trans (add_le_add le_rfl (mul_le_mul_of_nonneg_right (by linarith) (Real.exp_pos _).le))
      (moment h0 (by linarith) s)
  have e4 := e2.trans (pow_le_pow_left₀ (by positivity) e3 n)
  rw [← Real.exp_nat_mul] at e4
  refine (mul_le_mul_of_nonneg_left e4 (Real.exp_pos _).le).trans (le_of_eq ?_)
  rw [← Real.exp_add]
  congr 1
  ring

/-- The probabilities of a binomial distribution (or less) at the numbers that are off by `n * t` or more. -/
theorem tails {a b : ℝ} (h0 : 0 ≤ a) (hb : 0 ≤ b) (h1 : a + b ≤ 1) (n : ℕ) {t : ℝ} (ht : 0 ≤ t) :
    ∑ k ∈ (Finset.range (n + 1)).filter (fun k : ℕ => n * t ≤ |(k : ℝ) - n * a|), (n.choose k * a ^ k * b ^ (n - k)) ≤
      2 * Real.exp (-2 * n * t ^ 2) := by
  have hp : ∀ k : ℕ, 0 ≤ n.choose k * a ^ k * b ^ (n - k) := fun k => by positivity
  let U := (Finset.range (n + 1)).filter fun k : ℕ => n * t ≤ (k : ℝ) - n * a
  let L := (Finset.range (n + 1)).filter fun k : ℕ => n * t ≤ -((k : ℝ) - n * a)
  have hs : (Finset.range (n + 1)).filter (fun k : ℕ => n * t ≤ |(k : ℝ) - n * a|) ⊆ U ∪ L := by
    intro k hk
    simp only [U, L, Finset.mem_union, Finset.mem_filter] at hk ⊢
    rcases le_abs.1 hk.2 with h | h
    · exact .inl ⟨hk.1, h⟩
    · exact .inr ⟨hk.1, h⟩
  have hu := one_side h0 hb h1 n (t := t) (s := 4 * t) U (Finset.filter_subset _ _) (by
    intro k hk
    rw [abs_of_nonneg (by positivity)]
    have := (Finset.mem_filter.1 hk).2
    nlinarith)
  have hl := one_side h0 hb h1 n (t := t) (s := -(4 * t)) L (Finset.filter_subset _ _) (by
    intro k hk
    rw [abs_neg, abs_of_nonneg (by positivity)]
    have := (Finset.mem_filter.1 hk).2
    nlinarith)
  rw [abs_neg] at hl
  rw [abs_of_nonneg (by positivity : 0 ≤ 4 * t)] at hu hl
  have e : Real.exp (n * (4 * t) ^ 2 / 8 - n * t * (4 * t)) = Real.exp (-2 * n * t ^ 2) := by congr 1; ring
  have e' : Real.exp (n * (-(4 * t)) ^ 2 / 8 - n * t * (4 * t)) = Real.exp (-2 * n * t ^ 2) := by congr 1; ring
  rw [e] at hu
  rw [e'] at hl
  calc _ ≤ ∑ k ∈ U ∪ L, (n.choose k * a ^ k * b ^ (n - k)) := Finset.sum_le_sum_of_subset_of_nonneg hs fun k _ _ => hp k
    _ ≤ ∑ k ∈ U, (n.choose k * a ^ k * b ^ (n - k)) + ∑ k ∈ L, (n.choose k * a ^ k * b ^ (n - k)) := by
      rw [← Finset.sum_union_inter]
      exact le_add_of_nonneg_right (Finset.sum_nonneg fun k _ => hp k)
    _ ≤ _ := by linarith

end Qir.Bern
