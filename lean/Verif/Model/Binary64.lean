import Verif.Model.Rounded
import Mathlib.Data.Int.Log
import Mathlib.Algebra.Order.Round

/-!
# Binary floating point arithmetic

The arithmetic of `f64` used throughout sparsesim/src: 53 significant bits, gradual underflow below 2⁻¹⁰²².
Simplified: there is no overflow, and a result half way between two numbers is rounded upwards instead of to the even
one; the error bounds are the same.  Sine and cosine are rounded like the other results.
-/

noncomputable section
namespace Qir

/-- The exponent of the last place of a number with `p` significant bits and exponent at least `m`. No counterpart in
/repo: the format of `f64`, used at sparsesim/src/lib.rs:30-58 and everywhere. -/
def place (p m : ℤ) (x : ℝ) : ℤ := max (Int.log 2 |x|) m - (p - 1)

/-- Rounding to the nearest such number. No counterpart in /repo: what one operation on `f64` does, e.g.
sparsesim/src/lib.rs:403. -/
def roundTo (p m : ℤ) (x : ℝ) : ℝ := round (x / 2 ^ place p m x) * 2 ^ place p m x

theorem roundTo_err (p m : ℤ) (x : ℝ) : |roundTo p m x - x| ≤ 2 ^ (-p) * |x| + 2 ^ (m - p) := by
  have h2 : (0 : ℝ) < 2 := by norm_num
  have hp : (0 : ℝ) < 2 ^ place p m x := by positivity
  have hA : (0 : ℝ) ≤ 2 ^ (-p) * |x| := by positivity
  have hB : (0 : ℝ) ≤ 2 ^ (m - p) := by positivity
  rcases (abs_nonneg x).eq_or_lt with hx | hx
  · have hx0 : x = 0 := abs_eq_zero.1 hx.symm
    subst hx0
    simp only [roundTo, zero_div, round_zero, Int.cast_zero, zero_mul, sub_zero, abs_zero, mul_zero, zero_add]
    exact hB
  have h1 : |roundTo p m x - x| ≤ 1 / 2 * 2 ^ place p m x := by
    have e : roundTo p m x - x = (round (x / 2 ^ place p m x) - x / 2 ^ place p m x) * 2 ^ place p m x := by
      unfold roundTo; field_simp
    rw [e, abs_mul, abs_of_pos hp, abs_sub_comm]
    exact mul_le_mul_of_nonneg_right (abs_sub_round _) hp.le
  have e1 : (1 / 2 : ℝ) * 2 ^ place p m x = 2 ^ (max (Int.log 2 |x|) m - p) := by
    rw [show (1 / 2 : ℝ) = 2 ^ (-1 : ℤ) by norm_num, ← zpow_add₀ h2.ne']
    congr 1; unfold place; ring
  rw [e1] at h1
  refine h1.trans ?_
  rcases le_total (Int.log 2 |x|) m with h | h
  · rw [max_eq_right h]
    exact le_add_of_nonneg_left hA
  · rw [max_eq_left h]
    refine le_trans ?_ (le_add_of_nonneg_right hB)
    have h3 : (2 : ℝ) ^ Int.log 2 |x| ≤ |x| := by
      have := Int.zpow_log_le_self (b := 2) (by norm_num) hx
      exact_mod_cast this
    rw [sub_eq_neg_add, zpow_add₀ h2.ne']
    exact mul_le_mul_of_nonneg_left h3 (by positivity)

/-- Double precision, with the tolerance of the code (nearly_zero.rs:11-24: 1e-10). -/
def binary64 (shuffle : List (ℕ × ℂ) → List (ℕ × ℂ)) (hs : ∀ l, (shuffle l).Perm l) : Arith where
  eps := 1e-10
  shuffle := shuffle
  shuffle_perm := hs
  fl := roundTo 53 (-1022)
  cos := fun x => roundTo 53 (-1022) (Real.cos x)
  sin := fun x => roundTo 53 (-1022) (Real.sin x)
  u := 2 ^ (-53 : ℤ)
  eta := 2 ^ (-1022 - 53 : ℤ)
  u_nonneg := by positivity
  eta_nonneg := by positivity
  fl_err := roundTo_err 53 (-1022)
  cos_err := fun x => (roundTo_err _ _ _).trans
    (add_le_add_left (mul_le_of_le_one_right (by positivity) (Real.abs_cos_le_one x)) _)
  sin_err := fun x => (roundTo_err _ _ _).trans
    (add_le_add_left (mul_le_of_le_one_right (by positivity) (Real.abs_sin_le_one x)) _)
  cos_neg := fun x => by rw [Real.cos_neg]

end Qir
