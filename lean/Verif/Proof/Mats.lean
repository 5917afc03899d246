import Verif.Spec.Quantum
import Mathlib.Tactic.LinearCombination

/-! Identities between the textbook matrices. -/

noncomputable section
namespace Qir.Spec

theorem mat_mul (a b c d a' b' c' d' : ℂ) : mat a b c d * mat a' b' c' d' =
    mat (a * a' + b * c') (a * b' + b * d') (c * a' + d * c') (c * b' + d * d') := by
  ext r k
  cases r <;> cases k <;> simp [mat, Matrix.mul_apply, add_comm]

theorem mat_one : (1 : Mat2) = mat 1 0 0 1 := by
  ext r k; cases r <;> cases k <;> simp [mat]

theorem mat_neg (a b c d : ℂ) : -mat a b c d = mat (-a) (-b) (-c) (-d) := by
  ext r k; cases r <;> cases k <;> simp [mat]

theorem mat_smul (x a b c d : ℂ) : x • mat a b c d = mat (x * a) (x * b) (x * c) (x * d) := by
  ext r k; cases r <;> cases k <;> simp [mat]

theorem mat_congr {a b c d a' b' c' d' : ℂ} (h1 : a = a') (h2 : b = b') (h3 : c = c') (h4 : d = d') :
    mat a b c d = mat a' b' c' d' := by rw [h1, h2, h3, h4]

theorem half_neg (a : ℝ) : -a / 2 = -(a / 2) := by ring

theorem X_Ry (a : ℝ) : matX * matRy a = matRy (-a) * matX := by
  simp only [matX, matRy, mat_mul, half_neg, Real.sin_neg, Real.cos_neg]
  apply mat_congr <;> push_cast <;> ring

theorem X_Rx (a : ℝ) : matX * matRx a = matRx a * matX := by
  simp only [matX, matRx, mat_mul]
  apply mat_congr <;> ring

theorem X_H : matX * matH = matH * matZ := by
  simp only [matX, matH, matZ, mat_mul]
  apply mat_congr <;> ring

theorem Z_H : matZ * matH = matH * matX := by
  simp only [matX, matH, matZ, mat_mul]
  apply mat_congr <;> ring

theorem Y_H : matY * matH = matH * -matY := by
  simp only [matY, matH, mat_mul, mat_neg]
  apply mat_congr <;> ring

theorem Y_Ry (a : ℝ) : matY * matRy a = matRy a * matY := by
  simp only [matY, matRy, mat_mul]
  apply mat_congr <;> ring

theorem Y_Rx (a : ℝ) : matY * matRx a = matRx (-a) * matY := by
  simp only [matY, matRx, mat_mul, half_neg, Real.sin_neg, Real.cos_neg]
  apply mat_congr <;> push_cast <;> ring

theorem Z_Ry (a : ℝ) : matZ * matRy a = matRy (-a) * matZ := by
  simp only [matZ, matRy, mat_mul, half_neg, Real.sin_neg, Real.cos_neg]
  apply mat_congr <;> push_cast <;> ring

theorem Z_Rx (a : ℝ) : matZ * matRx a = matRx (-a) * matZ := by
  simp only [matZ, matRx, mat_mul, half_neg, Real.sin_neg, Real.cos_neg]
  apply mat_congr <;> push_cast <;> ring

theorem H_Ry (a : ℝ) : matH * matRy a = matRy (-a) * matH := by
  simp only [matH, matRy, mat_mul, half_neg, Real.sin_neg, Real.cos_neg]
  apply mat_congr <;> push_cast <;> ring

theorem inv_sqrt_two_sq : ((1 / Real.sqrt 2 : ℝ) : ℂ) * ((1 / Real.sqrt 2 : ℝ) : ℂ) = 1 / 2 := by
  have : (1 / Real.sqrt 2) * (1 / Real.sqrt 2) = (1 / 2 : ℝ) := by
    rw [div_mul_div_comm, Real.mul_self_sqrt (by norm_num)]; norm_num
  rw [← Complex.ofReal_mul, this]; norm_num

theorem H_H : matH * matH = 1 := by
  rw [mat_one]
  simp only [matH, mat_mul]
  apply mat_congr
  · linear_combination 2 * inv_sqrt_two_sq
  · ring
  · ring
  · linear_combination 2 * inv_sqrt_two_sq

theorem Rx_Rx (a b : ℝ) : matRx a * matRx b = matRx (a + b) := by
  simp only [matRx, mat_mul, add_div, Real.cos_add, Real.sin_add]
  apply mat_congr
  · push_cast; linear_combination (Complex.sin (a / 2) * Complex.sin (b / 2)) * Complex.I_mul_I
  · push_cast; ring
  · push_cast; ring
  · push_cast; linear_combination (Complex.sin (a / 2) * Complex.sin (b / 2)) * Complex.I_mul_I

theorem Ry_Ry (a b : ℝ) : matRy a * matRy b = matRy (a + b) := by
  simp only [matRy, mat_mul, add_div, Real.cos_add, Real.sin_add]
  apply mat_congr <;> push_cast <;> ring

theorem Rx_zero : matRx 0 = 1 := by rw [mat_one]; simp [matRx]
theorem Ry_zero : matRy 0 = 1 := by rw [mat_one]; simp [matRy]

end Qir.Spec
