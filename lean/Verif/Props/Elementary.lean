import Verif.Model.Elementary

/-!
# C56: elementary functions

Each function is pinned down by the equation it is used for.
-/

namespace Qir.Std

/-- **C56**: square root and natural logarithm. -/
theorem C56_roots (v r : ℝ) :
    (sqrtBody v = some r ↔ 0 ≤ r ∧ r * r = v) ∧ (logBody v = some r ↔ Real.exp r = v) := by
  constructor
  · unfold sqrtBody
    split_ifs with h
    · rw [Option.some.injEq]
      constructor
      · rintro rfl; exact ⟨Real.sqrt_nonneg v, Real.mul_self_sqrt h⟩
      · rintro ⟨h1, rfl⟩; exact Real.sqrt_mul_self h1
    · simp only [reduceCtorEq, false_iff, not_and]
      rintro - rfl; exact h (mul_self_nonneg r)
  · unfold logBody
    split_ifs with h
    · rw [Option.some.injEq]
      constructor
      · rintro rfl; exact Real.exp_log h
      · rintro rfl; exact Real.log_exp r
    · simp only [reduceCtorEq, false_iff]
      rintro rfl; exact h (Real.exp_pos r)

/-- **C56**: the inverse functions give the angle in the usual interval. -/
theorem C56_inverse (v r : ℝ) :
    (arcsinBody v = some r ↔ -(Real.pi / 2) ≤ r ∧ r ≤ Real.pi / 2 ∧ sinBody r = v) ∧
    (arccosBody v = some r ↔ 0 ≤ r ∧ r ≤ Real.pi ∧ cosBody r = v) ∧
    (arctanBody v = r ↔ -(Real.pi / 2) < r ∧ r < Real.pi / 2 ∧ tanBody r = v) := by
  refine ⟨?_, ?_, ?_⟩
  · unfold arcsinBody sinBody
    split_ifs with h
    · rw [Option.some.injEq]
      constructor
      · rintro rfl
        exact ⟨Real.neg_pi_div_two_le_arcsin v, Real.arcsin_le_pi_div_two v, Real.sin_arcsin h.1 h.2⟩
      · rintro ⟨h1, h2, rfl⟩; exact Real.arcsin_sin h1 h2
    · simp only [reduceCtorEq, false_iff, not_and]
      rintro - - rfl; exact h ⟨Real.neg_one_le_sin r, Real.sin_le_one r⟩
  · unfold arccosBody cosBody
    split_ifs with h
    · rw [Option.some.injEq]
      constructor
      · rintro rfl
        exact ⟨Real.arccos_nonneg v, Real.arccos_le_pi v, Real.cos_arccos h.1 h.2⟩
      · rintro ⟨h1, h2, rfl⟩; exact Real.arccos_cos h1 h2
    · simp only [reduceCtorEq, false_iff, not_and]
      rintro - - rfl; exact h ⟨Real.neg_one_le_cos r, Real.cos_le_one r⟩
  · unfold arctanBody tanBody
    constructor
    · rintro rfl
      exact ⟨Real.neg_pi_div_two_lt_arctan v, Real.arctan_lt_pi_div_two v, Real.tan_arctan v⟩
    · rintro ⟨h1, h2, rfl⟩; exact Real.arctan_tan h1 h2

/-- **C56**: the first argument of `arctan2` is the ordinate; the angle of a point other than the origin. -/
theorem C56_arctan2 (y x r : ℝ) (h0 : x ≠ 0 ∨ y ≠ 0) :
    arctan2Body y x = r ↔ -Real.pi < r ∧ r ≤ Real.pi ∧
      ∃ ρ > 0, x = ρ * cosBody r ∧ y = ρ * sinBody r := by
  unfold arctan2Body cosBody sinBody
  have hz : (⟨x, y⟩ : ℂ) ≠ 0 := by
    intro h
    have hx : x = 0 := congrArg Complex.re h
    have hy : y = 0 := congrArg Complex.im h
    exact h0.elim (· hx) (· hy)
  constructor
  · rintro rfl
    refine ⟨Complex.neg_pi_lt_arg _, Complex.arg_le_pi _, ‖(⟨x, y⟩ : ℂ)‖, norm_pos_iff.mpr hz, ?_, ?_⟩
    · exact (Complex.norm_mul_cos_arg ⟨x, y⟩).symm
    · exact (Complex.norm_mul_sin_arg ⟨x, y⟩).symm
  · rintro ⟨h1, h2, ρ, hρ, rfl, rfl⟩
    have : (⟨ρ * Real.cos r, ρ * Real.sin r⟩ : ℂ) = ρ * (Complex.cos r + Complex.sin r * Complex.I) := by
      apply Complex.ext
      · simp [Complex.cos_ofReal_re, Complex.sin_ofReal_re, Complex.cos_ofReal_im, Complex.sin_ofReal_im]
      · simp [Complex.cos_ofReal_re, Complex.sin_ofReal_re, Complex.cos_ofReal_im, Complex.sin_ofReal_im]
    rw [this]
    exact Complex.arg_mul_cos_add_sin_mul_I hρ ⟨h1, h2⟩

/-- **C56**: the circular and the hyperbolic functions.  The sine is the odd one of slope one and the cosine the
even one, and the sums are the exponential functions. -/
theorem C56_circular (v : ℝ) :
    Complex.exp (v * Complex.I) = cosBody v + sinBody v * Complex.I ∧
    (cosBody v ≠ 0 → tanBody v * cosBody v = sinBody v) ∧
    coshBody v + sinhBody v = Real.exp v ∧ coshBody v - sinhBody v = Real.exp (-v) ∧
    tanhBody v * coshBody v = sinhBody v := by
  unfold cosBody sinBody tanBody coshBody sinhBody tanhBody
  refine ⟨?_, fun h => ?_, Real.cosh_add_sinh v, Real.cosh_sub_sinh v, ?_⟩
  · rw [Complex.exp_mul_I, Complex.ofReal_cos, Complex.ofReal_sin]
  · rw [Real.tan_eq_sin_div_cos, div_mul_cancel₀ _ h]
  · rw [Real.tanh_eq_sinh_div_cosh, div_mul_cancel₀ _ (Real.cosh_pos v).ne']

/-- The point straight up has the angle of a quarter turn. -/
example : arctan2Body 2 0 = Real.pi / 2 := by
  have h := Real.pi_pos
  exact (C56_arctan2 2 0 _ (.inr two_ne_zero)).mpr
    ⟨by linarith, by linarith, 2, two_pos, by simp [cosBody], by simp [sinBody]⟩

end Qir.Std
