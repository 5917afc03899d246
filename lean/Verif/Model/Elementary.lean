import Mathlib.Analysis.SpecialFunctions.Trigonometric.Arctan
import Mathlib.Analysis.SpecialFunctions.Trigonometric.Inverse
import Mathlib.Analysis.SpecialFunctions.Complex.Arg
import Mathlib.Analysis.SpecialFunctions.Log.Basic

/-!
# Elementary functions

Model of the functions of `stdlib/src/math.rs` that pass their argument to the standard library.

Simplifications.  Doubles are real numbers, without rounding, infinities and signed zeros; `none` is a result
that is not a number or infinite.
-/

namespace Qir.Std

/-- `qis__sin__body`, math.rs 45-48. -/
noncomputable def sinBody (v : ℝ) : ℝ := Real.sin v

/-- `qis__cos__body`, math.rs 50-53. -/
noncomputable def cosBody (v : ℝ) : ℝ := Real.cos v

/-- `qis__tan__body`, math.rs 54-57. -/
noncomputable def tanBody (v : ℝ) : ℝ := Real.tan v

/-- `qis__arctan2__body`, math.rs 59-62: `y.atan2(x)`. -/
noncomputable def arctan2Body (y x : ℝ) : ℝ := Complex.arg ⟨x, y⟩

/-- `qis__sinh__body`, math.rs 64-67. -/
noncomputable def sinhBody (v : ℝ) : ℝ := Real.sinh v

/-- `qis__cosh__body`, math.rs 69-72. -/
noncomputable def coshBody (v : ℝ) : ℝ := Real.cosh v

/-- `qis__tanh__body`, math.rs 74-77. -/
noncomputable def tanhBody (v : ℝ) : ℝ := Real.tanh v

open Classical in
/-- `qis__arcsin__body`, math.rs 79-82. -/
noncomputable def arcsinBody (v : ℝ) : Option ℝ := if -1 ≤ v ∧ v ≤ 1 then some (Real.arcsin v) else none

open Classical in
/-- `qis__arccos__body`, math.rs 84-87. -/
noncomputable def arccosBody (v : ℝ) : Option ℝ := if -1 ≤ v ∧ v ≤ 1 then some (Real.arccos v) else none

/-- `qis__arctan__body`, math.rs 89-92. -/
noncomputable def arctanBody (v : ℝ) : ℝ := Real.arctan v

open Classical in
/-- `qis__sqrt__body`, math.rs 94-97. -/
noncomputable def sqrtBody (v : ℝ) : Option ℝ := if 0 ≤ v then some (Real.sqrt v) else none

open Classical in
/-- `qis__log__body`, math.rs 99-102: `val.ln()`. -/
noncomputable def logBody (v : ℝ) : Option ℝ := if 0 < v then some (Real.log v) else none

end Qir.Std
