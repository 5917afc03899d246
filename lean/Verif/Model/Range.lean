import Verif.Model.Heap
import Mathlib.Algebra.Order.Group.Unbundled.Int
import Mathlib.Data.Int.Cast.Basic

/-!
# Model of `stdlib/src/range_support.rs`

Integers are mathematical integers; arithmetic whose result does not fit into `i64` is a panic, as in
builds with overflow checks (without them the results would wrap).
-/

namespace Qir.Std

/-- `Range`, range_support.rs:10-14. -/
structure Range where
  start : ℤ
  step : ℤ
  stop : ℤ
deriving DecidableEq

/-- The result of an `i64` operation. stdlib/src/range_support.rs:42, 44, 48. -/
def i64 (a : ℤ) : Except Fault ℤ :=
  if -2 ^ 63 ≤ a ∧ a < 2 ^ 63 then .ok a else .error .panic

/-- `lo..=hi` as the list of its values. stdlib/src/range_support.rs:42, 44. -/
def rangeInclusive (lo hi : ℤ) : List ℤ := (List.range (hi + 1 - lo).toNat).map fun (j : ℕ) => lo + (j : ℤ)

/-- `Iterator::step_by`: the first value, then every `n`-th one. stdlib/src/range_support.rs:48. -/
def stepBy {α : Type} (n : ℕ) : List α → List α
  | [] => []
  | a :: l => a :: stepBy n (l.drop (n - 1))
termination_by l => l.length
decreasing_by simp; omega

/-- `&array.data[index..index + array.elem_size]`, range_support.rs:50-55. -/
def sliceItem (a : QirArray) (i : ℤ) : Except Fault (List UInt8) :=
  if i < 0 then .error .panic
  else if i.toNat + a.elemSize ≤ a.data.length then .ok ((a.data.drop i.toNat).take a.elemSize)
  else .error .panic

/-- The loop of `array_slice_1d`, range_support.rs:47-57. -/
def sliceLoop (a : QirArray) : List ℤ → Except Fault (List UInt8)
  | [] => .ok []
  | i :: l => do
    let copy ← sliceItem a i
    let rest ← sliceLoop a l
    return copy ++ rest

/-- The contents of the slice, range_support.rs:32-57.  `step_by(0)` panics. -/
def sliceData (a : QirArray) (r : Range) : Except Fault QirArray := do
  let lo ← i64 (r.start * a.elemSize)
  let hi ← i64 (r.stop * a.elemSize)
  let iter := if r.step > 0 then rangeInclusive lo hi else (rangeInclusive hi lo).reverse
  let step ← i64 |r.step|
  let by' ← i64 (step * a.elemSize)
  if by' = 0 then .error .panic
  else
    let data ← sliceLoop a (stepBy by'.toNat iter)
    return { elemSize := a.elemSize, data }

/-- `array_slice_1d`, range_support.rs:28-60. -/
def arraySlice (p : Addr) (r : Range) (h : Heap) : Except Fault (Addr × Heap) := do
  let a ← Heap.readArray p h
  let s ← sliceData a r
  return h.alloc (.array s)

/-- Decimal digits, most significant first. stdlib/src/range_support.rs:18-22. -/
def digits (n : ℕ) : List Char := (Nat.toDigits 10 n)

/-- `i64::to_string`. stdlib/src/range_support.rs:18-22, stdlib/src/strings.rs:86-88. -/
def intText (a : ℤ) : List Char :=
  if a < 0 then '-' :: digits a.natAbs else digits a.natAbs

/-- `range_to_string`, range_support.rs:17-25. -/
def rangeText (r : Range) : List Char :=
  intText r.start ++ ['.', '.'] ++
    (if r.step ≠ 1 then intText r.step ++ ['.', '.'] else []) ++ intText r.stop

end Qir.Std
