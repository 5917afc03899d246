import Verif.Model.Math
import Verif.Model.Output
import Mathlib.Data.Int.Bitwise

/-!
# Values of big integers and strings

Model of the arithmetic of `stdlib/src/bigints.rs`, of the contents and conversions of
`stdlib/src/strings.rs` and of the classification of doubles in `stdlib/src/math.rs`.

Simplifications.  The arithmetic of `num-bigint` is exact; `&`, `|` and `^` act on the two's complement
(Mathlib's definitions by cases on the signs), `!` and `>>` work on the magnitude as published.
Running out of memory (long shifts, large powers) is not modelled.
-/

namespace Qir.Std

open Out

/-! ### bigints.rs -/

/-- `bigint_negate`, bigints.rs 49-52: a multiplication by minus one. -/
def bigintNegate (p : Addr) (h : Heap) : Except Fault (Addr × Heap) := do
  let a ← h.readBigint p
  .ok (h.alloc (.bigint (a * -1)))

/-- `bigint_add`, bigints.rs 54-60. -/
def bigintAdd (p q : Addr) (h : Heap) : Except Fault (Addr × Heap) := do
  let a ← h.readBigint p
  let b ← h.readBigint q
  .ok (h.alloc (.bigint (a + b)))

/-- `bigint_subtract`, bigints.rs 62-68. -/
def bigintSubtract (p q : Addr) (h : Heap) : Except Fault (Addr × Heap) := do
  let a ← h.readBigint p
  let b ← h.readBigint q
  .ok (h.alloc (.bigint (a - b)))

/-- `bigint_multiply`, bigints.rs 70-76. -/
def bigintMultiply (p q : Addr) (h : Heap) : Except Fault (Addr × Heap) := do
  let a ← h.readBigint p
  let b ← h.readBigint q
  .ok (h.alloc (.bigint (a * b)))

/-- `bigint_power`, bigints.rs 94-100. -/
def bigintPower (p : Addr) (n : ℕ) (h : Heap) : Except Fault (Addr × Heap) := do
  let a ← h.readBigint p
  .ok (h.alloc (.bigint (a ^ n)))

/-- `bigint_bitand`, bigints.rs 102-108. -/
def bigintBitand (p q : Addr) (h : Heap) : Except Fault (Addr × Heap) := do
  let a ← h.readBigint p
  let b ← h.readBigint q
  .ok (h.alloc (.bigint (Int.land a b)))

/-- `bigint_bitor`, bigints.rs 110-116. -/
def bigintBitor (p q : Addr) (h : Heap) : Except Fault (Addr × Heap) := do
  let a ← h.readBigint p
  let b ← h.readBigint q
  .ok (h.alloc (.bigint (Int.lor a b)))

/-- `bigint_bitxor`, bigints.rs 118-124. -/
def bigintBitxor (p q : Addr) (h : Heap) : Except Fault (Addr × Heap) := do
  let a ← h.readBigint p
  let b ← h.readBigint q
  .ok (h.alloc (.bigint (Int.xor a b)))

/-- `Not` of `BigInt`: one more in magnitude and negative, or one less and positive. stdlib/src/bigints.rs:128. -/
def notBig (a : ℤ) : ℤ := if 0 ≤ a then -((a.natAbs + 1 : ℕ) : ℤ) else ((a.natAbs - 1 : ℕ) : ℤ)

/-- `bigint_bitnot`, bigints.rs 126-129. -/
def bigintBitnot (p : Addr) (h : Heap) : Except Fault (Addr × Heap) := do
  let a ← h.readBigint p
  .ok (h.alloc (.bigint (notBig a)))

/-- `bigint_shiftleft`, bigints.rs 131-137. -/
def bigintShiftleft (p : Addr) (n : ℕ) (h : Heap) : Except Fault (Addr × Heap) := do
  let a ← h.readBigint p
  .ok (h.alloc (.bigint (a.sign * ((a.natAbs <<< n : ℕ) : ℤ))))

/-- `Shr` of `BigInt`: the magnitude is shifted, and one is added if the number is negative and a bit
was lost. stdlib/src/bigints.rs:144. -/
def shrBig (a : ℤ) (n : ℕ) : ℤ :=
  let roundDown := a < 0 ∧ 0 < n ∧ a.natAbs % 2 ^ n ≠ 0
  let data := a.natAbs >>> n
  let data := if roundDown then data + 1 else data
  a.sign * (data : ℤ)

/-- `bigint_shiftright`, bigints.rs 139-145. -/
def bigintShiftright (p : Addr) (n : ℕ) (h : Heap) : Except Fault (Addr × Heap) := do
  let a ← h.readBigint p
  .ok (h.alloc (.bigint (shrBig a n)))

/-- `bigint_equal`, bigints.rs 147-153. -/
def bigintEqual (p q : Addr) (h : Heap) : Except Fault Bool := do
  let a ← h.readBigint p
  let b ← h.readBigint q
  .ok (decide (a = b))

/-- `bigint_greater`, bigints.rs 155-161. -/
def bigintGreater (p q : Addr) (h : Heap) : Except Fault Bool := do
  let a ← h.readBigint p
  let b ← h.readBigint q
  .ok (decide (a > b))

/-- `bigint_greater_eq`, bigints.rs 163-169. -/
def bigintGreaterEq (p q : Addr) (h : Heap) : Except Fault Bool := do
  let a ← h.readBigint p
  let b ← h.readBigint q
  .ok (decide (a ≥ b))

/-! ### strings.rs -/

/-- Reading a string through its address. stdlib/src/strings.rs:24, 31, 54, 68. -/
def Heap.readString (h : Heap) (p : Addr) : Except Fault (List UInt8) := do
  match ← h.read p with
  | .string s => .ok s
  | _ => .error .undefined

/-- `CStr::from_ptr`: the bytes in front of the first zero byte of the memory. stdlib/src/strings.rs:17,
stdlib/src/output_recording.rs:106. -/
def cstr (mem : List UInt8) : List UInt8 := mem.takeWhile (· != 0)

/-- `string_create`, strings.rs 13-20, from the memory at the given address, which has to have a zero byte.
`CString::new` fails on zero bytes. -/
def stringCreateFrom (mem : List UInt8) (h : Heap) : Except Fault (Addr × Heap) :=
  if 0 ∉ mem then .error .undefined
  else if 0 ∈ cstr mem then .error .panic
  else .ok (h.alloc (.string (cstr mem)))

/-- `string_get_data`, strings.rs 22-25, as the bytes at the returned address. -/
def stringGetData (p : Addr) (h : Heap) : Except Fault (List UInt8) := do
  .ok ((← h.readString p) ++ [0])

/-- `string_get_length`, strings.rs 27-36. -/
def stringGetLength (p : Addr) (h : Heap) : Except Fault ℕ := do
  let size := (← h.readString p).length
  if size < 4294967296 then .ok size else .error .panic

/-- `string_concatenate`, strings.rs 48-61, with the check of `CString::new`. -/
def stringJoin (p q : Addr) (h : Heap) : Except Fault (Addr × Heap) := do
  let s ← h.readString p
  let t ← h.readString q
  if 0 ∈ s ++ t then .error .panic else .ok (h.alloc (.string (s ++ t)))

/-- `string_equal`, strings.rs 63-69. -/
def stringEqual (p q : Addr) (h : Heap) : Except Fault Bool := do
  let s ← h.readString p
  let t ← h.readString q
  .ok (decide (s = t))

/-- `convert`, strings.rs 71-83: the text of `to_string` (ASCII in all uses) with a zero byte behind it. -/
def convert (text : List Char) (h : Heap) : Except Fault (Addr × Heap) :=
  if 0 ∈ ascii text then .error .panic else stringCreateFrom (ascii text ++ [0]) h

/-- `int_to_string`, strings.rs 85-88. -/
def intToString (n : ℤ) : Heap → Except Fault (Addr × Heap) := convert (intText n)

/-- `double_to_string`, strings.rs 100-103. -/
def doubleToString (d : Double) : Heap → Except Fault (Addr × Heap) := convert (doubleText d)

/-- `bool_to_string`, strings.rs 105-108. -/
def boolToString (b : Bool) : Heap → Except Fault (Addr × Heap) := convert (boolText b)

/-- `Pauli`, lib.rs 63-70. -/
inductive PauliArg
  | I | X | Z | Y
deriving DecidableEq

/-- `pauli_to_string`, strings.rs 110-118. -/
def pauliToString (P : PauliArg) : Heap → Except Fault (Addr × Heap) :=
  match P with
  | .I => convert "PauliI".toList
  | .X => convert "PauliX".toList
  | .Y => convert "PauliY".toList
  | .Z => convert "PauliZ".toList

/-- `bigint_to_string`, strings.rs 120-123. -/
def bigintToString (p : Addr) (h : Heap) : Except Fault (Addr × Heap) := do
  let a ← h.readBigint p
  convert (intText a) h

/-- `range_to_string`, range_support.rs 16-25. -/
def rangeToString (r : Range) : Heap → Except Fault (Addr × Heap) := convert (rangeText r)

/-! ### math.rs -/

/-- `is_sign_negative`. stdlib/src/math.rs:42. -/
def Double.negative : Double → Bool
  | .nan => false
  | .inf neg => neg
  | .finite neg .. => neg

/-- `is_infinite`. stdlib/src/math.rs:37, 42. -/
def Double.infinite : Double → Bool
  | .inf _ => true
  | _ => false

/-- `qis__nan__body`, math.rs 20-23. -/
def nanBody : Double := .nan

/-- `qis__isnan__body`, math.rs 25-28. -/
def isnanBody : Double → Bool
  | .nan => true
  | _ => false

/-- `qis__infinity__body`, math.rs 30-33. -/
def infinityBody : Double := .inf false

/-- `qis__isinf__body`, math.rs 35-38. -/
def isinfBody (d : Double) : Bool := Double.infinite d && !Double.negative d

/-- `qis__isnegativeinfinity__body`, math.rs 40-43. -/
def isnegativeinfinityBody (d : Double) : Bool := Double.infinite d && Double.negative d

end Qir.Std
