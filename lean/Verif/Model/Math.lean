import Verif.Model.Heap
import Mathlib.Data.Real.Basic
import Mathlib.Algebra.Order.Floor.Ring
import Mathlib.Algebra.Order.Round
import Mathlib.Algebra.Order.Archimedean.Real.Basic

/-!
# Numbers

Model of `stdlib/src/math.rs` (remainder, random draws) and of `stdlib/src/bigints.rs`.

Simplifications.  Doubles are real numbers.  `num-bigint` 0.4.6 and `rand` 0.10 are not part of the repository;
the functions of theirs that matter (`to_signed_bytes_le`, `from_signed_bytes_le`, division,
`random_range`) are modelled by their published algorithms.
-/

namespace Qir.Std

/-! ### math.rs -/

/-- `f64::round`: to the nearest integer, halves away from zero. stdlib/src/math.rs:106. -/
noncomputable def roundAway (x : ℝ) : ℤ := if 0 ≤ x then ⌊x + 1 / 2⌋ else ⌈x - 1 / 2⌉

/-- `__quantum__qis__ieeeremainder__body`, math.rs 105-107. -/
noncomputable def ieeeRemainder (x y : ℝ) : ℝ := x - y * roundAway (x / y)

/-- The number of 64 bit words. stdlib/src/math.rs:116. -/
def words : ℕ := 18446744073709551616

/-- Conversion to `i64`, wrapping. stdlib/src/math.rs:116. -/
def wrap64 (a : ℤ) : ℤ := (a + 9223372036854775808) % 18446744073709551616 - 9223372036854775808

/-- `random_range` of `rand` on an inclusive range of `i64` (`UniformInt::sample_single_inclusive`), given
two random words. stdlib/src/math.rs:116. -/
def sampleInclusive (low high : ℤ) (w1 w2 : ℕ) : ℤ :=
  let range := ((high - low + 1) % 18446744073709551616).toNat
  if range = 0 then wrap64 w1
  else
    let result := w1 * range / words
    let lo := w1 * range % words
    if lo > (words - range) % words then
      wrap64 (low + (result + if lo + w2 * range / words ≥ words then 1 else 0 : ℕ))
    else wrap64 (low + (result : ℕ))

/-- `__quantum__qis__drawrandomint__body`, math.rs 110-117; `rt__fail` panics. -/
def drawRandomInt (min max : ℤ) (w1 w2 : ℕ) : Except Fault ℤ :=
  if min > max then .error .panic else .ok (sampleInclusive min max w1 w2)

/-- `random_range` of `rand` on an inclusive range of reals: `u` is a random number between 0 and 1.
stdlib/src/math.rs:126. -/
noncomputable def sampleReal (low high u : ℝ) : ℝ := low + u * (high - low)

open Classical in
/-- `__quantum__qis__drawrandomdouble__body`, math.rs 120-127. -/
noncomputable def drawRandomDouble (min max u : ℝ) : Except Fault ℝ :=
  if min > max then .error .panic else .ok (sampleReal min max u)

/-! ### bigints.rs -/

/-- `BigUint::to_bytes_le`: base 256, no leading zero byte; zero is one byte. stdlib/src/bigints.rs:27, 33. -/
def bytesLE (n : ℕ) : List UInt8 :=
  if h : n < 256 then [UInt8.ofNat n] else UInt8.ofNat (n % 256) :: bytesLE (n / 256)
termination_by n

/-- `BigUint::from_bytes_le`. stdlib/src/bigints.rs:19. -/
def ofBytesLE : List UInt8 → ℕ
  | [] => 0
  | b :: l => b.toNat + 256 * ofBytesLE l

/-- `twos_complement` of `num-bigint`: complement every byte and add the carry. stdlib/src/bigints.rs:19, 27, 33. -/
def twosComplement (carry : Bool) : List UInt8 → List UInt8
  | [] => []
  | b :: l =>
    if carry then (~~~b + 1) :: twosComplement (~~~b + 1 == 0) l
    else ~~~b :: twosComplement false l

/-- `BigInt::to_signed_bytes_le`. stdlib/src/bigints.rs:27, 33. -/
def toSignedBytes (a : ℤ) : List UInt8 :=
  let bytes := bytesLE a.natAbs
  let last := bytes.getLast?.getD 0
  let bytes :=
    if last > 0x7f ∧ ¬ (last = 0x80 ∧ bytes.dropLast.all (· == 0) ∧ a < 0) then bytes ++ [0] else bytes
  if a < 0 then twosComplement true bytes else bytes

/-- `BigInt::from_signed_bytes_le`. stdlib/src/bigints.rs:19. -/
def fromSignedBytes (l : List UInt8) : ℤ :=
  match l.getLast? with
  | none => 0
  | some v => if v > 0x7f then -(ofBytesLE (twosComplement true l) : ℤ) else (ofBytesLE l : ℤ)

/-- `Integer::div_rem` of `BigInt`: divide the magnitudes, then give the signs. stdlib/src/bigints.rs:83, 91. -/
def divRem (a b : ℤ) : ℤ × ℤ :=
  let d : ℤ := a.sign * ((a.natAbs / b.natAbs : ℕ) : ℤ)
  let r : ℤ := a.sign * ((a.natAbs % b.natAbs : ℕ) : ℤ)
  if b < 0 then (-d, r) else (d, r)

/-- Reading a big integer through its address. stdlib/src/bigints.rs:51, 59. -/
def Heap.readBigint (h : Heap) (p : Addr) : Except Fault ℤ := do
  match ← h.read p with
  | .bigint n => .ok n
  | _ => .error .undefined

/-- `bigint_create_array`, bigints.rs 14-23. -/
def bigintCreateArray (l : List UInt8) (h : Heap) : Addr × Heap := h.alloc (.bigint (fromSignedBytes l))

/-- `bigint_get_data`, bigints.rs 26-28, as the bytes at the returned address. -/
def bigintGetData (p : Addr) (h : Heap) : Except Fault (List UInt8) := do
  .ok (toSignedBytes (← h.readBigint p))

/-- `bigint_get_length`, bigints.rs 31-37. -/
def bigintGetLength (p : Addr) (h : Heap) : Except Fault ℕ := do
  let size := (toSignedBytes (← h.readBigint p)).length
  if size < 4294967296 then .ok size else .error .panic

/-- `bigint_divide`, bigints.rs 79-84; division by zero panics. -/
def bigintDivide (p q : Addr) (h : Heap) : Except Fault (Addr × Heap) := do
  let a ← h.readBigint p
  let b ← h.readBigint q
  if b = 0 then .error .panic else .ok (h.alloc (.bigint (divRem a b).1))

/-- `bigint_modulus`, bigints.rs 87-92. -/
def bigintModulus (p q : Addr) (h : Heap) : Except Fault (Addr × Heap) := do
  let a ← h.readBigint p
  let b ← h.readBigint q
  if b = 0 then .error .panic else .ok (h.alloc (.bigint (divRem a b).2))

end Qir.Std
