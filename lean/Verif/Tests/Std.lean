import Verif.Model.Values

/-!
# The model of the standard library run on its unit tests

The tests in arrays.rs, tuples.rs, range_support.rs, bigints.rs, strings.rs and output_recording.rs.  As in `Tests/Float`,
these are tests of the transcription, not proofs.  A test passes if every check holds, nothing is undefined and, beyond the
tests of the repository, all memory is deallocated at the end.
-/

namespace Qir.Std.Tests
open Qir.Out

/-- A test: calls on the heap. -/
abbrev T := StateT Heap (Except Fault)

def mk (f : Heap → Addr × Heap) : T ℕ := fun h => .ok (f h)
def mk' (f : Heap → Except Fault (ℕ × Heap)) : T ℕ := f
def upd (f : Heap → Except Fault Heap) : T Unit := fun h => (f h).map fun h => ((), h)
def get' {α : Type} (f : Heap → Except Fault α) : T α := fun h => (f h).map fun a => (a, h)
def check (b : Bool) : T Unit := fun h => if b then .ok ((), h) else .error .panic

/-- `Rc::strong_count` and `Rc::weak_count`, as the tests use them. -/
def counts (p : ℕ) : T (ℕ × ℕ) := fun h => match h.box p with
  | some b => .ok ((b.strong, b.weak - 1), h)
  | none => .error .undefined

def passes (t : T Unit) : Bool := match t Heap.empty with
  | .ok ((), h) => (List.range h.next).all fun p => (h.box p).isNone
  | .error _ => false

def at' (p i : ℕ) (v : UInt8) : T Unit := do check ((← get' (Heap.arrayLoad p i)) == [v])
def contents (p : ℕ) (l : List UInt8) : T Unit := do
  check ((← get' (Heap.arrayGetSize p)) == l.length)
  l.zipIdx.forM fun (v, i) => at' p i v
def store (p i : ℕ) (v : UInt8) : T Unit := upd (Heap.arrayStore p i [v])
def dropA (p : ℕ) : T Unit := upd (Heap.arrayUpdateRef p (-1))

-- arrays.rs: `test_array_creation_simple`, `test_array_item_zero_init`, `test_array_item_updates`
#guard passes do
  let a ← mk (Heap.arrayCreate 1 3)
  contents a [0, 0, 0]
  store a 0 42; at' a 0 42; store a 1 31; at' a 1 31; at' a 2 0; store a 2 20
  contents a [42, 31, 20]
  dropA a

-- the reference count matters: without the release the array is still there
#guard !passes do let _ ← mk (Heap.arrayCreate 1 3)

-- `test_array_copy`
#guard passes do
  let a ← mk (Heap.arrayCreate 1 3)
  store a 0 42; store a 1 31
  let b ← mk' (Heap.arrayCopy a true)
  contents b [42, 31, 0]
  store a 2 20
  contents a [42, 31, 20]; at' b 2 0
  dropA a
  contents b [42, 31, 0]
  dropA b

-- `test_array_concat` and range_support.rs: `test_array_slicing`
#guard passes do
  let a ← mk (Heap.arrayCreate 1 3)
  store a 0 42; store a 1 31
  let a2 ← mk' (Heap.arrayCopy a true)
  let a3 ← mk' (Heap.arrayConcatenate a a2)
  contents a3 [42, 31, 0, 42, 31, 0]
  let a4 ← mk' (arraySlice a3 ⟨0, 2, 5⟩)
  contents a4 [42, 0, 31]
  let a5 ← mk' (arraySlice a3 ⟨4, -2, 0⟩)
  contents a5 [31, 0, 42]
  let a6 ← mk' (arraySlice a5 ⟨0, 1, -1⟩)
  contents a6 []
  dropA a; at' a2 1 31
  dropA a2; contents a3 [42, 31, 0, 42, 31, 0]
  dropA a3; contents a4 [42, 0, 31]
  dropA a4; contents a5 [31, 0, 42]
  dropA a5; contents a6 []
  dropA a6

-- `test_array_creation_large_size`: elements of 24 bytes
#guard passes do
  let a ← mk (Heap.arrayCreate 24 3)
  let word (n : ℕ) : List UInt8 := (List.range 8).map fun i => UInt8.ofNat (n >>> (8 * i))
  let data (x y z : ℕ) := word x ++ word y ++ word z
  upd (Heap.arrayStore a 0 (data 1 2 3)); upd (Heap.arrayStore a 1 (data 10 20 30)); upd (Heap.arrayStore a 2 (data 100 200 300))
  check ((← get' (Heap.arrayGetSize a)) == 3)
  check ((← get' (Heap.arrayLoad a 0)) == data 1 2 3)
  check ((← get' (Heap.arrayLoad a 1)) == data 10 20 30)
  check ((← get' (Heap.arrayLoad a 2)) == data 100 200 300)
  dropA a

-- tuples.rs: `test_tuple_create`, `test_tuple_update_reference_count`, `test_tuple_update_alias_count`
#guard passes do
  let t ← mk (Heap.tupleCreate 1)
  upd (Heap.tupleStore t 0 42)
  check ((← counts (← get' (Heap.header t))) == (1, 0))
  upd (Heap.tupleUpdateRef t 2); check ((← counts t) == (3, 0))
  upd (Heap.tupleUpdateRef t (-2)); check ((← counts t) == (1, 0))
  upd (Heap.tupleUpdateAlias t 2); check ((← counts t) == (1, 2))
  upd (Heap.tupleUpdateAlias t (-2)); check ((← counts t) == (1, 0))
  upd (Heap.tupleUpdateRef t (-1))

-- `test_tuple_copy`
#guard passes do
  let is (t : ℕ) : T Unit := do check ((← get' (Heap.tupleLoad t 0)) == 42)
  let t1 ← mk (Heap.tupleCreate 1)
  upd (Heap.tupleStore t1 0 42)
  let t2 ← mk' (Heap.tupleCopy t1 false)
  check (t2 == t1); is t2
  upd (Heap.tupleUpdateRef t2 (-1)); is t1
  let t3 ← mk' (Heap.tupleCopy t1 true)
  check (t3 != t1); is t3
  upd (Heap.tupleUpdateRef t3 (-1)); is t1
  upd (Heap.tupleUpdateAlias t1 1)
  let t4 ← mk' (Heap.tupleCopy t1 false)
  check (t4 != t1); is t4
  upd (Heap.tupleUpdateRef t4 (-1)); is t1
  upd (Heap.tupleUpdateAlias t1 (-1))
  upd (Heap.tupleUpdateRef t1 (-1))

def big (p : ℕ) (n : ℤ) : T Unit := do check ((← get' (Heap.readBigint · p)) == n)
def dropB (p : ℕ) : T Unit := upd (Heap.bigintUpdateRef p (-1))

-- bigints.rs: `test_bigint_create_from_int`, `test_bigint_create_from_array`
#guard passes do
  let a ← mk (Heap.bigintCreate 42)
  big a 42
  let b ← mk (bigintCreateArray [255, 255, 255, 255, 255, 255, 255, 127])
  big b 9223372036854775807
  dropB a; dropB b

-- `test_bigint_arithmetic`
#guard passes do
  let b0 ← mk (Heap.bigintCreate 42)
  let b1 ← mk (Heap.bigintCreate 3)
  let b2 ← mk' (bigintAdd b0 b1); big b2 45
  let b3 ← mk' (bigintSubtract b2 b1); big b3 42
  let b4 ← mk' (bigintDivide b3 b1); big b4 14
  let b5 ← mk' (bigintMultiply b4 b1); big b5 42
  let b6 ← mk' (bigintModulus b5 b1); big b6 0
  let b7 ← mk' (bigintNegate b5); big b7 (-42)
  let b8 ← mk' (bigintPower b7 3); big b8 (-74088)
  [b8, b7, b6, b5, b4, b3, b2, b1, b0].forM dropB

-- `test_bigint_bitops`
#guard passes do
  let b0 ← mk (Heap.bigintCreate 42)
  let b1 ← mk (Heap.bigintCreate 3)
  let b2 ← mk' (bigintBitand b0 b1); big b2 2
  let b3 ← mk' (bigintBitor b0 b1); big b3 43
  let b4 ← mk' (bigintBitxor b0 b3); big b4 1
  let b5 ← mk' (bigintBitnot b4); big b5 (-2)
  let b6 ← mk' (bigintShiftleft b0 2); big b6 168
  let b7 ← mk' (bigintShiftright b6 3); big b7 21
  [b7, b6, b5, b4, b3, b2, b1, b0].forM dropB

-- `test_bigint_comparisons`
#guard passes do
  let b0 ← mk (Heap.bigintCreate 42)
  let b1 ← mk (Heap.bigintCreate 43)
  let b2 ← mk (Heap.bigintCreate 42)
  check (← get' (bigintGreater b1 b0))
  check !(← get' (bigintGreater b0 b1))
  check (← get' (bigintEqual b0 b2))
  check (← get' (bigintGreaterEq b0 b2))
  check (← get' (bigintGreaterEq b1 b2))
  check !(← get' (bigintGreaterEq b0 b1))
  [b2, b1, b0].forM dropB

def text (s : String) : List UInt8 := ascii s.toList
def create (s : String) : T ℕ := mk' (stringCreateFrom (text s ++ [0]))
def reads (p : ℕ) (s : String) : T Unit := do check (cstr (← get' (stringGetData p)) == text s)
def dropS (p : ℕ) : T Unit := upd (Heap.stringUpdateRef p (-1))

-- strings.rs: `test_string_create`, `test_string_get_data`, `test_string_get_length`, `test_string_update_reference_count`
#guard passes do
  let a ← create "Test String"
  reads a "Test String"
  let b ← create "Data"
  reads b "Data"
  check ((← get' (stringGetLength b)) == 4)
  check ((← counts b) == (1, 0))
  upd (Heap.stringUpdateRef b 2); check ((← counts b) == (3, 0))
  upd (Heap.stringUpdateRef b (-2)); check ((← counts b) == (1, 0))
  dropS b; dropS a

-- `test_string_concatenate`, `test_string_equal`
#guard passes do
  let s1 ← create "Hello"
  let s2 ← create ", World!"
  let s3 ← mk' (stringJoin s1 s2)
  check ((← counts s3) == (1, 0))
  reads s3 "Hello, World!"
  dropS s3
  check ((← counts s2) == (1, 0)); reads s2 ", World!"
  dropS s2
  check ((← counts s1) == (1, 0)); reads s1 "Hello"
  dropS s1
#guard passes do
  let s1 ← create "Data"
  let s2 ← create "Data"
  let s3 ← create "Not Data"
  check (← get' (stringEqual s1 s2))
  check !(← get' (stringEqual s1 s3))
  reads s3 "Not Data"; reads s2 "Data"; reads s1 "Data"
  [s3, s2, s1].forM dropS

-- `test_to_string` and range_support.rs: `test_range_to_string`
#guard passes do
  let shows (f : Heap → Except Fault (ℕ × Heap)) (s : String) : T Unit := do
    let p ← mk' f
    reads p s
    dropS p
  shows (intToString 42) "42"
  shows (doubleToString (.finite false 4 [2] (by decide))) "4.2"
  shows (doubleToString (.finite false 4 [] (by decide))) "4.0"
  shows (doubleToString (.finite false 0 [1] (by decide))) "0.1"
  shows (doubleToString (.finite false 0 [1, 0, 0, 0, 0, 0, 0, 0, 0, 0, 1] (by decide))) "0.10000000001"
  shows (boolToString false) "false"
  shows (pauliToString .Z) "PauliZ"
  let b4 ← mk (Heap.bigintCreate 400002)
  shows (bigintToString b4) "400002"
  let b5 ← mk (bigintCreateArray [0x18, 0xFC, 0xFF, 0xFF, 0xFF, 0xFF, 0xFF, 0xFF, 0xF3, 0x01])
  shows (bigintToString b5) "9223372036854775807000"
  dropB b4; dropB b5
  shows (rangeToString ⟨0, 1, 9⟩) "0..9"
  shows (rangeToString ⟨0, 2, 12⟩) "0..2..12"

/-- `assert_output_match`, output_recording.rs:292-309. -/
def records (r : Record) (s : String) : Bool := ((emit r (Io.init.setStdOut false)).drain).1 == text s ++ lineEnding

-- output_recording.rs:237-291
#guard records (.int 42 none) "OUTPUT\tINT\t42"
#guard records (.double (.finite false 42 [4, 5, 3, 3] (by decide)) none) "OUTPUT\tDOUBLE\t42.4533"
#guard records (.double (.finite false 42 [] (by decide)) none) "OUTPUT\tDOUBLE\t42.0"
#guard records (.bool true none) "OUTPUT\tBOOL\ttrue"
#guard records (.bool false none) "OUTPUT\tBOOL\tfalse"
#guard records (.tuple 42 none) "OUTPUT\tTUPLE\t42"
#guard records (.array 42 none) "OUTPUT\tARRAY\t42"
#guard records (.bool true (some (text "YEEHAW"))) "OUTPUT\tBOOL\ttrue\tYEEHAW"
#guard records (.bool true (some (cstr [0x68, 0x69, 0]))) "OUTPUT\tBOOL\ttrue\thi"

end Qir.Std.Tests
