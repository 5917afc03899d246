import Mathlib.Data.List.Basic
import Mathlib.Logic.Function.Basic
import Mathlib.Data.Int.Notation

/-!
# Model of the reference counted objects of `stdlib` (`lib.rs`, `arrays.rs`, `tuples.rs`)

An `Rc<T>` is a heap box with a strong count, a weak count and the value.  The counts are those of
the standard library: the weak count starts at one, the one held jointly by all strong references.
The value is dropped when the strong count becomes zero, and the box is deallocated when the weak
count becomes zero.

* Addresses are natural numbers; address 0 is the null pointer; every allocation gets a new address.
* Count overflow (`usize`), running out of memory and `usize` overflow in sizes are not modelled.
* Touching a box that was deallocated, a value that was dropped, or an object of another type is the
  error `Fault.undefined`.
* A tuple is addressed by the pointer to its first word; the word in front of it, the header, holds
  the address of the box that owns the memory.  In the model the memory of the tuple lives in its
  box and has the address of the box; the header is stored explicitly.  Tuple memory is accessed in
  words, the only way in which `stdlib` itself accesses it.
-/

namespace Qir.Std

/-- Addresses. -/
scoped notation "Addr" => ℕ

/-- What can go wrong. No counterpart in /repo: undefined behaviour of the `unsafe` blocks, and the panics of
stdlib/src/arrays.rs:62 and stdlib/src/arrays.rs:24-29. -/
inductive Fault
  /-- undefined behaviour -/
  | undefined
  /-- a Rust panic, or `__quantum__rt__fail` -/
  | panic
deriving DecidableEq

/-- `QirArray`, arrays.rs:16-20. -/
structure QirArray where
  elemSize : ℕ
  data : List UInt8
deriving DecidableEq

/-- `Callable`, callables.rs:13-20.  The two tables are fixed data of the program; they are addressed
by number. -/
structure Callable where
  funcTable : ℕ
  memTable : ℕ
  capTuple : Addr
  isAdj : Bool
  ctlsCount : ℕ
deriving DecidableEq

/-- The values that are reference counted.  Strings and big integers are immutable; they are
represented by their contents. stdlib/src/arrays.rs:16-20, stdlib/src/tuples.rs:12-25, stdlib/src/callables.rs:13-20,
stdlib/src/strings.rs:14-20, stdlib/src/bigints.rs:9-11. -/
inductive Obj
  | array (a : QirArray)
  | tuple (header : Addr) (words : List ℕ)
  | callable (c : Callable)
  | string (s : List UInt8)
  | bigint (n : ℤ)
deriving DecidableEq

/-- `RcBox` of the standard library. Used at stdlib/src/lib.rs:31-61. -/
structure Box where
  strong : ℕ
  weak : ℕ
  /-- `none` once dropped -/
  val : Option Obj
deriving DecidableEq

/-- The heap, with the history of drops and deallocations. No counterpart in /repo: the allocator behind `Rc::new`,
e.g. stdlib/src/arrays.rs:31. -/
structure Heap where
  next : Addr
  box : Addr → Option Box
  dropped : List Addr
  freed : List Addr

namespace Heap

/-- Nothing allocated. No counterpart in /repo: the heap at the start of the process. -/
def empty : Heap := { next := 1, box := fun _ => none, dropped := [], freed := [] }

/-- Replace the box at `p`. No counterpart in /repo: a write of the counts at stdlib/src/lib.rs:39-54. -/
def set (h : Heap) (p : Addr) (b : Box) : Heap := { h with box := Function.update h.box p (some b) }

/-- Deallocate the box at `p`. No counterpart in /repo: what the drops of stdlib/src/lib.rs:51-54 do in the standard
library. -/
def dealloc (h : Heap) (p : Addr) : Heap :=
  { h with box := Function.update h.box p none, freed := p :: h.freed }

/-- `Rc::into_raw(Rc::new(v))`. stdlib/src/arrays.rs:31, stdlib/src/tuples.rs:22, stdlib/src/callables.rs:28,
stdlib/src/strings.rs:18, stdlib/src/bigints.rs:10. -/
def alloc (v : Obj) (h : Heap) : Addr × Heap :=
  (h.next, { h.set h.next ⟨1, 1, some v⟩ with next := h.next + 1 })

/-- `Rc::increment_strong_count`: the count is read and written; zero is undefined behaviour. stdlib/src/lib.rs:41. -/
def incStrong (p : Addr) (h : Heap) : Except Fault Heap :=
  match h.box p with
  | some b => if b.strong = 0 then .error .undefined else .ok (h.set p { b with strong := b.strong + 1 })
  | none => .error .undefined

/-- Drop of a `Weak`. stdlib/src/lib.rs:51-52. -/
def decWeak (p : Addr) (h : Heap) : Except Fault Heap :=
  match h.box p with
  | some b =>
    if b.weak = 0 then .error .undefined
    else if b.weak = 1 then .ok (h.dealloc p)
    else .ok (h.set p { b with weak := b.weak - 1 })
  | none => .error .undefined

/-- Drop of an `Rc`: the last strong reference drops the value and then the weak reference that all
strong references hold jointly. stdlib/src/lib.rs:54. -/
def decStrong (p : Addr) (h : Heap) : Except Fault Heap :=
  match h.box p with
  | some b =>
    if b.strong = 0 then .error .undefined
    else if b.strong = 1 then
      decWeak p { h.set p { b with strong := 0, val := none } with dropped := p :: h.dropped }
    else .ok (h.set p { b with strong := b.strong - 1 })
  | none => .error .undefined

/-- `Rc::downgrade` and forgetting the result. stdlib/src/lib.rs:39, 48. -/
def incWeak (p : Addr) (h : Heap) : Except Fault Heap :=
  match h.box p with
  | some b => .ok (h.set p { b with weak := b.weak + 1 })
  | none => .error .undefined

/-- One iteration of the loop of `update_counts` with a positive remainder, lib.rs:36-44. -/
def countUp (p : Addr) (isAlias : Bool) (h : Heap) : Except Fault Heap :=
  if isAlias then incWeak p h else incStrong p h

/-- One iteration with a negative remainder, lib.rs:45-58: for aliases one `Weak` is made and two are
dropped. -/
def countDown (p : Addr) (isAlias : Bool) (h : Heap) : Except Fault Heap :=
  if isAlias then do
    let h ← incWeak p h
    let h ← decWeak p h
    decWeak p h
  else decStrong p h

/-- `n` iterations. The loop of stdlib/src/lib.rs:34-59. -/
def iterate (f : Heap → Except Fault Heap) : ℕ → Heap → Except Fault Heap
  | 0, h => .ok h
  | n + 1, h => do
    let h ← f h
    iterate f n h

/-- `update_counts`, lib.rs:31-61. -/
def updateCounts (p : Addr) (update : ℤ) (isAlias : Bool) (h : Heap) : Except Fault Heap :=
  if update > 0 then iterate (countUp p isAlias) update.toNat h
  else iterate (countDown p isAlias) (-update).toNat h

/-- The value at `p`, as read through a raw pointer. E.g. stdlib/src/arrays.rs:59, stdlib/src/callables.rs:45. -/
def read (p : Addr) (h : Heap) : Except Fault Obj :=
  match h.box p with
  | some b =>
    match b.val with
    | some v => .ok v
    | none => .error .undefined
  | none => .error .undefined

/-- Overwrite the value at `p` through a raw pointer. E.g. stdlib/src/callables.rs:74. -/
def write (p : Addr) (v : Obj) (h : Heap) : Except Fault Heap :=
  match h.box p with
  | some b =>
    match b.val with
    | some _ => .ok (h.set p { b with val := some v })
    | none => .error .undefined
  | none => .error .undefined

/-- `Rc::weak_count(&rc)`, which leaves out the jointly held one; `Rc::from_raw` itself does not
touch memory. stdlib/src/arrays.rs:43, stdlib/src/tuples.rs:35, stdlib/src/callables.rs:116. -/
def weakCount (p : Addr) (h : Heap) : Except Fault ℕ :=
  match h.box p with
  | some b => .ok (b.weak - 1)
  | none => .error .undefined

/-- The array at `p`. stdlib/src/arrays.rs:59-60, 86, 99. -/
def readArray (p : Addr) (h : Heap) : Except Fault QirArray := do
  match ← read p h with
  | .array a => return a
  | _ => .error .undefined

/-- The tuple at `p`: header and words. stdlib/src/tuples.rs:34. -/
def readTuple (p : Addr) (h : Heap) : Except Fault (Addr × List ℕ) := do
  match ← read p h with
  | .tuple hd ws => return (hd, ws)
  | _ => .error .undefined

/-- The callable at `p`. stdlib/src/callables.rs:45. -/
def readCallable (p : Addr) (h : Heap) : Except Fault Callable := do
  match ← read p h with
  | .callable c => return c
  | _ => .error .undefined

/-! ### arrays.rs -/

/-- `array_create_1d`, arrays.rs:23-32. -/
def arrayCreate (elemSize count : ℕ) (h : Heap) : Addr × Heap :=
  h.alloc (.array ⟨elemSize, List.replicate (elemSize * count) 0⟩)

/-- `array_copy`, arrays.rs:35-51. -/
def arrayCopy (p : Addr) (force : Bool) (h : Heap) : Except Fault (Addr × Heap) := do
  let w ← weakCount p h
  if force = true ∨ w > 0 then
    let a ← readArray p h
    return h.alloc (.array a)
  else
    let h ← incStrong p h
    return (p, h)

/-- The contents built by `array_concatenate`, arrays.rs:59-79: `resize`, `copy_from_slice`, `append`. -/
def concatData (a b : QirArray) : Except Fault QirArray :=
  if a.elemSize ≠ b.elemSize then .error .panic
  else .ok { elemSize := a.elemSize, data := a.data ++ b.data }

/-- `array_concatenate`, arrays.rs:54-81. -/
def arrayConcatenate (p q : Addr) (h : Heap) : Except Fault (Addr × Heap) := do
  let a ← readArray p h
  let b ← readArray q h
  let c ← concatData a b
  return h.alloc (.array c)

/-- `array_get_size_1d`, arrays.rs:84-91; division by zero panics. -/
def arrayGetSize (p : Addr) (h : Heap) : Except Fault ℕ := do
  let a ← readArray p h
  if a.elemSize = 0 then .error .panic else return a.data.length / a.elemSize

/-- `array_get_element_ptr_1d`, arrays.rs:94-105: the offset from the start of the data. -/
def elementOffset (a : QirArray) (index : ℕ) : ℕ := a.elemSize * index

/-- Reading one element through the pointer obtained; reading outside the data is undefined. Through the pointer of
stdlib/src/arrays.rs:103. -/
def arrayLoad (p : Addr) (index : ℕ) (h : Heap) : Except Fault (List UInt8) := do
  let a ← readArray p h
  if elementOffset a index + a.elemSize ≤ a.data.length then
    return (a.data.drop (elementOffset a index)).take a.elemSize
  else .error .undefined

/-- Writing one element through the pointer obtained. Through the pointer of stdlib/src/arrays.rs:103. -/
def arrayStore (p : Addr) (index : ℕ) (v : List UInt8) (h : Heap) : Except Fault Heap := do
  let a ← readArray p h
  if v.length = a.elemSize ∧ elementOffset a index + a.elemSize ≤ a.data.length then
    let d := a.data.take (elementOffset a index) ++ v ++ a.data.drop (elementOffset a index + a.elemSize)
    write p (.array ⟨a.elemSize, d⟩) h
  else .error .undefined

/-- `array_update_reference_count`, arrays.rs:108-115. -/
def arrayUpdateRef (p : Addr) (update : ℤ) (h : Heap) : Except Fault Heap := updateCounts p update false h

/-- `array_update_alias_count`, arrays.rs:118-125. -/
def arrayUpdateAlias (p : Addr) (update : ℤ) (h : Heap) : Except Fault Heap := updateCounts p update true h

/-! ### tuples.rs -/

/-- `tuple_create`, tuples.rs:12-25, for a size of `words` words: zeroed memory whose header is the
address of the new box. -/
def tupleCreate (words : ℕ) (h : Heap) : Addr × Heap :=
  let (p, h') := h.alloc (.tuple 0 (List.replicate words 0))
  (p, h'.set p ⟨1, 1, some (.tuple p (List.replicate words 0))⟩)

/-- `*raw_tup.wrapping_sub(1)`. stdlib/src/tuples.rs:34, 53, 63. -/
def header (p : Addr) (h : Heap) : Except Fault Addr := do
  let (hd, _) ← readTuple p h
  return hd

/-- `tuple_copy`, tuples.rs:29-45.  The memory that is cloned is the one owned by the box named in
the header. -/
def tupleCopy (p : Addr) (force : Bool) (h : Heap) : Except Fault (Addr × Heap) := do
  let hd ← header p h
  let w ← weakCount hd h
  if force = true ∨ w > 0 then
    let (hd', ws) ← readTuple hd h
    let (q, h) := h.alloc (.tuple hd' ws)
    return (q, h.set q ⟨1, 1, some (.tuple q ws)⟩)
  else
    let h ← incStrong hd h
    return (p, h)

/-- Read word `i` of a tuple. stdlib/src/callables.rs:60, 66-71. -/
def tupleLoad (p : Addr) (i : ℕ) (h : Heap) : Except Fault ℕ := do
  let (_, ws) ← readTuple p h
  match ws[i]? with
  | some w => return w
  | none => .error .undefined

/-- Write word `i` of a tuple. stdlib/src/callables.rs:74. -/
def tupleStore (p : Addr) (i : ℕ) (w : ℕ) (h : Heap) : Except Fault Heap := do
  let (hd, ws) ← readTuple p h
  if i < ws.length then write p (.tuple hd (ws.set i w)) h else .error .undefined

/-- `tuple_update_reference_count`, tuples.rs:48-55. -/
def tupleUpdateRef (p : Addr) (update : ℤ) (h : Heap) : Except Fault Heap := do
  let hd ← header p h
  updateCounts hd update false h

/-- `tuple_update_alias_count`, tuples.rs:58-65. -/
def tupleUpdateAlias (p : Addr) (update : ℤ) (h : Heap) : Except Fault Heap := do
  let hd ← header p h
  updateCounts hd update true h

/-! ### callables.rs (functors and counts) -/

/-- `callable_create`, callables.rs:23-35. -/
def callableCreate (funcTable memTable : ℕ) (capTuple : Addr) (h : Heap) : Addr × Heap :=
  h.alloc (.callable ⟨funcTable, memTable, capTuple, false, 0⟩)

/-- `callable_copy`, callables.rs:110-124. -/
def callableCopy (p : Addr) (force : Bool) (h : Heap) : Except Fault (Addr × Heap) := do
  let w ← weakCount p h
  if force = true ∨ w > 0 then
    let c ← readCallable p h
    return h.alloc (.callable c)
  else
    let h ← incStrong p h
    return (p, h)

/-- `callable_make_adjoint`, callables.rs:127-132. -/
def callableMakeAdjoint (p : Addr) (h : Heap) : Except Fault Heap := do
  let c ← readCallable p h
  write p (.callable { c with isAdj := !c.isAdj }) h

/-- `callable_make_controlled`, callables.rs:135-140. -/
def callableMakeControlled (p : Addr) (h : Heap) : Except Fault Heap := do
  let c ← readCallable p h
  write p (.callable { c with ctlsCount := c.ctlsCount + 1 }) h

/-- `callable_update_reference_count`, callables.rs:143-150. -/
def callableUpdateRef (p : Addr) (update : ℤ) (h : Heap) : Except Fault Heap := updateCounts p update false h

/-- `callable_update_alias_count`, callables.rs:153-160. -/
def callableUpdateAlias (p : Addr) (update : ℤ) (h : Heap) : Except Fault Heap := updateCounts p update true h

/-! ### strings.rs, bigints.rs (allocation and counts) -/

/-- `string_create`, strings.rs:14-20; `s` is the text up to the terminating zero byte. -/
def stringCreate (s : List UInt8) (h : Heap) : Addr × Heap := h.alloc (.string s)

/-- `string_concatenate`, strings.rs:49-61. -/
def stringConcatenate (p q : Addr) (h : Heap) : Except Fault (Addr × Heap) := do
  match ← read p h, ← read q h with
  | .string s, .string t => return h.alloc (.string (s ++ t))
  | _, _ => .error .undefined

/-- `string_update_reference_count`, strings.rs:39-46. -/
def stringUpdateRef (p : Addr) (update : ℤ) (h : Heap) : Except Fault Heap := updateCounts p update false h

/-- `bigint_create_i64`, bigints.rs:9-11, and the constructors of results. -/
def bigintCreate (n : ℤ) (h : Heap) : Addr × Heap := h.alloc (.bigint n)

/-- `bigint_update_reference_count`, bigints.rs:39-47. -/
def bigintUpdateRef (p : Addr) (update : ℤ) (h : Heap) : Except Fault Heap := updateCounts p update false h

/-! ### callables.rs (invocation) -/

/-- Compiled functions: given the addresses of the captured values, the arguments and the result,
they change the heap or go wrong. stdlib/src/callables.rs:92-99. -/
abbrev Callee := Addr → Addr → Addr → Heap → Except Fault Heap

/-- Gathering nested control lists into one, callables.rs:62-90; the first argument is `ctl_count`. -/
def invokeLoop : ℕ → Addr → Heap → Except Fault (Addr × Heap)
  | n + 2, args, h => do
    let ctls ← tupleLoad args 0 h
    let inner ← tupleLoad args 1 h
    let innerCtls ← tupleLoad inner 0 h
    let (newCtls, h) ← arrayConcatenate ctls innerCtls h
    let (newArgs, h) ← tupleCopy inner true h
    let h ← tupleStore newArgs 0 newCtls h
    let old ← tupleLoad args 0 h
    let h ← arrayUpdateRef old (-1) h
    let h ← tupleUpdateRef args (-1) h
    invokeLoop (n + 1) newArgs h
  | _, args, h => .ok (args, h)

/-- What precedes the call, callables.rs:45-92: the arguments to pass on. -/
def invokePrepare (c : Callable) (args : Addr) (h : Heap) : Except Fault (Addr × Heap) :=
  if args = 0 then .ok (0, h)
  else do
    let (copy, h) ← tupleCopy args true h
    if c.ctlsCount > 0 then
      let ctls ← tupleLoad copy 0 h
      let h ← arrayUpdateRef ctls 1 h
      invokeLoop c.ctlsCount copy h
    else return (copy, h)

/-- What follows the call, callables.rs:102-107; the number of controls is read again. -/
def invokeFinish (p copy : Addr) (h : Heap) : Except Fault Heap := do
  let c ← readCallable p h
  let h ← if c.ctlsCount > 0 then do
      let ctls ← tupleLoad copy 0 h
      arrayUpdateRef ctls (-1) h
    else pure h
  if copy = 0 then return h else tupleUpdateRef copy (-1) h

/-- `callable_invoke`, callables.rs:39-107.  `prog t i` is entry `i` of function table `t`. -/
def callableInvoke (prog : ℕ → ℕ → Callee) (p args res : Addr) (h : Heap) : Except Fault Heap := do
  let c ← readCallable p h
  let index := c.isAdj.toNat + (if c.ctlsCount > 0 then 2 else 0)
  let (copy, h) ← invokePrepare c args h
  let h ← prog c.funcTable index c.capTuple copy res h
  invokeFinish p copy h

/-- `capture_update_reference_count` (entry 0) and `capture_update_alias_count` (entry 1),
callables.rs:163-189.  `mem t i` is entry `i` of memory management table `t`, `none` for a null entry;
table 0 is the null pointer. -/
def captureUpdate (mem : ℕ → ℕ → Option (Addr → ℤ → Heap → Except Fault Heap)) (entry : ℕ) (p : Addr)
    (update : ℤ) (h : Heap) : Except Fault Heap := do
  let c ← readCallable p h
  if c.memTable = 0 then return h
  else match mem c.memTable entry with
    | none => return h
    | some f => f c.capTuple update h

end Heap
end Qir.Std
