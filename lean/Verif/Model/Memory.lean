import Mathlib.Data.List.Basic
import Mathlib.Logic.Function.Basic
import Mathlib.Data.Nat.Notation

/-!
# `__quantum__rt__memory_allocate` (`stdlib/src/lib.rs`)

The memory of the process is a map from addresses to bytes.  What the allocator of the system decides (which address it
hands out, or that there is no space) is part of the event.  The rest of the process, with the objects of `stdlib` behind
`Rc`, takes, writes and frees blocks of its own.  `vec![0_u8; n]` asks for zeroed memory: the zeros are written by
`memoryAllocate` itself.  An address space has `bits` bits, of which `usize` has as many.
-/

namespace Qir
namespace Mem

/-- A block: its first address and its size. No counterpart in /repo: `Layout` of the standard library, behind
stdlib/src/lib.rs:75-78. -/
abbrev Block := ℕ × ℕ

/-- The memory, the blocks that the program has been given for good, in order, and the other blocks in use. No counterpart in
/repo, see stdlib/src/lib.rs:73-81. -/
structure Machine where
  byte : ℕ → UInt8
  leaked : List Block
  owned : List Block

/-- How a call ends the process: `expect`, stdlib/src/lib.rs:76-77; the panic of `vec!` for more than `isize::MAX` bytes and
the abort of the standard library when the allocator has no space, behind lib.rs:75; `undefined` is an access through a
pointer that was never handed out. -/
inductive Fault
  | tooLarge
  | capacity
  | exhausted
  | undefined
deriving DecidableEq

/-- Zeros in a block. stdlib/src/lib.rs:75. -/
def clear (a n : ℕ) (f : ℕ → UInt8) : ℕ → UInt8 := fun p => if a ≤ p ∧ p < a + n then 0 else f p

/-- `__quantum__rt__memory_allocate`, stdlib/src/lib.rs:73-81.  An empty vector has no memory; its pointer is the alignment
of `u8`, which is 1.  `leak`: nothing frees the block. -/
def memoryAllocate (bits size : ℕ) (choice : Option ℕ) (m : Machine) : Except Fault (ℕ × Machine) :=
  if 2 ^ bits ≤ size then .error .tooLarge
  else if 2 ^ (bits - 1) ≤ size then .error .capacity
  else if size = 0 then .ok (1, { m with leaked := m.leaked ++ [(1, 0)] })
  else match choice with
    | none => .error .exhausted
    | some a => .ok (a, { m with byte := clear a size m.byte, leaked := m.leaked ++ [(a, size)] })

/-- What happens in a process: the program allocates, writes and reads the `i`-th byte of the `k`-th block it was given; the
rest of the process takes, writes and frees blocks. stdlib/src/lib.rs:73-81 and e.g. stdlib/src/arrays.rs:31. -/
inductive Event
  | allocate (size : ℕ) (choice : Option ℕ)
  | store (k i : ℕ) (v : UInt8)
  | load (k i : ℕ)
  | take (size a : ℕ)
  | write (j i : ℕ) (v : UInt8)
  | free (j : ℕ)

/-- One event; the byte that is read, if it is a read. stdlib/src/lib.rs:73-81. -/
def step (bits : ℕ) : Event → Machine → Except Fault (Option UInt8 × Machine)
  | .allocate size choice, m => do
    let (_, m) ← memoryAllocate bits size choice m
    return (none, m)
  | .store k i v, m =>
    match m.leaked[k]? with
    | some b => .ok (none, { m with byte := Function.update m.byte (b.1 + i) v })
    | none => .error .undefined
  | .load k i, m =>
    match m.leaked[k]? with
    | some b => .ok (some (m.byte (b.1 + i)), m)
    | none => .error .undefined
  | .take size a, m => .ok (none, { m with owned := m.owned ++ [(a, size)] })
  | .write j i v, m =>
    match m.owned[j]? with
    | some b => .ok (none, { m with byte := Function.update m.byte (b.1 + i) v })
    | none => .error .undefined
  | .free j, m => .ok (none, { m with owned := m.owned.eraseIdx j })

/-- A history; the first fault ends it. stdlib/src/lib.rs:73-81. -/
def run (bits : ℕ) : List Event → Machine → Except Fault (List UInt8 × Machine)
  | [], m => .ok ([], m)
  | e :: es, m => do
    let (o, m) ← step bits e m
    let (os, m) ← run bits es m
    return (o.toList ++ os, m)

end Mem
end Qir
