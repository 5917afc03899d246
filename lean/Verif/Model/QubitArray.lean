import Verif.Model.Backend
import Verif.Model.Heap

/-!
# Arrays of qubits

Model of `__quantum__rt__qubit_allocate_array` and `__quantum__rt__qubit_release_array`,
backend/src/lib.rs 948-983, on the backend and the real heap together.

Simplifications.  A pointer has 64 bits and is stored with the lowest byte first, as on the usual targets.
Identifiers of qubits are natural numbers; as `usize` holds 64 bits, numbers from `2^64` on are cut off when
they are stored.  Computing the address of an element and the access through it are one step.
-/

noncomputable section
namespace Qir
open Spec Sim Out Qir.Std
namespace Back

/-- The process: the state of the backend and the heap of runtime objects. backend/src/lib.rs:43-49 and the objects
of stdlib/src/arrays.rs:16-31. -/
structure Rt where
  dev : Backend
  heap : Heap

/-- How a call can end the process, or leave what the language defines. backend/src/lib.rs:953-992. -/
inductive Halt
  | heap (f : Fault)
  | dev (s : Stop)

/-- A heap operation as part of the process. backend/src/lib.rs:954, 962, 977-981. -/
def liftHeap {α : Type} (r : Except Fault α) : Except Halt α :=
  match r with
  | .ok a => .ok a
  | .error f => .error (.heap f)

/-- A backend operation as part of the process. backend/src/lib.rs:963, 979. -/
def liftDev {α : Type} (r : Except Stop α) : Except Halt α :=
  match r with
  | .ok a => .ok a
  | .error f => .error (.dev f)

/-- The `k` lowest bytes of a number, lowest byte first. A pointer in memory, backend/src/lib.rs:963. -/
def leBytes : ℕ → ℕ → List UInt8
  | 0, _ => []
  | k + 1, n => UInt8.ofNat (n % 256) :: leBytes k (n / 256)

/-- The number with these bytes. A pointer in memory, backend/src/lib.rs:979. -/
def leWord : List UInt8 → ℕ
  | [] => 0
  | b :: bs => b.toNat + 256 * leWord bs

/-- The loop of `qubit_allocate_array`, lib.rs 959-964, from `index` on, with `k` rounds to go. -/
def fillArray (p : ℕ) : ℕ → ℕ → Rt → Except Halt Rt
  | 0, _, m => .ok m
  | k + 1, index, m => do
    let (q, dev) := qubitAllocate m.dev
    let heap ← liftHeap (Heap.arrayStore p index (leBytes 8 q) m.heap)
    fillArray p k (index + 1) ⟨dev, heap⟩

/-- `__quantum__rt__qubit_allocate_array`, lib.rs 953-966. -/
def qubitAllocateArray (size : ℕ) (m : Rt) : Except Halt (ℕ × Rt) := do
  let (p, heap) := Heap.arrayCreate 8 size m.heap
  let m ← fillArray p size 0 ⟨m.dev, heap⟩
  return (p, m)

/-- The loop of `qubit_release_array`, lib.rs 977-980. -/
def emptyArray (env : Env) (p : ℕ) : ℕ → ℕ → Rt → Except Halt Rt
  | 0, _, m => .ok m
  | k + 1, index, m => do
    let w ← liftHeap (Heap.arrayLoad p index m.heap)
    let dev ← liftDev (qubitRelease env (leWord w) m.dev)
    emptyArray env p k (index + 1) ⟨dev, m.heap⟩

/-- `__quantum__rt__qubit_release_array`, lib.rs 975-983. -/
def qubitReleaseArray (env : Env) (p : ℕ) (m : Rt) : Except Halt Rt := do
  let n ← liftHeap (Heap.arrayGetSize p m.heap)
  let m ← emptyArray env p n 0 m
  let heap ← liftHeap (Heap.arrayUpdateAlias p (-1) m.heap)
  return ⟨m.dev, heap⟩

end Back
end Qir
