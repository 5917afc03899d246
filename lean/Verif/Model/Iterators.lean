import Verif.Model.IMap

/-!
# The iterators of `sparsesim/src/index_map.rs`

`Model/IMap` has what a loop over an iterator yields.  Here are the iterators themselves, one request at a time, from
either end, and the iterators that hand out references to write through.
-/

namespace Qir
namespace IMap
variable {V : Type}

/-- `Iter`, `Drain` and `IntoIter`, index_map.rs:217-220, 262-265, 280-283: `Enumerate` is the number of slots already
passed at the front, the base iterator the slots that are left. -/
structure Cursor (V : Type) where
  count : ℕ
  left : List (Option V)

/-- `IndexMap::iter`, `into_iter`, index_map.rs:57-62, 186-191, 199-201. -/
def cursor (m : IMap V) : Cursor V := ⟨0, m.vals⟩

/-- The loop of `Iter::next`, `IntoIter::next`, `Drain::next`, index_map.rs:225-231, 270-276, 288-294; `self.base.next()?`
leaves the function at the end. -/
def nextFrom : ℕ → List (Option V) → Option (ℕ × V) × Cursor V
  | i, [] => (none, ⟨i, []⟩)
  | i, some v :: t => (some (i, v), ⟨i + 1, t⟩)
  | i, none :: t => nextFrom (i + 1) t

/-- `Iter::next`. sparsesim/src/index_map.rs:225-231, 269-275, 286-292. -/
def Cursor.next (c : Cursor V) : Option (ℕ × V) × Cursor V := nextFrom c.count c.left

/-- The loop of `Iter::next_back`, index_map.rs:239-246, on the reversed slots; `Enumerate::next_back` counts the slots
passed at the front and those that are still left. -/
def backFrom (i : ℕ) : List (Option V) → Option (ℕ × V) × Cursor V
  | [] => (none, ⟨i, []⟩)
  | some v :: t => (some (i + t.length, v), ⟨i, t.reverse⟩)
  | none :: t => backFrom i t

/-- `Iter::next_back`. sparsesim/src/index_map.rs:240-246. -/
def Cursor.nextBack (c : Cursor V) : Option (ℕ × V) × Cursor V := backFrom c.count c.left.reverse

/-- Requests from the front (`true`) or from the back, one after the other. sparsesim/src/index_map.rs:222-247, the
two traits of `Iter`. -/
def Cursor.requests : List Bool → Cursor V → List (Option (ℕ × V))
  | [], _ => []
  | b :: bs, c =>
    let r := if b then c.next else c.nextBack
    r.1 :: Cursor.requests bs r.2

/-- Requests to `IterMut`, index_map.rs:250-260, or `ValuesMut`, index_map.rs:313-325, each followed by a write through the
reference: the writes are given as functions of key and value. -/
def writeFrom : List (ℕ → V → V) → ℕ → List (Option V) → List (Option V)
  | [], _, l => l
  | _, _, [] => []
  | f :: fs, i, some v :: t => some (f i v) :: writeFrom fs (i + 1) t
  | fs, i, none :: t => none :: writeFrom fs (i + 1) t

/-- `IndexMap::iter_mut`, index_map.rs:66-71, with some requests and writes. -/
def iterMut (m : IMap V) (fs : List (ℕ → V → V)) : IMap V := ⟨writeFrom fs 0 m.vals⟩

/-- `IndexMap::values_mut`, index_map.rs:87-91, with some requests and writes. -/
def valuesMut (m : IMap V) (fs : List (V → V)) : IMap V := m.iterMut (fs.map fun f _ => f)

/-- `IndexMap::drain`, index_map.rs:73-78, with some requests before it is dropped, which empties the vector. -/
def drainSome (m : IMap V) (n : ℕ) : List (Option (ℕ × V)) × IMap V :=
  (m.cursor.requests (List.replicate n true), ⟨[]⟩)

/-- `Index::index`, index_map.rs:327-334; `none` is the panic. -/
def index (m : IMap V) (i : ℕ) : Option V := m.get i

/-- A write through `IndexMut::index_mut`, index_map.rs:336-341; `none` is the panic. -/
def indexSet (m : IMap V) (i : ℕ) (v : V) : Option (IMap V) :=
  match m.get i with
  | some _ => some ⟨m.vals.set i (some v)⟩
  | none => none

end IMap
end Qir
