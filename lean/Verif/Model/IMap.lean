import Mathlib.Data.List.Basic

/-!
# Model of `sparsesim/src/index_map.rs`

`IndexMap<K, V>` is a `Vec<Option<V>>` indexed by the key.  Keys are `usize`, modelled as `ℕ`
(overflow of `index + 1` and memory exhaustion are not modelled).  Mutating methods return the
new map.
-/

namespace Qir

/-- `IndexMap`, sparsesim/src/index_map.rs:13-16 (the phantom key type is dropped). -/
structure IMap (V : Type) where
  vals : List (Option V)

namespace IMap
variable {V : Type}

/-- `IndexMap::new` / `with_capacity`, index_map.rs:37-47 (capacity is not observable). -/
def empty : IMap V := ⟨[]⟩

/-- `IndexMap::is_empty`, index_map.rs:50-52. -/
def isEmpty (m : IMap V) : Bool := m.vals.all Option.isNone

/-- The loop shared by `Iter::next`, `Drain::next`, `IntoIter::next` (index_map.rs:222-293): skip
empty slots, yield the position and the value. -/
def iterFrom : ℕ → List (Option V) → List (ℕ × V)
  | _, [] => []
  | i, none :: t => iterFrom (i + 1) t
  | i, some v :: t => (i, v) :: iterFrom (i + 1) t

/-- `IndexMap::iter`, index_map.rs:57-62. -/
def iter (m : IMap V) : List (ℕ × V) := iterFrom 0 m.vals

/-- The loop of `Iter::next_back` (index_map.rs:239-247), run on the reversed slots: `n` is the
number of slots still in front. -/
def iterBackFrom : ℕ → List (Option V) → List (ℕ × V)
  | _, [] => []
  | n, none :: t => iterBackFrom (n - 1) t
  | n, some v :: t => (n - 1, v) :: iterBackFrom (n - 1) t

/-- `IndexMap::iter().rev()`, index_map.rs:239-247. -/
def iterRev (m : IMap V) : List (ℕ × V) := iterBackFrom m.vals.length m.vals.reverse

/-- `IndexMap::drain`, index_map.rs:73-78: yields the entries and leaves the map empty. -/
def drain (m : IMap V) : List (ℕ × V) × IMap V := (iterFrom 0 m.vals, ⟨[]⟩)

/-- `IndexMap::values`, index_map.rs:81-85 and 299-309. -/
def values (m : IMap V) : List V := m.vals.filterMap id

/-- The loop body of `IndexMap::retain`, index_map.rs:98-107. -/
def retainFrom (f : ℕ → V → Bool) : ℕ → List (Option V) → List (Option V)
  | _, [] => []
  | i, none :: t => none :: retainFrom f (i + 1) t
  | i, some v :: t => (if !f i v then none else some v) :: retainFrom f (i + 1) t

/-- `IndexMap::retain`, index_map.rs:93-108 (the closure is taken to be pure). -/
def retain (m : IMap V) (f : ℕ → V → Bool) : IMap V := ⟨retainFrom f 0 m.vals⟩

/-- `IndexMap::clear`, index_map.rs:110-112. -/
def clear (_m : IMap V) : IMap V := ⟨[]⟩

/-- The resizing step of `insert` and `get_mut_or_default`, index_map.rs:25-27, 118-120. -/
def resize (m : IMap V) (index : ℕ) : IMap V :=
  if index ≥ m.vals.length then
    ⟨m.vals ++ List.replicate (index + 1 - m.vals.length) none⟩
  else m

/-- `IndexMap::insert`, index_map.rs:116-122. -/
def insert (m : IMap V) (index : ℕ) (value : V) : IMap V :=
  ⟨(m.resize index).vals.set index (some value)⟩

/-- `IndexMap::get`, index_map.rs:129-132. -/
def get (m : IMap V) (index : ℕ) : Option V := (m.vals[index]?).join

/-- `IndexMap::contains_key`, index_map.rs:124-127. -/
def containsKey (m : IMap V) (index : ℕ) : Bool :=
  match m.vals[index]? with
  | some slot => slot.isSome
  | none => false

/-- `if let Some(entry) = map.get_mut(key) { *entry = f(*entry) }`, the only way `get_mut`
(index_map.rs:134-137) is used; nothing happens when the key is absent. -/
def modify (m : IMap V) (index : ℕ) (f : V → V) : IMap V :=
  match m.vals[index]? with
  | some (some v) => ⟨m.vals.set index (some (f v))⟩
  | _ => m

/-- `IndexMap::remove`, index_map.rs:139-144. -/
def remove (m : IMap V) (index : ℕ) : IMap V :=
  if index < m.vals.length then ⟨m.vals.set index none⟩ else m

/-- `IndexMap::get_mut_or_default` followed by writing `f` of the entry, index_map.rs:23-32;
`dflt` stands for `V::default()`. -/
def modifyOrDefault (m : IMap V) (index : ℕ) (dflt : V) (f : V → V) : IMap V :=
  let m' := m.resize index
  match m'.vals[index]? with
  | some (some v) => ⟨m'.vals.set index (some (f v))⟩
  | _ => ⟨m'.vals.set index (some (f dflt))⟩

/-- `FromIterator::from_iter`, index_map.rs:204-215. -/
def fromIter (l : List (ℕ × V)) : IMap V := l.foldl (fun m p => m.insert p.1 p.2) empty

end IMap
end Qir
