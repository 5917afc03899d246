import Verif.Model.IMap
import Verif.Proof.IMap
import Mathlib.Data.List.Induction

/-!
# C23: `IndexMap` behaves as a finite map

The specification is a partial function `ℕ → Option V`, changed by the obvious point updates.
-/

namespace Qir.IMapSpec
variable {V : Type}

/-- The mutating calls of `IndexMap`. -/
inductive Op (V : Type)
  | insert (k : ℕ) (v : V)
  | remove (k : ℕ)
  | getMut (k : ℕ) (f : V → V)
  | getMutOrDefault (k : ℕ) (dflt : V) (f : V → V)
  | retain (p : ℕ → V → Bool)
  | clear
  | drain

/-- What each call does to a mathematical partial function. -/
def specStep (g : ℕ → Option V) : Op V → (ℕ → Option V)
  | .insert k v => fun j => if j = k then some v else g j
  | .remove k => fun j => if j = k then none else g j
  | .getMut k f => fun j => if j = k then (g k).map f else g j
  | .getMutOrDefault k d f => fun j => if j = k then some (f ((g k).getD d)) else g j
  | .retain p => fun j => (g j).filter (p j)
  | .clear => fun _ => none
  | .drain => fun _ => none

/-- The model's version of each call. -/
def modelStep (m : IMap V) : Op V → IMap V
  | .insert k v => m.insert k v
  | .remove k => m.remove k
  | .getMut k f => m.modify k f
  | .getMutOrDefault k d f => m.modifyOrDefault k d f
  | .retain p => m.retain p
  | .clear => m.clear
  | .drain => m.drain.2

/-- The partial function after a sequence of calls on an empty map. -/
def specRun (ops : List (Op V)) : ℕ → Option V := ops.foldl specStep (fun _ => none)

/-- The `IndexMap` after the same calls. -/
def modelRun (ops : List (Op V)) : IMap V := ops.foldl modelStep IMap.empty

end Qir.IMapSpec

namespace Qir.IMap
variable {V : Type}

theorem get_modifyOrDefault (m : IMap V) (i k : ℕ) (d : V) (f : V → V) :
    (m.modifyOrDefault i d f).get k = if k = i then some (f ((m.get i).getD d)) else m.get k := by
  have hl := length_resize m i
  have hi := get_resize m i i
  have hk := get_resize m i k
  unfold modifyOrDefault
  simp only
  split
  · rename_i v h
    rw [get_set _ _ _ _ hl, hk]
    have : m.get i = some v := by rw [← hi]; simp [get, h]
    simp [this]
  · rename_i h
    rw [get_set _ _ _ _ hl, hk]
    have : m.get i = none := by
      rw [← hi]
      unfold get
      cases h' : (m.resize i).vals[i]? with
      | none => rfl
      | some o =>
        cases o with
        | none => rfl
        | some v => exact absurd h' (h v)
    simp [this]

theorem getElem?_retainFrom (f : ℕ → V → Bool) (l : List (Option V)) (i k : ℕ) :
    ((retainFrom f i l)[k]?).join = ((l[k]?).join).filter (f (i + k)) := by
  induction l generalizing i k with
  | nil => simp [retainFrom]
  | cons o t ih =>
    cases k with
    | zero =>
      cases o with
      | none => simp [retainFrom]
      | some v => cases h : f i v <;> simp [retainFrom, h, Option.filter]
    | succ k =>
      have := ih (i + 1) k
      rw [show i + 1 + k = i + (k + 1) by omega] at this
      cases o <;> simpa [retainFrom] using this

theorem get_retain (m : IMap V) (f : ℕ → V → Bool) (k : ℕ) :
    (m.retain f).get k = (m.get k).filter (f k) := by
  have := getElem?_retainFrom f m.vals 0 k
  simpa [retain, get] using this

theorem isEmpty_iff (m : IMap V) : m.isEmpty = true ↔ ∀ k, m.get k = none := by
  unfold isEmpty get
  rw [List.all_eq_true]
  constructor
  · intro h k
    cases h' : m.vals[k]? with
    | none => rfl
    | some o =>
      have := h o (List.mem_of_getElem? h')
      simp only [Option.isNone_iff_eq_none] at this
      subst this; rfl
  · intro h o ho
    obtain ⟨k, hk⟩ := List.mem_iff_getElem?.1 ho
    have := h k
    rw [hk] at this
    cases o with
    | none => rfl
    | some v => simp at this

theorem iterFrom_append (l t : List (Option V)) (i : ℕ) :
    iterFrom i (l ++ t) = iterFrom i l ++ iterFrom (i + l.length) t := by
  induction l generalizing i with
  | nil => rfl
  | cons o l ih =>
    have h : i + (o :: l).length = i + 1 + l.length := by simp; omega
    rw [h]
    cases o <;> simp [iterFrom, ih]

theorem iterBackFrom_reverse (l : List (Option V)) :
    iterBackFrom l.length l.reverse = (iterFrom 0 l).reverse := by
  induction l using List.reverseRecOn with
  | nil => rfl
  | append_singleton l o ih =>
    rw [iterFrom_append, List.reverse_append, List.reverse_append, List.length_append]
    cases o with
    | none => simpa [iterBackFrom, iterFrom] using ih
    | some v => simpa [iterBackFrom, iterFrom] using ih

end Qir.IMap

namespace Qir
open IMapSpec
variable {V : Type}

theorem get_modelRun (ops : List (Op V)) (k : ℕ) : (modelRun ops).get k = specRun ops k := by
  induction ops using List.reverseRecOn generalizing k with
  | nil => simp [modelRun, specRun]
  | append_singleton ops op ih =>
    have h1 : modelRun (ops ++ [op]) = modelStep (modelRun ops) op := by simp [modelRun]
    have h2 : specRun (ops ++ [op]) = specStep (specRun ops) op := by simp [specRun]
    rw [h1, h2]
    cases op with
    | insert i v => simp only [modelStep, specStep, IMap.get_insert, ih]
    | remove i => simp only [modelStep, specStep, IMap.get_remove, ih]
    | getMut i f => simp only [modelStep, specStep, IMap.get_modify, ih]
    | getMutOrDefault i d f => simp only [modelStep, specStep, IMap.get_modifyOrDefault, ih]
    | retain p => simp only [modelStep, specStep, IMap.get_retain, ih]
    | clear => simp [modelStep, specStep, IMap.clear, IMap.get]
    | drain => simp [modelStep, specStep, IMap.drain, IMap.get]

/-- **C23.** After any sequence of mutating calls on a new map, every observation of the
`IndexMap` is the corresponding observation of the partial function built by point updates:
look-up, membership, emptiness, and iteration (each entry once, in increasing key order, the same
entries for `iter`, `rev`, `drain` and `values`). -/
theorem C23_index_map_is_finite_map (ops : List (Op V)) :
    (∀ k, (modelRun ops).get k = specRun ops k) ∧
    (∀ k, (modelRun ops).containsKey k = true ↔ specRun ops k ≠ none) ∧
    ((modelRun ops).isEmpty = true ↔ ∀ k, specRun ops k = none) ∧
    (∀ k v, (k, v) ∈ (modelRun ops).iter ↔ specRun ops k = some v) ∧
    ((modelRun ops).iter.map Prod.fst).Pairwise (· < ·) ∧
    (modelRun ops).iterRev = (modelRun ops).iter.reverse ∧
    (modelRun ops).drain.1 = (modelRun ops).iter ∧
    (modelRun ops).values = (modelRun ops).iter.map Prod.snd := by
  refine ⟨get_modelRun ops, ?_, ?_, ?_, IMap.keys_sorted _, ?_, rfl, IMap.values_eq _⟩
  · intro k
    rw [IMap.containsKey_eq, get_modelRun]
    exact Option.isSome_iff_ne_none
  · rw [IMap.isEmpty_iff]; simp only [get_modelRun]
  · intro k v; rw [IMap.mem_iter, get_modelRun]
  · exact IMap.iterBackFrom_reverse _

/-- The observations of C23 determine the iteration completely: a list of entries in increasing
key order is fixed by its members. -/
theorem C23_iteration_determined (ops : List (Op V)) (l : List (ℕ × V))
    (hs : (l.map Prod.fst).Pairwise (· < ·)) (hm : ∀ k v, (k, v) ∈ l ↔ specRun ops k = some v) :
    l = (modelRun ops).iter := by
  have hp : ∀ {l : List (ℕ × V)}, (l.map Prod.fst).Pairwise (· < ·) →
      l.Pairwise (fun a b => a.1 < b.1) := fun h => List.pairwise_map.1 h
  apply List.Perm.eq_of_pairwise (le := fun a b => a.1 < b.1)
  · intro a b _ _ h1 h2; omega
  · exact hp hs
  · exact hp (IMap.keys_sorted _)
  · rw [List.perm_ext_iff_of_nodup ((hp hs).imp (by rintro a _ h rfl; omega))
      ((hp (IMap.keys_sorted _)).imp (by rintro a _ h rfl; omega))]
    rintro ⟨k, v⟩
    rw [hm, ← get_modelRun, IMap.mem_iter]

/-- **C23**, `FromIterator`: the map collected from a list is the partial function in which later
pairs win. -/
theorem C23_from_iter (l : List (ℕ × V)) (k : ℕ) :
    (IMap.fromIter l).get k = specRun (l.map (fun p => Op.insert p.1 p.2)) k := by
  rw [← get_modelRun]
  unfold IMap.fromIter modelRun
  rw [List.foldl_map]
  rfl

/-- A run with a hole, an overwritten key, a removed key and a default. -/
example : (modelRun [.insert 5 1, .insert 2 7, .insert 5 3, .getMutOrDefault 8 0 (· + 4), .remove 2,
    .getMut 5 (· + 1)] : IMap ℕ).iter = [(5, 4), (8, 4)] := by decide

end Qir
