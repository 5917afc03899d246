import Verif.Model.Iterators
import Verif.Props.IndexMap

/-!
# C67: the iterators of `IndexMap`

The specification is a list of entries that is taken apart from both ends.
-/

namespace Qir.IMapSpec
variable {V : Type}

/-- Requests from the front or the back of a list: an entry that was handed out is gone. -/
def dealt {α : Type} : List Bool → List α → List (Option α)
  | [], _ => []
  | true :: bs, l => l.head? :: dealt bs l.tail
  | false :: bs, l => l.getLast? :: dealt bs l.dropLast

/-- The first entries are changed. -/
def changed {α β : Type} : List (α → β → β) → List (α × β) → List (α × β)
  | f :: fs, x :: xs => (x.1, f x.1 x.2) :: changed fs xs
  | _, xs => xs

end Qir.IMapSpec

namespace Qir
open IMapSpec IMap
variable {V : Type}

theorem nextFrom_spec : ∀ (i : ℕ) (l : List (Option V)), (nextFrom i l).1 = (iterFrom i l).head? ∧
    iterFrom (nextFrom i l).2.count (nextFrom i l).2.left = (iterFrom i l).tail
  | _, [] => ⟨rfl, rfl⟩
  | _, some _ :: _ => ⟨rfl, rfl⟩
  | i, none :: t => nextFrom_spec (i + 1) t

theorem backFrom_spec (i : ℕ) : ∀ l : List (Option V), (backFrom i l).1 = (iterFrom i l.reverse).getLast? ∧
    iterFrom (backFrom i l).2.count (backFrom i l).2.left = (iterFrom i l.reverse).dropLast
  | [] => ⟨rfl, rfl⟩
  | some v :: t => by
    rw [List.reverse_cons, iterFrom_append, List.length_reverse]
    simp [backFrom, iterFrom]
  | none :: t => by
    rw [List.reverse_cons, iterFrom_append]
    simpa [backFrom, iterFrom] using backFrom_spec i t

theorem requests_spec : ∀ (bs : List Bool) (c : Cursor V), c.requests bs = dealt bs (iterFrom c.count c.left)
  | [], _ => rfl
  | true :: bs, c => by
    obtain ⟨h1, h2⟩ := nextFrom_spec c.count c.left
    simp only [Cursor.requests, dealt, if_true, Cursor.next, h1, requests_spec bs, h2]
  | false :: bs, c => by
    obtain ⟨h1, h2⟩ := backFrom_spec c.count c.left.reverse
    rw [List.reverse_reverse] at h1 h2
    simp only [Cursor.requests, dealt, Cursor.nextBack, h1, requests_spec bs, h2, Bool.false_eq_true, if_false]

theorem iterFrom_write : ∀ (fs : List (ℕ → V → V)) (i : ℕ) (l : List (Option V)),
    iterFrom i (writeFrom fs i l) = changed fs (iterFrom i l)
  | [], i, l => by cases h : iterFrom i l <;> simp [writeFrom, changed, h]
  | f :: fs, i, [] => rfl
  | f :: fs, i, some v :: t => by simp only [writeFrom, iterFrom, changed, iterFrom_write fs (i + 1) t]
  | f :: fs, i, none :: t => by simp only [writeFrom, iterFrom, iterFrom_write (f :: fs) (i + 1) t]

/-! ### C67 -/

/-- **C67**.  Requests to an iterator from both ends, in any order and number, hand out the entries of the map as if taken
from a list of them in increasing order of the keys: each at most once, and nothing when there are none left. -/
theorem C67_requests (ops : List (Op V)) (bs : List Bool) :
    (modelRun ops).cursor.requests bs = dealt bs (modelRun ops).iter := requests_spec bs _

/-- What `dealt` hands out, told by the numbers of requests: those from the front get the first entries in order, those
from the back the last ones in reverse order, as long as there are entries. -/
theorem dealt_get {α : Type} : ∀ (bs : List Bool) (l : List α) (k : ℕ) (b : Bool), bs[k]? = some b →
    (dealt bs l)[k]? = some (if k < l.length then
      (if b then l[(bs.take k).count true]? else l.reverse[(bs.take k).count false]?) else none)
  | [], l, k, b, h => by simp at h
  | c :: bs, l, 0, b, h => by
    cases h
    cases l with
    | nil => cases c <;> rfl
    | cons x xs =>
      cases c
      · simp [dealt, List.getLast?_eq_head?_reverse, List.head?_eq_getElem?]
      · simp [dealt]
  | true :: bs, l, k + 1, b, h => by
    have := dealt_get bs l.tail k b (by simpa using h)
    simp only [dealt, List.getElem?_cons_succ, this, List.take_succ_cons, List.count_cons, beq_self_eq_true, if_true,
      List.length_tail]
    cases l with
    | nil => simp
    | cons x xs =>
      by_cases hk : k < xs.length
      · cases b with
        | true => simp [hk]
        | false =>
          have hc : (bs.take k).count false < xs.length :=
            lt_of_le_of_lt (List.count_le_length.trans (by simp)) hk
          simp [hk, List.getElem?_append_left, hc]
      · simp [hk]
  | false :: bs, l, k + 1, b, h => by
    have := dealt_get bs l.dropLast k b (by simpa using h)
    simp only [dealt, List.getElem?_cons_succ, this, List.take_succ_cons, List.count_cons, beq_self_eq_true, if_true,
      List.length_dropLast]
    rcases List.eq_nil_or_concat l with rfl | ⟨xs, x, rfl⟩
    · simp
    · by_cases hk : k < xs.length
      · cases b with
        | false => simp [hk]
        | true =>
          have hc : (bs.take k).count true < xs.length :=
            lt_of_le_of_lt (List.count_le_length.trans (by simp)) hk
          simp [hk, List.getElem?_append_left, hc]
      · simp [hk]

/-- **C67**, request by request. -/
theorem C67_request (ops : List (Op V)) (bs : List Bool) (k : ℕ) (b : Bool) (h : bs[k]? = some b) :
    ((modelRun ops).cursor.requests bs)[k]? = some (if k < (modelRun ops).iter.length then
      (if b then (modelRun ops).iter[(bs.take k).count true]?
        else (modelRun ops).iter.reverse[(bs.take k).count false]?) else none) := by
  rw [C67_requests]
  exact dealt_get bs _ k b h

/-- **C67**, `iter_mut` and `values_mut`: writes through the first references handed out change the values of the entries with the
least keys, and nothing else. -/
theorem C67_writes (ops : List (Op V)) (fs : List (ℕ → V → V)) :
    ((modelRun ops).iterMut fs).iter = changed fs (modelRun ops).iter := iterFrom_write fs 0 _

/-- **C67**, `values_mut`. -/
theorem C67_values (ops : List (Op V)) (fs : List (V → V)) :
    ((modelRun ops).valuesMut fs).iter = changed (fs.map fun f _ => f) (modelRun ops).iter := iterFrom_write _ 0 _

/-- **C67**, `drain`: whatever has been asked for before the iterator is dropped, the map is empty afterwards. -/
theorem C67_drain (ops : List (Op V)) (n : ℕ) : ((modelRun ops).drainSome n).1 = dealt (List.replicate n true) (modelRun ops).iter ∧
    ∀ k, ((modelRun ops).drainSome n).2.get k = none := ⟨C67_requests ops _, fun _ => rfl⟩

/-- **C67**, indexing: it panics unless the key is there; a write changes that entry only. -/
theorem C67_index (ops : List (Op V)) (i : ℕ) (v : V) : (modelRun ops).index i = specRun ops i ∧
    (specRun ops i = none → (modelRun ops).indexSet i v = none) ∧
    (specRun ops i ≠ none → ∃ m, (modelRun ops).indexSet i v = some m ∧
      ∀ k, m.get k = if k = i then some v else specRun ops k) := by
  refine ⟨get_modelRun ops i, fun h => ?_, fun h => ?_⟩
  · unfold indexSet; rw [get_modelRun, h]
  · have h1 := get_modelRun ops i
    obtain ⟨u, hu⟩ := Option.ne_none_iff_exists'.1 h
    rw [hu] at h1
    refine ⟨_, by unfold indexSet; rw [h1], fun k => ?_⟩
    rw [← get_modelRun ops k]
    have hi : i < (modelRun ops).vals.length := by
      by_contra hn
      rw [IMap.get, List.getElem?_eq_none (by omega)] at h1
      cases h1
    unfold IMap.get
    dsimp only
    by_cases hk : k = i
    · subst hk; simp [hi]
    · rw [if_neg hk, List.getElem?_set_ne (fun h => hk h.symm)]

/-- Two from the front, one from the back, and then there are no more. -/
example : (modelRun [.insert 5 1, .insert 2 7, .insert 8 3, .remove 4] : IMap ℕ).cursor.requests [true, false, true, false, true] =
    [some (2, 7), some (8, 3), some (5, 1), none, none] := by decide

/-- The first two entries are changed. -/
example : ((modelRun [.insert 5 1, .insert 2 7, .insert 8 3] : IMap ℕ).iterMut [fun k v => k + v, fun _ v => 2 * v]).iter =
    [(2, 9), (5, 2), (8, 3)] := by decide

end Qir
