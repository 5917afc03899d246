import Verif.Model.IMap
import Mathlib.Data.List.Sort
import Mathlib.Data.List.Nodup

/-! Helper facts about `IMap`. -/

namespace Qir.IMap
variable {V : Type}

@[simp] theorem get_empty (k : ℕ) : (empty : IMap V).get k = none := by simp [empty, get]

theorem containsKey_eq (m : IMap V) (k : ℕ) : m.containsKey k = (m.get k).isSome := by
  unfold containsKey get
  cases h : m.vals[k]? <;> simp

theorem get_resize (m : IMap V) (i k : ℕ) : (m.resize i).get k = m.get k := by
  unfold resize get
  split
  · rename_i h
    simp only [List.getElem?_append]
    split
    · rfl
    · rename_i h2
      rw [List.getElem?_replicate]
      have : m.vals[k]? = none := by simpa using h2
      rw [this]
      split <;> rfl
  · rfl

theorem length_resize (m : IMap V) (i : ℕ) : i < (m.resize i).vals.length := by
  unfold resize
  split
  · simp; omega
  · omega

theorem get_insert (m : IMap V) (i k : ℕ) (v : V) :
    (m.insert i v).get k = if k = i then some v else m.get k := by
  have hl := length_resize m i
  have hr := get_resize m i k
  unfold insert
  unfold get at hr ⊢
  simp only [List.getElem?_set]
  split
  · rename_i h; subst h; simp [hl]
  · rename_i h
    rw [if_neg (Ne.symm h), hr]

theorem get_set (m : IMap V) (i k : ℕ) (o : Option V) (hi : i < m.vals.length) :
    (⟨m.vals.set i o⟩ : IMap V).get k = if k = i then o else m.get k := by
  unfold get
  simp only [List.getElem?_set]
  split
  · rename_i h; subst h; simp [hi]
  · rename_i h; rw [if_neg (Ne.symm h)]

theorem get_remove (m : IMap V) (i k : ℕ) :
    (m.remove i).get k = if k = i then none else m.get k := by
  unfold remove
  split
  · rename_i h; rw [get_set _ _ _ _ h]
  · rename_i h
    split
    · rename_i h2; subst h2
      unfold get
      rw [List.getElem?_eq_none (by omega)]; rfl
    · rfl

theorem get_modify (m : IMap V) (i k : ℕ) (f : V → V) :
    (m.modify i f).get k = if k = i then (m.get i).map f else m.get k := by
  unfold modify
  split
  · rename_i v h
    have hi : i < m.vals.length := by
      by_contra hc
      rw [List.getElem?_eq_none (by omega)] at h
      cases h
    rw [get_set _ _ _ _ hi]
    have : m.get i = some v := by unfold get; rw [h]; rfl
    rw [this]; rfl
  · rename_i h
    have : m.get i = none := by
      unfold get
      cases h2 : m.vals[i]? with
      | none => rfl
      | some o => cases o with
        | none => rfl
        | some v => exact absurd h2 (h v)
    split
    · rename_i h2; rw [h2, this]; rfl
    · rfl

theorem get_modify_same (m : IMap V) (i : ℕ) (f : V → V) :
    (m.modify i f).get i = (m.get i).map f := by simp [get_modify]

theorem mem_iterFrom (l : List (Option V)) (i k : ℕ) (v : V) :
    (k, v) ∈ iterFrom i l ↔ i ≤ k ∧ l[k - i]? = some (some v) := by
  induction l generalizing i with
  | nil => simp [iterFrom]
  | cons o t ih =>
    cases o with
    | none =>
      simp only [iterFrom]
      rw [ih]
      constructor
      · rintro ⟨h1, h2⟩
        refine ⟨by omega, ?_⟩
        rw [show k - i = (k - (i + 1)) + 1 by omega]; simpa using h2
      · rintro ⟨h1, h2⟩
        have hk : k ≠ i := by rintro rfl; simp at h2
        refine ⟨by omega, ?_⟩
        rw [show k - i = (k - (i + 1)) + 1 by omega] at h2; simpa using h2
    | some w =>
      simp only [iterFrom, List.mem_cons]
      rw [ih]
      constructor
      · rintro (h | ⟨h1, h2⟩)
        · cases h; simp
        · refine ⟨by omega, ?_⟩
          rw [show k - i = (k - (i + 1)) + 1 by omega]; simpa using h2
      · rintro ⟨h1, h2⟩
        by_cases hk : k = i
        · subst hk; simp at h2; left; rw [h2]
        · right
          refine ⟨by omega, ?_⟩
          rw [show k - i = (k - (i + 1)) + 1 by omega] at h2; simpa using h2

theorem mem_iter (m : IMap V) (k : ℕ) (v : V) : (k, v) ∈ m.iter ↔ m.get k = some v := by
  unfold iter get
  rw [mem_iterFrom]
  simp [Option.join_eq_some_iff]

theorem iterFrom_sorted (l : List (Option V)) (i : ℕ) :
    ((iterFrom i l).map Prod.fst).Pairwise (· < ·) := by
  induction l generalizing i with
  | nil => simp [iterFrom]
  | cons o t ih =>
    cases o with
    | none => simpa [iterFrom] using ih (i + 1)
    | some w =>
      simp only [iterFrom, List.map_cons, List.pairwise_cons]
      refine ⟨?_, ih (i + 1)⟩
      intro a ha
      rw [List.mem_map] at ha
      obtain ⟨⟨k, v⟩, hm, rfl⟩ := ha
      have := ((mem_iterFrom _ _ _ _).1 hm).1
      simp only; omega

/-- The keys in iteration order. -/
def keys (m : IMap V) : List ℕ := m.iter.map Prod.fst

theorem keys_sorted (m : IMap V) : m.keys.Pairwise (· < ·) := iterFrom_sorted _ _

theorem keys_nodup (m : IMap V) : m.keys.Nodup :=
  (keys_sorted m).imp (fun h => Nat.ne_of_lt h)

theorem mem_keys (m : IMap V) (k : ℕ) : k ∈ m.keys ↔ (m.get k).isSome := by
  unfold keys
  rw [List.mem_map, Option.isSome_iff_exists]
  constructor
  · rintro ⟨⟨a, v⟩, h, rfl⟩; exact ⟨v, (mem_iter _ _ _).1 h⟩
  · rintro ⟨v, h⟩; exact ⟨(k, v), (mem_iter _ _ _).2 h, rfl⟩

theorem keys_congr {W : Type} (m : IMap V) (m' : IMap W)
    (h : ∀ k, (m.get k).isSome = (m'.get k).isSome) : m.keys = m'.keys := by
  apply List.Perm.eq_of_pairwise (le := (· < ·))
  · intro a b _ _ h1 h2; omega
  · exact keys_sorted m
  · exact keys_sorted m'
  · rw [List.perm_ext_iff_of_nodup (keys_nodup m) (keys_nodup m')]
    intro a; rw [mem_keys, mem_keys, h]

theorem values_iterFrom (l : List (Option V)) (i : ℕ) :
    (iterFrom i l).map Prod.snd = l.filterMap id := by
  induction l generalizing i with
  | nil => rfl
  | cons o t ih =>
    cases o with
    | none => simpa [iterFrom] using ih (i + 1)
    | some w => simp [iterFrom, ih (i + 1)]

theorem values_eq (m : IMap V) : m.values = m.iter.map Prod.snd := (values_iterFrom _ _).symm

end Qir.IMap
