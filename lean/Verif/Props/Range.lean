import Verif.Model.Range
import Verif.Props.Heap
import Verif.Proof.Text
import Mathlib.Tactic.Ring
import Mathlib.Tactic.Linarith
import Mathlib.Tactic.Positivity
import Mathlib.Data.Int.Order.Basic

/-!
# C34, C43: slicing and the text of ranges
-/

namespace Qir.Std
open Heap

theorem stepBy_get {α : Type} (n : ℕ) (hn : 0 < n) : ∀ (m : ℕ) (l : List α), l.length ≤ m → ∀ k,
    (stepBy n l)[k]? = l[k * n]?
  | m, [], _, k => by simp [stepBy]
  | 0, a :: l, hl, k => by simp at hl
  | m + 1, a :: l, hl, 0 => by simp [stepBy]
  | m + 1, a :: l, hl, k + 1 => by
    rw [stepBy, List.getElem?_cons_succ, stepBy_get n hn m _ (by simp at *; omega), List.getElem?_drop]
    have : (k + 1) * n = (n - 1 + k * n) + 1 := by rw [Nat.succ_mul]; omega
    rw [this, List.getElem?_cons_succ]

theorem rangeInclusive_get (lo hi : ℤ) (j : ℕ) :
    (rangeInclusive lo hi)[j]? = if lo + j ≤ hi then some (lo + j) else none := by
  simp only [rangeInclusive, List.getElem?_map]
  split_ifs with h
  · rw [List.getElem?_range (by omega)]; rfl
  · rw [List.getElem?_eq_none (by simp; omega)]; rfl

theorem rangeInclusive_reverse_get (lo hi : ℤ) (j : ℕ) :
    (rangeInclusive lo hi).reverse[j]? = if lo ≤ hi - j then some (hi - j) else none := by
  have hlen : (rangeInclusive lo hi).length = (hi + 1 - lo).toNat := by simp [rangeInclusive]
  split_ifs with h
  · rw [List.getElem?_reverse (by omega), rangeInclusive_get, if_pos (by omega)]
    congr 1
    omega
  · rw [List.getElem?_eq_none (by simp [hlen]; omega)]

/-- The `k`-th value of the range `start..step..stop` exists. -/
def Range.Has (r : Range) (k : ℕ) : Prop :=
  (0 < r.step ∧ r.start + k * r.step ≤ r.stop) ∨ (r.step < 0 ∧ r.stop ≤ r.start + k * r.step)

instance (r : Range) (k : ℕ) : Decidable (r.Has k) := by unfold Range.Has; infer_instance

theorem sliceLoop_ok (a : QirArray) : ∀ (l : List ℤ),
    (∀ i ∈ l, 0 ≤ i ∧ i.toNat + a.elemSize ≤ a.data.length) →
    sliceLoop a l = .ok ((l.map fun i => (a.data.drop i.toNat).take a.elemSize).flatten)
  | [], _ => rfl
  | i :: l, hl => by
    obtain ⟨h1, h2⟩ := hl i (by simp)
    simp [sliceLoop, sliceItem, not_lt.mpr h1, h2, sliceLoop_ok a l fun i hi => hl i (by simp [hi]), bind,
      Except.bind, pure, Except.pure]

theorem sliceLoop_panic (a : QirArray) : ∀ (l : List ℤ) (i : ℤ), i ∈ l →
    ¬ (0 ≤ i ∧ i.toNat + a.elemSize ≤ a.data.length) → sliceLoop a l = .error .panic
  | j :: l, i, hi, hb => by
    simp only [sliceLoop, sliceItem, bind, Except.bind, pure, Except.pure]
    split_ifs with h1 h2
    · rfl
    · simp only
      have : i ∈ l := by
        rcases List.mem_cons.mp hi with rfl | h3
        · exact absurd ⟨by omega, h2⟩ hb
        · exact h3
      rw [sliceLoop_panic a l i this hb]
    · rfl

/-- The values visited by the loop. -/
theorem slice_iter (sz : ℕ) (hsz : 0 < sz) (r : Range) (hs : r.step ≠ 0) (k : ℕ) :
    (stepBy (|r.step| * sz).toNat
      (if r.step > 0 then rangeInclusive (r.start * sz) (r.stop * sz)
        else (rangeInclusive (r.stop * sz) (r.start * sz)).reverse))[k]? =
      if r.Has k then some ((r.start + k * r.step) * sz) else none := by
  have hsz' : (0 : ℤ) < sz := by exact_mod_cast hsz
  have hpos : 0 < |r.step| * (sz : ℤ) := mul_pos (abs_pos.mpr hs) hsz'
  rw [stepBy_get _ (by omega) _ _ (le_refl _)]
  have hcast : ((k * (|r.step| * (sz : ℤ)).toNat : ℕ) : ℤ) = k * (|r.step| * sz) := by
    rw [Nat.cast_mul, Int.toNat_of_nonneg hpos.le]
  rcases lt_or_gt_of_ne hs with h | h
  · rw [if_neg (by omega), rangeInclusive_reverse_get, hcast, abs_of_neg h]
    have e : r.start * sz - k * (-r.step * sz) = (r.start + k * r.step) * sz := by ring
    rw [e]
    have : r.stop * sz ≤ (r.start + k * r.step) * sz ↔ r.Has k := by
      rw [mul_le_mul_iff_left₀ hsz']
      simp [Range.Has, h, not_lt.mpr h.le]
    by_cases h2 : r.Has k
    · rw [if_pos h2, if_pos (this.mpr h2)]
    · rw [if_neg h2, if_neg (fun h3 => h2 (this.mp h3))]
  · rw [if_pos h, rangeInclusive_get, hcast, abs_of_pos h]
    have e : r.start * sz + k * (r.step * sz) = (r.start + k * r.step) * sz := by ring
    rw [e]
    have : (r.start + k * r.step) * sz ≤ r.stop * sz ↔ r.Has k := by
      rw [mul_le_mul_iff_left₀ hsz']
      simp [Range.Has, show 0 < r.step from h, not_lt.mpr (le_of_lt (show 0 < r.step from h))]
    by_cases h2 : r.Has k
    · rw [if_pos h2, if_pos (this.mpr h2)]
    · rw [if_neg h2, if_neg (fun h3 => h2 (this.mp h3))]

theorem flatten_length {α : Type*} (s : ℕ) : ∀ (cs : List (List α)), (∀ c ∈ cs, c.length = s) →
    cs.flatten.length = s * cs.length
  | [], _ => rfl
  | c :: cs, h => by
    rw [List.flatten_cons, List.length_append, h c (by simp), flatten_length s cs fun c hc => h c (by simp [hc]),
      List.length_cons, Nat.mul_succ, Nat.add_comm]

theorem flatten_chunk {α : Type*} (s : ℕ) : ∀ (cs : List (List α)), (∀ c ∈ cs, c.length = s) →
    ∀ k c, cs[k]? = some c → (cs.flatten.drop (s * k)).take s = c
  | [], _, k, c, hk => by simp at hk
  | d :: cs, h, 0, c, hk => by
    cases hk
    have := h d (by simp)
    simp [← this]
  | d :: cs, h, k + 1, c, hk => by
    have hd := h d (by simp)
    rw [List.flatten_cons, Nat.mul_succ, Nat.add_comm, ← List.drop_drop]
    have e : (d ++ cs.flatten).drop s = cs.flatten := by rw [← hd, List.drop_left]
    rw [e]
    exact flatten_chunk s cs (fun c hc => h c (by simp [hc])) k c (by simpa using hk)

/-- The arithmetic of the slice stays within `i64`. -/
def Range.Fits (r : Range) (sz : ℕ) : Prop :=
  (-2 ^ 63 ≤ r.start * sz ∧ r.start * sz < 2 ^ 63) ∧ (-2 ^ 63 ≤ r.stop * sz ∧ r.stop * sz < 2 ^ 63) ∧
    |r.step| * sz < 2 ^ 63

theorem i64_ok {z : ℤ} (h : -2 ^ 63 ≤ z ∧ z < 2 ^ 63) : i64 z = .ok z := if_pos h

/-- The loop that `sliceData` comes down to. -/
theorem sliceData_eq (a : QirArray) (r : Range) (hsz : 0 < a.elemSize) (hs : r.step ≠ 0)
    (hf : r.Fits a.elemSize) : ∃ l : List ℤ,
      (∀ k : ℕ, l[k]? = if r.Has k then some ((r.start + k * r.step) * a.elemSize) else none) ∧
      sliceData a r = (sliceLoop a l).map fun data => ⟨a.elemSize, data⟩ := by
  obtain ⟨h1, h2, h3⟩ := hf
  have hsz' : (1 : ℤ) ≤ a.elemSize := by exact_mod_cast hsz
  have hpos : 0 < |r.step| * (a.elemSize : ℤ) := mul_pos (abs_pos.mpr hs) (by omega)
  have h4 : |r.step| ≤ |r.step| * (a.elemSize : ℤ) := by
    nlinarith [abs_nonneg r.step]
  have h5 := abs_nonneg r.step
  refine ⟨_, slice_iter a.elemSize hsz r hs, ?_⟩
  have e1 : i64 (r.start * a.elemSize) = .ok (r.start * a.elemSize) := if_pos h1
  have e2 : i64 (r.stop * a.elemSize) = .ok (r.stop * a.elemSize) := if_pos h2
  have e3 : i64 |r.step| = .ok |r.step| := if_pos ⟨by omega, by omega⟩
  have e4 : i64 (|r.step| * a.elemSize) = .ok (|r.step| * a.elemSize) := if_pos ⟨by omega, by omega⟩
  simp only [sliceData, e1, e2, e3, e4, bind, Except.bind, pure, Except.pure]
  rw [if_neg hpos.ne']
  cases sliceLoop a _ <;> rfl

/-- **C34**.  In every state a client can bring about, slicing an array of `n` elements with a range
whose values are all indices of the array gives a new array; its elements are, in this order, the elements
at `start`, `start + step`, `start + 2 * step` and so on as far as the range goes; nothing else changes. -/
theorem C34_slice (as : List Act) (hal : Spec.Store.AllowedRun as Spec.Store.empty) :
    ∃ rs h, Heap.run as Heap.empty = .ok (rs, h) ∧ ∀ p (a : QirArray) n (r : Range),
      readArray p h = .ok a → arrayGetSize p h = .ok n → r.step ≠ 0 → r.Fits a.elemSize →
      (∀ k : ℕ, r.Has k → 0 ≤ r.start + k * r.step ∧ r.start + k * r.step < n) →
      ∃ q h' m, arraySlice p r h = .ok (q, h') ∧ h.box q = none ∧
        (∀ t, t ≠ q → h'.box t = h.box t) ∧ h'.freed = h.freed ∧ h'.dropped = h.dropped ∧
        arrayGetSize q h' = .ok m ∧ (∀ k, k < m ↔ r.Has k) ∧
        ∀ k, k < m → arrayLoad q k h' = arrayLoad p (r.start + k * r.step).toNat h := by
  obtain ⟨h, hrun, ha⟩ := agrees_empty.run as hal
  refine ⟨_, h, hrun, fun p a n r hp hn hs hf hb => ?_⟩
  obtain ⟨s, d, hp', hs0, rfl⟩ := getSize_ok hn
  rw [hp] at hp'; cases hp'
  have hsz : 0 < s := Nat.pos_of_ne_zero hs0
  obtain ⟨l, hl, hdata⟩ := sliceData_eq _ r hsz hs hf
  have hnew : h.box h.next = none := by
    rw [ha.box, ha.next, ha.new _ (le_refl _)]; rfl
  simp only at hl
  have hidx : ∀ k, r.Has k → ∃ j : ℕ, (j : ℤ) = r.start + k * r.step ∧
      ((r.start + k * r.step) * (s : ℤ)).toNat = s * j ∧ s * j + s ≤ d.length := by
    intro k hk
    obtain ⟨h1, h2⟩ := hb k hk
    refine ⟨(r.start + k * r.step).toNat, by omega, ?_, ?_⟩
    · rw [Int.toNat_mul h1 (by omega), Int.toNat_natCast, Nat.mul_comm]
    · have h3 : (r.start + k * r.step).toNat + 1 ≤ d.length / s := by omega
      calc s * (r.start + k * r.step).toNat + s = s * ((r.start + k * r.step).toNat + 1) := by ring
        _ ≤ s * (d.length / s) := Nat.mul_le_mul_left s h3
        _ ≤ d.length := Nat.mul_div_le _ _
  have hmem : ∀ i ∈ l, 0 ≤ i ∧ i.toNat + s ≤ d.length := by
    intro i hi
    obtain ⟨k, hk⟩ := List.mem_iff_getElem?.mp hi
    rw [hl] at hk
    split_ifs at hk with h1
    cases hk
    obtain ⟨j, h2, h3, h4⟩ := hidx k h1
    refine ⟨mul_nonneg (hb k h1).1 (by omega), by omega⟩
  have hloop := sliceLoop_ok ⟨s, d⟩ l hmem
  simp only at hloop
  rw [hloop] at hdata
  simp only [Except.map] at hdata
  generalize hcs : (l.map fun i => (d.drop i.toNat).take s) = cs at hdata
  have hlen : ∀ c ∈ cs, c.length = s := by
    intro c hc
    rw [← hcs] at hc
    obtain ⟨i, hi, rfl⟩ := List.mem_map.mp hc
    have := (hmem i hi).2
    simp; omega
  obtain ⟨g, hcat, hbox, hfr, hdr⟩ : ∃ g, arraySlice p r h = .ok (h.next, g) ∧
      (∀ t, g.box t = if t = h.next then some ⟨1, 1, some (.array ⟨s, cs.flatten⟩)⟩ else h.box t) ∧
      g.freed = h.freed ∧ g.dropped = h.dropped := by
    refine ⟨(h.alloc (.array ⟨s, cs.flatten⟩)).2, ?_, fun t => ?_, rfl, rfl⟩
    · simp only [arraySlice, hp, hdata, bind, Except.bind, pure, Except.pure]
      rfl
    · show (h.set h.next _).box t = _
      rw [box_set]
  have hread : readArray h.next g = .ok ⟨s, cs.flatten⟩ := by
    simp [readArray, Heap.read, hbox, bind, Except.bind, pure, Except.pure]
  have hcl : cs.length = l.length := by rw [← hcs, List.length_map]
  have hfl := flatten_length s cs hlen
  have hm : ∀ k, k < l.length ↔ r.Has k := by
    intro k
    have := hl k
    by_cases hk : r.Has k
    · rw [if_pos hk] at this
      simp only [hk, iff_true]
      exact (List.getElem?_eq_some_iff.mp this).1
    · rw [if_neg hk] at this
      simp only [hk, iff_false]
      simpa using this
  refine ⟨_, g, l.length, hcat, hnew, fun t ht => by rw [hbox, if_neg ht], hfr, hdr, ?_, hm, fun k hk => ?_⟩
  · simp only [arrayGetSize, hread, bind, Except.bind, pure, Except.pure, if_neg hs0, hfl, hcl]
    rw [Nat.mul_div_cancel_left _ hsz]
  · have h1 := (hm k).mp hk
    obtain ⟨j, h2, h3, h4⟩ := hidx k h1
    have h5 : s * k + s ≤ cs.flatten.length := by
      rw [hfl, hcl]
      calc s * k + s = s * (k + 1) := by ring
        _ ≤ s * l.length := Nat.mul_le_mul_left s hk
    have h6 : (r.start + k * r.step).toNat = j := by omega
    have h7 : cs[k]? = some ((d.drop (s * j)).take s) := by
      rw [← hcs, List.getElem?_map, hl k, if_pos h1, Option.map_some, h3]
    simp only [arrayLoad, hread, hp, bind, Except.bind, pure, Except.pure, elementOffset, h5, h6, h4, if_true]
    rw [flatten_chunk s cs hlen k _ h7]

/-- **C34**, out of bounds: if some value of the range is not an index, the slice panics. -/
theorem C34_out_of_bounds (h : Heap) (p : Addr) (a : QirArray) (n : ℕ) (r : Range) (k : ℕ)
    (hp : readArray p h = .ok a) (hn : arrayGetSize p h = .ok n) (hs : r.step ≠ 0) (hf : r.Fits a.elemSize)
    (hk : r.Has k) (hb : ¬ (0 ≤ r.start + k * r.step ∧ r.start + k * r.step < n)) :
    arraySlice p r h = .error .panic := by
  obtain ⟨s, d, hp', hs0, rfl⟩ := getSize_ok hn
  rw [hp] at hp'; cases hp'
  have hsz : 0 < s := Nat.pos_of_ne_zero hs0
  obtain ⟨l, hl, hdata⟩ := sliceData_eq _ r hsz hs hf
  have h1 : l[k]? = some ((r.start + k * r.step) * s) := by rw [hl k, if_pos hk]
  have h2 := List.mem_of_getElem? h1
  have hsz' : (0 : ℤ) < s := by exact_mod_cast hsz
  have h3 : sliceLoop ⟨s, d⟩ l = .error .panic := by
    refine sliceLoop_panic _ l _ h2 ?_
    rintro ⟨h4, h5⟩
    refine hb ⟨nonneg_of_mul_nonneg_left h4 hsz', ?_⟩
    have h6 := nonneg_of_mul_nonneg_left h4 hsz'
    simp only at h5
    rw [Int.toNat_mul h6 (by omega), Int.toNat_natCast] at h5
    have h7 : (r.start + k * r.step).toNat + 1 ≤ d.length / s := by
      rw [Nat.le_div_iff_mul_le hsz]
      calc ((r.start + k * r.step).toNat + 1) * s = (r.start + k * r.step).toNat * s + s := by ring
        _ ≤ _ := h5
    omega
  simp [arraySlice, hp, hdata, h3, Except.map, bind, Except.bind]

/-- A step of zero panics. -/
theorem C34_zero_step (h : Heap) (p : Addr) (a : QirArray) (r : Range)
    (hp : readArray p h = .ok a) (hs : r.step = 0) : arraySlice p r h = .error .panic := by
  have : sliceData a r = .error .panic := by
    have h0 : |r.step| = 0 := by rw [hs, abs_zero]
    have h0' : |r.step| * (a.elemSize : ℤ) = 0 := by rw [h0, zero_mul]
    have e : i64 |r.step| = .ok |r.step| := i64_ok ⟨by rw [h0]; norm_num, by rw [h0]; norm_num⟩
    have e' : i64 (|r.step| * (a.elemSize : ℤ)) = .ok (|r.step| * (a.elemSize : ℤ)) :=
      i64_ok ⟨by rw [h0']; norm_num, by rw [h0']; norm_num⟩
    have hi : ∀ z, i64 z = .ok z ∨ i64 z = .error .panic := by
      intro z; unfold i64; split_ifs <;> simp
    simp only [sliceData, bind, Except.bind, e, e']
    rcases hi (r.start * a.elemSize) with h1 | h1 <;> rw [h1]
    rcases hi (r.stop * a.elemSize) with h2 | h2 <;> rw [h2]
    exact if_pos h0'
  simp [arraySlice, hp, this, bind, Except.bind]

/-- Three elements counting down from the last but one of a six-element array, as in the unit test: the
range `4..-2..0` has exactly the values 4, 2, 0. -/
example : (⟨4, -2, 0⟩ : Range).Fits 8 ∧ ∀ k : ℕ, (⟨4, -2, 0⟩ : Range).Has k → k < 3 ∧
    0 ≤ (4 : ℤ) + k * -2 ∧ (4 : ℤ) + k * -2 < 6 := by
  refine ⟨by unfold Range.Fits; norm_num, fun k hk => ?_⟩
  simp only [Range.Has] at hk
  omega

/-- **C43**.  Different ranges have different texts. -/
theorem C43_range_text_injective (r r' : Range) (h : rangeText r = rangeText r') : r = r' := by
  have hd : ∀ a : ℤ, '.' ∉ intText a := fun a => no_mark (by decide) (by decide)
  obtain ⟨a, s, b⟩ := r
  obtain ⟨a', s', b'⟩ := r'
  simp only [rangeText, List.append_assoc, List.cons_append, List.nil_append] at h
  obtain ⟨h1, h2⟩ := split_mark (hd a) (hd a') h
  obtain rfl := intText_inj h1
  simp only [List.cons.injEq, true_and] at h2
  by_cases h3 : s = 1 <;> by_cases h4 : s' = 1 <;>
    simp only [h3, h4, ne_eq, not_true_eq_false, not_false_eq_true, if_true, if_false, List.nil_append,
      List.append_assoc, List.cons_append] at h2
  · obtain rfl := intText_inj h2
    rw [h3, h4]
  · exact absurd (h2 ▸ List.mem_append_right _ List.mem_cons_self) (hd b)
  · exact absurd (h2 ▸ List.mem_append_right _ List.mem_cons_self) (hd b')
  · obtain ⟨h5, h6⟩ := split_mark (hd s) (hd s') h2
    obtain rfl := intText_inj h5
    simp only [List.cons.injEq, true_and] at h6
    obtain rfl := intText_inj h6
    rfl

/-- The texts of the unit test. -/
example : rangeText ⟨0, 1, 9⟩ = "0..9".toList ∧ rangeText ⟨0, 2, 12⟩ = "0..2..12".toList ∧
    rangeText ⟨-3, -1, -7⟩ = "-3..-1..-7".toList := by
  refine ⟨by decide, by decide, by decide⟩

end Qir.Std
