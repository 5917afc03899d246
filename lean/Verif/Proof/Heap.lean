import Verif.Spec.Store
import Mathlib.Data.List.Count
import Mathlib.Tactic.SplitIfs
import Mathlib.Tactic.Common

/-!
# The heap behaves like the store
-/

namespace Qir.Std
open Spec

/-- The object with these contents stored at `p`. -/
def objOf (p : Addr) : Content → Obj
  | .array s d => .array ⟨s, d⟩
  | .tuple ws => .tuple p ws
  | .callable c => .callable c
  | .string s => .string s
  | .bigint n => .bigint n

/-- The box of an object. -/
def boxOf (p : Addr) (e : Entry) : Option Box :=
  if 0 < e.refs then some ⟨e.refs, e.aliases + 1, some (objOf p e.content)⟩
  else if 0 < e.aliases then some ⟨0, e.aliases, none⟩
  else none

/-- How often the object was dropped. -/
def dropsOf : Option Entry → ℕ
  | some e => if e.refs = 0 then 1 else 0
  | none => 0

/-- How often the box was deallocated. -/
def freesOf : Option Entry → ℕ
  | some e => if e.refs = 0 ∧ e.aliases = 0 then 1 else 0
  | none => 0

structure Agrees (h : Heap) (st : Store) : Prop where
  next : h.next = st.next
  pos : 0 < st.next
  null : st.entry 0 = none
  new : ∀ p, st.next ≤ p → st.entry p = none
  box : ∀ p, h.box p = (st.entry p).bind (boxOf p)
  dropped : ∀ p, h.dropped.count p = dropsOf (st.entry p)
  freed : ∀ p, h.freed.count p = freesOf (st.entry p)

namespace Heap

theorem box_set (h : Heap) (p q : Addr) (b : Box) :
    (h.set p b).box q = if q = p then some b else h.box q := by
  simp only [set, Function.update_apply]

theorem box_dealloc (h : Heap) (p q : Addr) :
    (h.dealloc p).box q = if q = p then none else h.box q := by
  simp only [dealloc, Function.update_apply]

theorem set_self {h : Heap} {p : Addr} {b : Box} (hb : h.box p = some b) : h.set p b = h := by
  cases h
  simp only [set] at *
  congr
  rw [← hb]
  exact Function.update_eq_self ..

theorem set_set (h : Heap) (p : Addr) (b c : Box) : (h.set p b).set p c = h.set p c := by
  simp [set]

theorem ups_ref {p : Addr} : ∀ (n : ℕ) {h : Heap} {s w : ℕ} {v : Option Obj},
    h.box p = some ⟨s, w, v⟩ → 0 < s →
    iterate (countUp p false) n h = .ok (h.set p ⟨s + n, w, v⟩)
  | 0, h, s, w, v, hb, _ => by
    simp only [iterate, Nat.add_zero]; rw [set_self hb]
  | n + 1, h, s, w, v, hb, hs => by
    have h1 : countUp p false h = .ok (h.set p ⟨s + 1, w, v⟩) := by
      simp [countUp, incStrong, hb, Nat.pos_iff_ne_zero.mp hs]
    have h2 : (h.set p ⟨s + 1, w, v⟩).box p = some ⟨s + 1, w, v⟩ := by simp [box_set]
    simp only [iterate, h1]
    refine (ups_ref n h2 (by omega)).trans ?_
    rw [set_set]
    congr 3
    omega

theorem ups_alias {p : Addr} : ∀ (n : ℕ) {h : Heap} {s w : ℕ} {v : Option Obj},
    h.box p = some ⟨s, w, v⟩ →
    iterate (countUp p true) n h = .ok (h.set p ⟨s, w + n, v⟩)
  | 0, h, s, w, v, hb => by
    simp only [iterate, Nat.add_zero]; rw [set_self hb]
  | n + 1, h, s, w, v, hb => by
    have h1 : countUp p true h = .ok (h.set p ⟨s, w + 1, v⟩) := by
      simp [countUp, incWeak, hb]
    have h2 : (h.set p ⟨s, w + 1, v⟩).box p = some ⟨s, w + 1, v⟩ := by simp [box_set]
    simp only [iterate, h1]
    refine (ups_alias n h2).trans ?_
    rw [set_set]
    congr 3
    omega

/-- Dropping the last reference. -/
def lastRef (p : Addr) (w : ℕ) (h : Heap) : Heap :=
  let g := { h.set p ⟨0, w, none⟩ with dropped := p :: h.dropped }
  if w = 1 then g.dealloc p else g.set p ⟨0, w - 1, none⟩

theorem downs_ref {p : Addr} : ∀ (n : ℕ) {h : Heap} {s w : ℕ} {v : Option Obj},
    h.box p = some ⟨s, w, v⟩ → 0 < s → 0 < w → n ≤ s →
    iterate (countDown p false) n h =
      .ok (if n = s then lastRef p w h else h.set p ⟨s - n, w, v⟩)
  | 0, h, s, w, v, hb, hs, _, _ => by
    rw [if_neg (by omega)]
    simp only [iterate, Nat.sub_zero]; rw [set_self hb]
  | n + 1, h, s, w, v, hb, hs, hw, hn => by
    rcases Nat.lt_or_ge 1 s with h1 | h1
    · have h2 : countDown p false h = .ok (h.set p ⟨s - 1, w, v⟩) := by
        simp [countDown, decStrong, hb, Nat.pos_iff_ne_zero.mp hs, Nat.ne_of_gt h1]
      have h3 : (h.set p ⟨s - 1, w, v⟩).box p = some ⟨s - 1, w, v⟩ := by simp [box_set]
      simp only [iterate, h2]
      refine (downs_ref n h3 (by omega) hw (by omega)).trans ?_
      rw [set_set]
      by_cases h4 : n + 1 = s
      · rw [if_pos h4, if_pos (by omega)]
        simp only [lastRef, set_set]
        rfl
      · rw [if_neg h4, if_neg (by omega)]
        congr 3
        omega
    · obtain rfl : s = 1 := by omega
      obtain rfl : n = 0 := by omega
      have h5 : countDown p false h = .ok (lastRef p w h) := by
        simp only [countDown, decStrong, hb, Bool.false_eq_true, if_false, if_true, decWeak, lastRef]
        rw [if_neg (by decide)]
        simp only [box_set, if_true]
        rw [if_neg (by omega)]
        by_cases hw1 : w = 1
        · rw [if_pos hw1, if_pos hw1]
        · rw [if_neg hw1, if_neg hw1]
      simp only [iterate, h5]
      rfl

theorem downs_alias {p : Addr} : ∀ (n : ℕ) {h : Heap} {s w : ℕ} {v : Option Obj},
    h.box p = some ⟨s, w, v⟩ → 0 < w → n ≤ w →
    iterate (countDown p true) n h =
      .ok (if n = w then h.dealloc p else h.set p ⟨s, w - n, v⟩)
  | 0, h, s, w, v, hb, hw, _ => by
    rw [if_neg (by omega)]
    simp only [iterate, Nat.sub_zero]; rw [set_self hb]
  | n + 1, h, s, w, v, hb, hw, hn => by
    rcases Nat.lt_or_ge 1 w with h1 | h1
    · have h2 : countDown p true h = .ok (h.set p ⟨s, w - 1, v⟩) := by
        simp only [countDown, if_true, incWeak, hb]
        simp [bind, Except.bind, decWeak, box_set, set_set, Nat.pos_iff_ne_zero.mp hw, Nat.ne_of_gt h1]
      have h3 : (h.set p ⟨s, w - 1, v⟩).box p = some ⟨s, w - 1, v⟩ := by simp [box_set]
      simp only [iterate, h2]
      refine (downs_alias n h3 (by omega) (by omega)).trans ?_
      rw [set_set]
      by_cases h4 : n + 1 = w
      · rw [if_pos h4, if_pos (by omega)]
        simp [dealloc, set]
      · rw [if_neg h4, if_neg (by omega)]
        congr 3
        omega
    · obtain rfl : w = 1 := by omega
      obtain rfl : n = 0 := by omega
      have h5 : countDown p true h = .ok (h.dealloc p) := by
        simp only [countDown, if_true, incWeak, hb]
        simp [bind, Except.bind, decWeak, box_set, set_set, dealloc, set]
      simp only [iterate, h5]
      rfl

end Heap

open Heap

namespace Agrees
variable {h : Heap} {st : Store}

theorem live (ha : Agrees h st) {p : Addr} {e : Entry} (he : st.entry p = some e) (hr : 0 < e.refs) :
    h.box p = some ⟨e.refs, e.aliases + 1, some (objOf p e.content)⟩ := by
  rw [ha.box, he]; simp [boxOf, hr]

theorem read_eq (ha : Agrees h st) {p : Addr} {e : Entry} (he : st.entry p = some e) (hr : 0 < e.refs) :
    Heap.read p h = .ok (objOf p e.content) := by
  simp [Heap.read, ha.live he hr]

/-- Allocation. -/
theorem alloc (ha : Agrees h st) (c : Content) {h' : Heap}
    (hn : h'.next = h.next + 1) (hd : h'.dropped = h.dropped) (hf : h'.freed = h.freed)
    (hb : ∀ q, h'.box q = if q = h.next then some ⟨1, 1, some (objOf h.next c)⟩ else h.box q) :
    Agrees h' (st.create c).2 where
  next := by simp [Store.create, hn, ha.next]
  pos := by simp [Store.create]
  null := by
    have := ha.pos
    simp only [Store.create]
    rw [if_neg (by omega)]; exact ha.null
  new := by
    intro p hp
    simp only [Store.create] at *
    rw [if_neg (by omega)]; exact ha.new p (by omega)
  box := by
    intro p
    rw [hb, ha.next]
    simp only [Store.create]
    split_ifs with h1
    · subst h1; simp [boxOf]
    · exact ha.box p
  dropped := by
    intro p
    rw [hd, ha.dropped]
    simp only [Store.create]
    split_ifs with h1
    · rw [ha.new p (by omega)]; simp [dropsOf]
    · rfl
  freed := by
    intro p
    rw [hf, ha.freed]
    simp only [Store.create]
    split_ifs with h1
    · rw [ha.new p (by omega)]; simp [freesOf]
    · rfl

/-- A change of one object. -/
theorem change (ha : Agrees h st) {p : Addr} {e : Entry} {f : Entry → Entry} {h' : Heap}
    (he : st.entry p = some e) (hn : h'.next = h.next)
    (hb : ∀ q, h'.box q = if q = p then boxOf p (f e) else h.box q)
    (hd : ∀ q, h'.dropped.count q = if q = p then dropsOf (some (f e)) else h.dropped.count q)
    (hf : ∀ q, h'.freed.count q = if q = p then freesOf (some (f e)) else h.freed.count q) :
    Agrees h' (st.change p f) where
  next := by rw [hn, ha.next]; rfl
  pos := ha.pos
  null := by
    simp only [Store.change]
    split_ifs with h1
    · rw [ha.null]; rfl
    · exact ha.null
  new := by
    intro q hq
    simp only [Store.change] at *
    rw [ha.new q hq]; simp
  box := by
    intro q
    rw [hb]
    simp only [Store.change]
    split_ifs with h1
    · subst h1; rw [he]; rfl
    · exact ha.box q
  dropped := by
    intro q
    rw [hd]
    simp only [Store.change]
    split_ifs with h1
    · subst h1; rw [he]; rfl
    · exact ha.dropped q
  freed := by
    intro q
    rw [hf]
    simp only [Store.change]
    split_ifs with h1
    · subst h1; rw [he]; rfl
    · exact ha.freed q

/-- A change of one live object that leaves it live. -/
theorem change_live (ha : Agrees h st) {p : Addr} {e : Entry} {f : Entry → Entry} {b : Box}
    (he : st.entry p = some e) (hr : 0 < e.refs) (hr' : 0 < (f e).refs)
    (hb : b = ⟨(f e).refs, (f e).aliases + 1, some (objOf p (f e).content)⟩) :
    Agrees (h.set p b) (st.change p f) := by
  refine ha.change he rfl (fun q => ?_) (fun q => ?_) (fun q => ?_)
  · rw [box_set, hb]; simp [boxOf, hr']
  · show h.dropped.count q = _
    split_ifs with h1
    · subst h1; rw [ha.dropped, he]; simp [dropsOf, Nat.pos_iff_ne_zero.mp hr, Nat.pos_iff_ne_zero.mp hr']
    · rfl
  · show h.freed.count q = _
    split_ifs with h1
    · subst h1; rw [ha.freed, he]; simp [freesOf, Nat.pos_iff_ne_zero.mp hr, Nat.pos_iff_ne_zero.mp hr']
    · rfl

theorem update_ref (ha : Agrees h st) {p : Addr} {e : Entry} {u : ℤ} (he : st.entry p = some e)
    (hr : 0 < e.refs) (hu : 0 ≤ (e.refs : ℤ) + u) :
    ∃ h', updateCounts p u false h = .ok h' ∧
      Agrees h' (st.change p fun e => { e with refs := (e.refs + u).toNat }) := by
  have hb := ha.live he hr
  unfold updateCounts
  split_ifs with h1
  · refine ⟨_, ups_ref _ hb hr, ha.change_live he hr (by simp only; omega) ?_⟩
    congr 1
    simp only
    omega
  · rw [downs_ref (-u).toNat hb hr (by omega) (by omega)]
    refine ⟨_, rfl, ?_⟩
    split_ifs with h2
    · have h0 : ((e.refs : ℤ) + u).toNat = 0 := by omega
      refine ha.change he ?_ (fun q => ?_) (fun q => ?_) (fun q => ?_)
      · simp only [lastRef]; split_ifs <;> rfl
      · simp only [lastRef]
        by_cases h3 : q = p
        · subst h3
          by_cases h4 : e.aliases = 0
          · simp [h4, box_dealloc, boxOf, h0]
          · simp [h4, box_set, boxOf, h0, Nat.pos_iff_ne_zero]
        · split_ifs <;> simp [box_dealloc, box_set, h3]
      · have : (lastRef p (e.aliases + 1) h).dropped = p :: h.dropped := by
          simp only [lastRef]; split_ifs <;> rfl
        rw [this, List.count_cons]
        by_cases h3 : q = p
        · subst h3
          simp [ha.dropped, he, dropsOf, Nat.pos_iff_ne_zero.mp hr, h0]
        · simp [h3, Ne.symm h3]
      · by_cases h4 : e.aliases = 0
        · have : (lastRef p (e.aliases + 1) h).freed = p :: h.freed := by
            simp only [lastRef, h4]; rfl
          rw [this, List.count_cons]
          by_cases h3 : q = p
          · subst h3
            simp [ha.freed, he, freesOf, Nat.pos_iff_ne_zero.mp hr, h0, h4]
          · simp [h3, Ne.symm h3]
        · have : (lastRef p (e.aliases + 1) h).freed = h.freed := by
            simp only [lastRef]; rw [if_neg (by omega)]; rfl
          rw [this]
          by_cases h3 : q = p
          · subst h3
            simp [ha.freed, he, freesOf, Nat.pos_iff_ne_zero.mp hr, h4]
          · simp [h3]
    · refine ha.change_live he hr (by simp only; omega) ?_
      congr 1
      simp only
      omega

theorem update_alias (ha : Agrees h st) {p : Addr} {e : Entry} {u : ℤ} (he : st.entry p = some e)
    (hu : 0 ≤ (e.aliases : ℤ) + u) (hl : 0 < e.refs ∨ 0 < e.aliases) :
    ∃ h', updateCounts p u true h = .ok h' ∧
      Agrees h' (st.change p fun e => { e with aliases := (e.aliases + u).toNat }) := by
  by_cases hr : 0 < e.refs
  · have hb := ha.live he hr
    unfold updateCounts
    split_ifs with h1
    · refine ⟨_, ups_alias _ hb, ha.change_live he hr hr ?_⟩
      congr 1
      simp only
      omega
    · rw [downs_alias (-u).toNat hb (by omega) (by omega), if_neg (by omega)]
      refine ⟨_, rfl, ha.change_live he hr hr ?_⟩
      congr 1
      simp only
      omega
  · have hr0 : e.refs = 0 := by omega
    have hal : 0 < e.aliases := by omega
    have hb : h.box p = some ⟨0, e.aliases, none⟩ := by rw [ha.box, he]; simp [boxOf, hr, hal]
    have keep : ∀ {n : ℕ}, 0 < n → n = ((e.aliases : ℤ) + u).toNat → Agrees (h.set p ⟨0, n, none⟩)
        (st.change p fun e => { e with aliases := (e.aliases + u).toNat }) := by
      intro n hn hn'
      refine ha.change he rfl (fun q => ?_) (fun q => ?_) (fun q => ?_)
      · rw [box_set]; simp [boxOf, hr0, ← hn', hn]
      · show h.dropped.count q = _
        split_ifs with h1
        · subst h1; rw [ha.dropped, he]; simp [dropsOf]
        · rfl
      · show h.freed.count q = _
        split_ifs with h1
        · subst h1; rw [ha.freed, he]; simp [freesOf, hr0, ← hn', Nat.pos_iff_ne_zero.mp hn,
            Nat.pos_iff_ne_zero.mp hal]
        · rfl
    unfold updateCounts
    split_ifs with h1
    · exact ⟨_, ups_alias _ hb, keep (by omega) (by omega)⟩
    · rw [downs_alias (-u).toNat hb (by omega) (by omega)]
      refine ⟨_, rfl, ?_⟩
      split_ifs with h2
      · have h0 : ((e.aliases : ℤ) + u).toNat = 0 := by omega
        refine ha.change he rfl (fun q => ?_) (fun q => ?_) (fun q => ?_)
        · rw [box_dealloc]; simp [boxOf, hr0, h0]
        · show h.dropped.count q = _
          split_ifs with h1
          · subst h1; rw [ha.dropped, he]; simp [dropsOf]
          · rfl
        · show (p :: h.freed).count q = _
          rw [List.count_cons]
          by_cases h3 : q = p
          · subst h3
            simp [ha.freed, he, freesOf, hr0, h0, Nat.pos_iff_ne_zero.mp hal]
          · simp [h3, Ne.symm h3]
      · exact keep (by omega) (by omega)

theorem readArray_eq (ha : Agrees h st) {p : Addr} {e : Entry} {s : ℕ} {d : List UInt8}
    (he : st.entry p = some e) (hr : 0 < e.refs) (hc : e.content = .array s d) :
    readArray p h = .ok ⟨s, d⟩ := by
  simp [readArray, ha.read_eq he hr, hc, objOf, bind, Except.bind, pure, Except.pure]

theorem readTuple_eq (ha : Agrees h st) {p : Addr} {e : Entry} {ws : List ℕ}
    (he : st.entry p = some e) (hr : 0 < e.refs) (hc : e.content = .tuple ws) :
    readTuple p h = .ok (p, ws) := by
  simp [readTuple, ha.read_eq he hr, hc, objOf, bind, Except.bind, pure, Except.pure]

theorem readCallable_eq (ha : Agrees h st) {p : Addr} {e : Entry} {c : Callable}
    (he : st.entry p = some e) (hr : 0 < e.refs) (hc : e.content = .callable c) :
    readCallable p h = .ok c := by
  simp [readCallable, ha.read_eq he hr, hc, objOf, bind, Except.bind, pure, Except.pure]

theorem header_eq (ha : Agrees h st) {p : Addr} {e : Entry}
    (he : st.entry p = some e) (hr : 0 < e.refs) (hc : e.content.kind = .tuple) :
    header p h = .ok p := by
  cases hcc : e.content <;> rw [hcc] at hc <;> simp only [Content.kind, reduceCtorEq] at hc
  simp [header, ha.readTuple_eq he hr hcc, bind, Except.bind, pure, Except.pure]

theorem weakCount_eq (ha : Agrees h st) {p : Addr} {e : Entry}
    (he : st.entry p = some e) (hr : 0 < e.refs) : weakCount p h = .ok e.aliases := by
  simp [weakCount, ha.live he hr]

theorem incStrong_eq (ha : Agrees h st) {p : Addr} {e : Entry}
    (he : st.entry p = some e) (hr : 0 < e.refs) :
    ∃ h', incStrong p h = .ok h' ∧ Agrees h' (st.change p fun e => { e with refs := e.refs + 1 }) := by
  have : incStrong p h = .ok (h.set p ⟨e.refs + 1, e.aliases + 1, some (objOf p e.content)⟩) := by
    simp [incStrong, ha.live he hr, Nat.pos_iff_ne_zero.mp hr]
  exact ⟨_, this, ha.change_live he hr (by simp) rfl⟩

theorem write_eq (ha : Agrees h st) {p : Addr} {e : Entry} {c : Content} {f : Entry → Entry}
    (he : st.entry p = some e) (hr : 0 < e.refs) (hf : f e = { e with content := c }) :
    ∃ h', write p (objOf p c) h = .ok h' ∧ Agrees h' (st.change p f) := by
  have : write p (objOf p c) h = .ok (h.set p ⟨e.refs, e.aliases + 1, some (objOf p c)⟩) := by
    simp [write, ha.live he hr]
  exact ⟨_, this, ha.change_live he hr (by simpa [hf] using hr) (by rw [hf])⟩

theorem alloc_obj (ha : Agrees h st) (c : Content) (ht : c.kind ≠ .tuple) :
    some (h.alloc (objOf st.next c)).1 = (st.create c).1 ∧
      Agrees (h.alloc (objOf st.next c)).2 (st.create c).2 := by
  refine ⟨by simp [Heap.alloc, Store.create, ha.next], ha.alloc c rfl rfl rfl fun q => ?_⟩
  show (h.set h.next _).box q = _
  rw [box_set, ha.next]

theorem alloc_tuple (ha : Agrees h st) (hd : Addr) (ws : List ℕ) :
    some (h.alloc (.tuple hd ws)).1 = (st.create (.tuple ws)).1 ∧
      Agrees ((h.alloc (.tuple hd ws)).2.set (h.alloc (.tuple hd ws)).1
        ⟨1, 1, some (.tuple (h.alloc (.tuple hd ws)).1 ws)⟩) (st.create (.tuple ws)).2 := by
  refine ⟨by simp [Heap.alloc, Store.create, ha.next], ha.alloc (.tuple ws) rfl rfl rfl fun q => ?_⟩
  rw [box_set]
  show (if q = h.next then _ else (h.set h.next _).box q) = _
  rw [box_set]
  split_ifs with h1
  · rfl
  · rfl

theorem splice_eq (d : List UInt8) (o : ℕ) (v : List UInt8) (hv : o + v.length ≤ d.length) :
    d.take o ++ v ++ d.drop (o + v.length) = Store.splice d o v := by
  apply List.ext_getElem?
  intro j
  simp only [Store.splice, List.getElem?_mapIdx]
  rcases Nat.lt_or_ge j o with h1 | h1
  · rw [List.append_assoc, List.getElem?_append_left (by simp; omega),
      List.getElem?_take_of_lt h1, List.getElem?_eq_getElem (by omega)]
    simp [Nat.not_le.mpr h1]
  · rcases Nat.lt_or_ge j (o + v.length) with h2 | h2
    · rw [List.append_assoc, List.getElem?_append_right (by simp; omega),
        List.getElem?_append_left (by simp; omega), List.length_take,
        Nat.min_eq_left (by omega)]
      have h3 : d[j]? = some d[j] := List.getElem?_eq_getElem (by omega)
      rw [h3]
      simp only [Option.map_some, h1, h2, and_self, if_true]
      have h5 : v[j - o]? = some v[j - o] := List.getElem?_eq_getElem (by omega)
      rw [List.getD_eq_getElem?_getD, h5]
      rfl
    · rw [List.getElem?_append_right (by simp; omega), List.getElem?_drop]
      simp only [List.length_append, List.length_take, Nat.min_eq_left (by omega : o ≤ d.length)]
      have h4 : o + v.length + (j - (o + v.length)) = j := by omega
      rw [h4]
      simp [Nat.not_lt.mpr h2]

/-- Every request the client is entitled to. -/
theorem act (ha : Agrees h st) (a : Act) (hal : st.Allowed a) :
    ∃ h', h.act a = .ok ((st.act a).1, h') ∧ Agrees h' (st.act a).2 := by
  cases a with
  | newArray s n =>
    obtain ⟨h1, h2⟩ := ha.alloc_obj (.array s (List.replicate (s * n) 0)) (by simp [Content.kind])
    exact ⟨_, by rw [Store.act, ← h1]; rfl, h2⟩
  | newTuple n =>
    obtain ⟨h1, h2⟩ := ha.alloc_tuple 0 (List.replicate n 0)
    exact ⟨_, by rw [Store.act, ← h1]; rfl, h2⟩
  | newCallable f m c =>
    obtain ⟨h1, h2⟩ := ha.alloc_obj (.callable ⟨f, m, c, false, 0⟩) (by simp [Content.kind])
    exact ⟨_, by rw [Store.act, ← h1]; rfl, h2⟩
  | newString s =>
    obtain ⟨h1, h2⟩ := ha.alloc_obj (.string s) (by simp [Content.kind])
    exact ⟨_, by rw [Store.act, ← h1]; rfl, h2⟩
  | newBigint n =>
    obtain ⟨h1, h2⟩ := ha.alloc_obj (.bigint n) (by simp [Content.kind])
    exact ⟨_, by rw [Store.act, ← h1]; rfl, h2⟩
  | ref k p u =>
    obtain ⟨e, he, hk, hr, hu⟩ := hal
    obtain ⟨h', h1, h2⟩ := ha.update_ref he hr hu
    refine ⟨h', ?_, h2⟩
    cases k with
    | tuple =>
      simp [Heap.act, tupleUpdateRef, ha.header_eq he hr hk, h1, bind, Except.bind, pure, Except.pure,
        Store.act]
    | _ => simp [Heap.act, arrayUpdateRef, callableUpdateRef, stringUpdateRef, bigintUpdateRef, h1,
        bind, Except.bind, pure, Except.pure, Store.act]
  | «alias» k p u =>
    obtain ⟨e, he, hk, hu, hk1, hk2, hl⟩ := hal
    obtain ⟨h', h1, h2⟩ := ha.update_alias he hu (by tauto)
    refine ⟨h', ?_, h2⟩
    cases k with
    | tuple =>
      have hr : 0 < e.refs := by tauto
      simp [Heap.act, tupleUpdateAlias, ha.header_eq he hr hk, h1, bind, Except.bind, pure,
        Except.pure, Store.act]
    | string => exact absurd rfl hk1
    | bigint => exact absurd rfl hk2
    | _ => simp [Heap.act, arrayUpdateAlias, callableUpdateAlias, h1, bind, Except.bind, pure,
        Except.pure, Store.act]
  | copy k p force =>
    obtain ⟨⟨e, he, hr, hk⟩, hk1, hk2⟩ := hal
    obtain ⟨g, hg1, hg2⟩ := ha.incStrong_eq he hr
    have hw := ha.weakCount_eq he hr
    cases hc : e.content with
    | array s d =>
      rw [hc] at hk; cases hk
      have h1 := ha.readArray_eq he hr hc
      obtain ⟨h2, h3⟩ := ha.alloc_obj (.array s d) (by simp [Content.kind])
      simp only [Heap.act, arrayCopy, hw, h1, hg1, Store.act, he, bind, Except.bind, pure, Except.pure, hc]
      split_ifs with h4
      · exact ⟨_, by rw [← h2]; rfl, h3⟩
      · exact ⟨_, rfl, hg2⟩
    | tuple ws =>
      have hk' := hk
      rw [hc] at hk; cases hk
      have h1 := ha.readTuple_eq he hr hc
      obtain ⟨h2, h3⟩ := ha.alloc_tuple p ws
      simp only [Heap.act, tupleCopy, hw, h1, hg1, Store.act, he, bind, Except.bind, pure, Except.pure, hc,
        ha.header_eq he hr hk']
      split_ifs with h4
      · exact ⟨_, by rw [← h2]; rfl, h3⟩
      · exact ⟨_, rfl, hg2⟩
    | callable c =>
      rw [hc] at hk; cases hk
      have h1 := ha.readCallable_eq he hr hc
      obtain ⟨h2, h3⟩ := ha.alloc_obj (.callable c) (by simp [Content.kind])
      simp only [Heap.act, callableCopy, hw, h1, hg1, Store.act, he, bind, Except.bind, pure, Except.pure, hc]
      split_ifs with h4
      · exact ⟨_, by rw [← h2]; rfl, h3⟩
      · exact ⟨_, rfl, hg2⟩
    | string s => rw [hc] at hk; exact absurd hk.symm hk1
    | bigint s => rw [hc] at hk; exact absurd hk.symm hk2
  | concat p q =>
    obtain ⟨⟨r, al, c⟩, ⟨r', al', c'⟩, s, d, d', he, hf, hr, hr', rfl, rfl⟩ := hal
    have h1 := ha.readArray_eq he hr rfl
    have h2 := ha.readArray_eq hf hr' rfl
    obtain ⟨h3, h4⟩ := ha.alloc_obj (.array s (d ++ d')) (by simp [Content.kind])
    refine ⟨_, ?_, by simpa only [Store.act, he, hf] using h4⟩
    simp only [Heap.act, arrayConcatenate, h1, h2, concatData, bind, Except.bind, pure, Except.pure,
      Store.act, he, hf, ← h3, ne_eq, not_true_eq_false, if_false]
    rfl
  | joinStrings p q =>
    obtain ⟨⟨⟨r, al, c⟩, he, hr, hk⟩, ⟨⟨r', al', c'⟩, hf, hr', hk'⟩⟩ := hal
    cases c <;> simp only [Content.kind, reduceCtorEq] at hk
    cases c' <;> simp only [Content.kind, reduceCtorEq] at hk'
    rename_i s t
    have h1 := ha.read_eq he hr
    have h2 := ha.read_eq hf hr'
    obtain ⟨h3, h4⟩ := ha.alloc_obj (.string (s ++ t)) (by simp [Content.kind])
    refine ⟨_, ?_, by simpa only [Store.act, he, hf] using h4⟩
    simp only [Heap.act, stringConcatenate, h1, h2, objOf, bind, Except.bind, pure, Except.pure,
      Store.act, he, hf, ← h3]
  | storeElement p i v =>
    obtain ⟨e, s, d, he, hr, hc, rfl, hb⟩ := hal
    have h1 := ha.readArray_eq he hr hc
    obtain ⟨h', h2, h3⟩ := ha.write_eq he hr (c := .array v.length (Store.splice d (v.length * i) v))
      (f := fun e => match e.content with
        | .array s d => { e with content := .array s (Store.splice d (s * i) v) }
        | _ => e) (by simp only [hc])
    refine ⟨h', ?_, h3⟩
    simp only [objOf] at h2
    simp [Heap.act, arrayStore, h1, elementOffset, hb, bind, Except.bind, pure, Except.pure,
      Store.act, h2, ← List.append_assoc, splice_eq _ _ _ hb]
  | storeWord p i w =>
    obtain ⟨e, ws, he, hr, hc, hi⟩ := hal
    have h1 := ha.readTuple_eq he hr hc
    obtain ⟨h', h2, h3⟩ := ha.write_eq he hr (c := .tuple (ws.set i w))
      (f := fun e => match e.content with
        | .tuple ws => { e with content := .tuple (ws.set i w) }
        | _ => e) (by simp only [hc])
    refine ⟨h', ?_, h3⟩
    simp only [objOf] at h2
    simp [Heap.act, tupleStore, h1, hi, bind, Except.bind, pure, Except.pure, Store.act, h2]
  | makeAdjoint p =>
    obtain ⟨e, he, hr, hk⟩ := hal
    cases hc : e.content <;> rw [hc] at hk <;> simp only [Content.kind, reduceCtorEq] at hk
    rename_i c
    have h1 := ha.readCallable_eq he hr hc
    obtain ⟨h', h2, h3⟩ := ha.write_eq he hr (c := .callable { c with isAdj := !c.isAdj })
      (f := fun e => match e.content with
        | .callable c => { e with content := .callable { c with isAdj := !c.isAdj } }
        | _ => e) (by simp only [hc])
    refine ⟨h', ?_, h3⟩
    simp only [objOf] at h2
    simp [Heap.act, callableMakeAdjoint, h1, bind, Except.bind, pure, Except.pure, Store.act, h2]
  | makeControlled p =>
    obtain ⟨e, he, hr, hk⟩ := hal
    cases hc : e.content <;> rw [hc] at hk <;> simp only [Content.kind, reduceCtorEq] at hk
    rename_i c
    have h1 := ha.readCallable_eq he hr hc
    obtain ⟨h', h2, h3⟩ := ha.write_eq he hr (c := .callable { c with ctlsCount := c.ctlsCount + 1 })
      (f := fun e => match e.content with
        | .callable c => { e with content := .callable { c with ctlsCount := c.ctlsCount + 1 } }
        | _ => e) (by simp only [hc])
    refine ⟨h', ?_, h3⟩
    simp only [objOf] at h2
    simp [Heap.act, callableMakeControlled, h1, bind, Except.bind, pure, Except.pure, Store.act, h2]

/-- Every session the client is entitled to. -/
theorem run : ∀ (as : List Act) {h : Heap} {st : Store}, Agrees h st → Store.AllowedRun as st →
    ∃ h', Heap.run as h = .ok ((Store.run as st).1, h') ∧ Agrees h' (Store.run as st).2
  | [], h, st, ha, _ => ⟨h, rfl, ha⟩
  | a :: as, h, st, ha, hal => by
    obtain ⟨h1, h2, h3⟩ := ha.act a hal.1
    obtain ⟨h4, h5, h6⟩ := run as h3 hal.2
    exact ⟨h4, by simp [Heap.run, h2, h5, bind, Except.bind, pure, Except.pure, Store.run], h6⟩

end Agrees

theorem agrees_empty : Agrees Heap.empty Store.empty where
  next := rfl
  pos := Nat.one_pos
  null := rfl
  new := fun _ _ => rfl
  box := fun _ => rfl
  dropped := fun _ => rfl
  freed := fun _ => rfl

end Qir.Std
