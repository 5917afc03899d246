import Verif.Proof.Strings
import Verif.Props.Heap
import Verif.Props.Range
import Verif.Props.Output

/-!
# C54, C55: values of big integers and strings, and the text of numbers
-/

namespace Qir.Std

open Spec Heap Out

/-! ### C54 -/

/-- `h'` is `h` with one more object `r`, which has the value `v` and one reference.  Whatever else was
created has been dropped and deallocated once. -/
structure OneMore (h h' : Heap) (r : Addr) (v : Obj) : Prop where
  new : h.next ≤ r ∧ r < h'.next
  value : h'.box r = some ⟨1, 1, some v⟩
  others : ∀ q, q ≠ r → h'.box q = h.box q
  old : ∀ q < h.next, h'.dropped.count q = h.dropped.count q ∧ h'.freed.count q = h.freed.count q
  rest : ∀ q, h.next ≤ q → q < h'.next → q ≠ r → h'.dropped.count q = 1 ∧ h'.freed.count q = 1

/-- `h'` is `h`; whatever was created has been dropped and deallocated once. -/
structure NoneMore (h h' : Heap) : Prop where
  box : ∀ q, h'.box q = h.box q
  old : ∀ q < h.next, h'.dropped.count q = h.dropped.count q ∧ h'.freed.count q = h.freed.count q
  rest : ∀ q, h.next ≤ q → q < h'.next → h'.dropped.count q = 1 ∧ h'.freed.count q = 1

/-- The value is at `x`: a new object, or one the program had already and nothing else has changed. -/
def Delivered (h h' : Heap) (x : Held) (v : Obj) : Prop :=
  (x.own = true ∧ OneMore h h' x.at_ v) ∨ (x.own = false ∧ h.read x.at_ = .ok v ∧ NoneMore h h')

theorem Grown.noneMore {h h' : Heap} (hu : Unused h) (hg : Grown h h' fun _ => none) : NoneMore h h' where
  box q := by
    by_cases hq : q < h.next
    · exact (hg.old q hq).1
    · rw [(hg.gone q (not_lt.mp hq) rfl).1, (hu q (not_lt.mp hq)).1]
  old q hq := (hg.old q hq).2
  rest q hq hl := (hg.gone q hq rfl).2.1 hl

theorem Placed.delivered {h h' : Heap} {x : Held} {v : Obj} (hu : Unused h)
    (hp : Placed h h h' (fun _ => none) x v) : Delivered h h' x v := by
  rcases hp with ⟨h1, h2, h3⟩ | ⟨h1, h2, -, h4⟩
  · refine .inl ⟨h1, ?_⟩
    obtain ⟨a1, a2, a3, -, -⟩ := h3.kept _ _ (Function.update_self ..)
    have hk : ∀ q, q ≠ x.at_ → Function.update (fun _ => none) x.at_ (some v) q = none := fun q hq => by
      rw [Function.update_of_ne hq]
    refine ⟨⟨a1, a2⟩, a3, fun q hq => ?_, fun q hq => (h3.old q hq).2, fun q hq hl hne => ?_⟩
    · by_cases hl : q < h.next
      · exact (h3.old q hl).1
      · rw [(h3.gone q (not_lt.mp hl) (hk q hq)).1, (hu q (not_lt.mp hl)).1]
    · exact (h3.gone q hq (hk q hne)).2.1 hl
  · exact .inr ⟨h1, h2, h4.noneMore hu⟩

/-- **C54**.  Any expression in big integers, evaluated call by call with each intermediate result released
after its use.  Either the expression has a value; then the calls deliver it, the operands are unchanged and
nothing is left over.  Or it has none, because it divides by zero; then the program stops with a panic. -/
theorem C54_big (h : Heap) (hu : Unused h) (e : BigExpr) (hk : e.Known (bigsOf h)) :
    (∃ a x h', Means (bigsOf h) e a ∧ (∀ b, Means (bigsOf h) e b → b = a) ∧ evalBig e h = .ok (x, h') ∧
        Delivered h h' x (.bigint a)) ∨
      ((∀ a, ¬ Means (bigsOf h) e a) ∧ evalBig e h = .error .panic) := by
  rcases evalBig_spec hu e (Grown.refl hu) hk with ⟨x, h', a, e1, m, p⟩ | ⟨e1, m⟩
  · exact .inl ⟨a, x, h', m, fun b hb => hb.unique m, e1, p.delivered hu⟩
  · exact .inr ⟨m, e1⟩

/-- **C54** for strings.  The strings of the program have no zero byte, see `C54_session`. -/
theorem C54_string (h : Heap) (hu : Unused h) (hz : ∀ p s, stringsOf h p = some s → 0 ∉ s) (e : StrExpr)
    (hk : e.Known (bigsOf h) (stringsOf h)) :
    (∃ s x h', Reads (bigsOf h) (stringsOf h) e s ∧ (∀ t, Reads (bigsOf h) (stringsOf h) e t → t = s) ∧
        evalStr e h = .ok (x, h') ∧ Delivered h h' x (.string s) ∧
        stringGetData x.at_ h' = .ok (s ++ [0]) ∧
        stringGetLength x.at_ h' = if s.length < 2 ^ 32 then .ok s.length else .error .panic) ∨
      ((∀ s, ¬ Reads (bigsOf h) (stringsOf h) e s) ∧ evalStr e h = .error .panic) := by
  rcases evalStr_spec hu hz e (Grown.refl hu) hk with ⟨x, h', s, e1, m, p⟩ | ⟨e1, m⟩
  · refine .inl ⟨s, x, h', m, fun b hb => hb.unique m, e1, p.delivered hu, ?_, ?_⟩
    · simp only [stringGetData, readString_of (p.read hu), bind, Except.bind]
    · simp only [stringGetLength, readString_of (p.read hu), bind, Except.bind]
      norm_num
  · exact .inr ⟨m, e1⟩

/-- **C54** for comparisons: the answer is right and nothing is left over. -/
theorem C54_query (h : Heap) (hu : Unused h) (hz : ∀ p s, stringsOf h p = some s → 0 ∉ s) (Q : Query)
    (hk : Q.Known (bigsOf h) (stringsOf h)) :
    (∃ P b h', Answers (bigsOf h) (stringsOf h) Q P ∧ evalQuery Q h = .ok (b, h') ∧ (b = true ↔ P) ∧
        NoneMore h h') ∨
      ((∀ P, ¬ Answers (bigsOf h) (stringsOf h) Q P) ∧ evalQuery Q h = .error .panic) := by
  rcases evalQuery_spec hu hz (Grown.refl hu) Q hk with ⟨b, h', P, e1, m, hb, g⟩ | ⟨e1, m⟩
  · exact .inl ⟨P, b, h', m, e1, hb, g.noneMore hu⟩
  · exact .inr ⟨m, e1⟩

/-- The strings a session creates. -/
def Act.texts : Act → Prop
  | .newString s => 0 ∉ s
  | _ => True

theorem texts_run : ∀ (as : List Act) {st : Store}, (∀ a ∈ as, a.texts) →
    (∀ p e s, st.entry p = some e → e.content = .string s → 0 ∉ s) →
    ∀ p e s, (Store.run as st).2.entry p = some e → e.content = .string s → 0 ∉ s
  | [], _, _, hst => hst
  | a :: as, st, ha, hst => by
    refine texts_run as (st := (st.act a).2) (fun b hb => ha b (List.mem_cons_of_mem _ hb)) ?_
    have ha := ha a List.mem_cons_self
    have hcreate : ∀ c : Content, (∀ s, c = .string s → 0 ∉ s) →
        ∀ p e s, (st.create c).2.entry p = some e → e.content = .string s → 0 ∉ s := by
      intro c hc p e s he hs
      simp only [Store.create] at he
      split_ifs at he
      · cases he; exact hc s hs
      · exact hst p e s he hs
    have hchange : ∀ (f : Entry → Entry) q, (∀ e s, (f e).content = .string s → e.content = .string s) →
        ∀ p e s, (st.change q f).entry p = some e → e.content = .string s → 0 ∉ s := by
      intro f q hf p e s he hs
      simp only [Store.change] at he
      split_ifs at he
      · obtain ⟨e', he', rfl⟩ := Option.map_eq_some_iff.mp he
        exact hst p e' s he' (hf e' s hs)
      · exact hst p e s he hs
    cases a with
    | newArray s n => exact hcreate _ fun s h => by cases h
    | newTuple n => exact hcreate _ fun s h => by cases h
    | newCallable f m c => exact hcreate _ fun s h => by cases h
    | newString s => exact hcreate _ fun t h => by cases h; exact ha
    | newBigint n => exact hcreate _ fun s h => by cases h
    | ref k p u => exact hchange _ _ fun _ _ h => h
    | «alias» k p u => exact hchange _ _ fun _ _ h => h
    | copy k p force =>
      simp only [Store.act]
      cases hp : st.entry p with
      | none => exact hst
      | some e =>
        simp only
        split_ifs
        · exact hcreate _ fun s h => hst p e s hp h
        · exact hchange _ _ fun _ _ h => h
    | concat p q =>
      simp only [Store.act]
      split
      · exact hcreate _ fun s h => by cases h
      · exact hst
    | joinStrings p q =>
      simp only [Store.act]
      split
      · rename_i h1 h2
        refine hcreate _ fun s h => ?_
        cases h
        rw [List.mem_append, not_or]
        exact ⟨hst _ _ _ h1 rfl, hst _ _ _ h2 rfl⟩
      · exact hst
    | storeElement p i v =>
      refine hchange _ _ fun e s h => ?_
      split at h
      · cases h
      · exact h
    | storeWord p i w =>
      refine hchange _ _ fun e s h => ?_
      split at h
      · cases h
      · exact h
    | makeAdjoint p =>
      refine hchange _ _ fun e s h => ?_
      split at h
      · cases h
      · exact h
    | makeControlled p =>
      refine hchange _ _ fun e s h => ?_
      split at h
      · cases h
      · exact h

/-- **C54**: the hypotheses of the three theorems hold after every session of a client that keeps to its
entitlements (`C32_counts`). -/
theorem C54_session (as : List Act) (hal : Store.AllowedRun as Store.empty) (ht : ∀ a ∈ as, a.texts) :
    ∃ rs h, Heap.run as Heap.empty = .ok (rs, h) ∧ Unused h ∧ (∀ p s, stringsOf h p = some s → 0 ∉ s) ∧
      (∀ p e a, (Store.run as Store.empty).2.entry p = some e → 0 < e.refs → e.content = .bigint a →
        bigsOf h p = some a) ∧
      (∀ p e s, (Store.run as Store.empty).2.entry p = some e → 0 < e.refs → e.content = .string s →
        stringsOf h p = some s) := by
  obtain ⟨h, h1, ha⟩ := agrees_empty.run as hal
  refine ⟨_, h, h1, ?_, ?_, ?_, ?_⟩
  · intro q hq
    have hn := ha.new q (by rw [← ha.next]; exact hq)
    refine ⟨?_, ?_, ?_⟩
    · rw [ha.box, hn]; rfl
    · rw [← List.count_eq_zero, ha.dropped, hn]; rfl
    · rw [← List.count_eq_zero, ha.freed, hn]; rfl
  · intro p s hs
    rw [stringsOf_eq] at hs
    simp only [Heap.read, ha.box] at hs
    cases he : (Store.run as Store.empty).2.entry p with
    | none => rw [he] at hs; cases hs
    | some e =>
      have hc : e.content = .string s := by
        rw [he] at hs
        simp only [Option.bind_some, boxOf] at hs
        split_ifs at hs
        cases hc : e.content <;> rw [hc] at hs <;> simp_all [objOf]
      exact texts_run as ht (fun _ _ _ h _ => by simp [Store.empty] at h) p e s he hc
  · intro p e a he hr hc
    have := ha.shows he hr
    rw [hc] at this
    exact bigsOf_eq.mpr this
  · intro p e s he hr hc
    have := ha.shows he hr
    rw [hc] at this
    exact stringsOf_eq.mpr this

/-- A session with two objects. -/
def twoBigs : List Act := [.newBigint (-7), .newBigint 3, .newString [65, 66]]

/-- The heap after it. -/
def twoBigsHeap : Heap := (Heap.empty.alloc (.bigint (-7))).2.alloc (.bigint 3) |>.2.alloc (.string [65, 66]) |>.2

example : Heap.run twoBigs Heap.empty = .ok ([some 1, some 2, some 3], twoBigsHeap) := rfl

/-- `((-7) >> 1) & (3 ^ 2 - (-7) % 3)` is 8, and of the objects 4 to 9 only the last is left. -/
def sample : BigExpr :=
  .bin .and (.un (.shr 1) (.obj 1)) (.bin .sub (.un (.pow 2) (.obj 2)) (.bin .mod (.obj 1) (.obj 2)))

example : sample.Known (bigsOf twoBigsHeap) :=
  ⟨by show bigsOf twoBigsHeap 1 ≠ none; decide, by show bigsOf twoBigsHeap 2 ≠ none; decide,
    by show bigsOf twoBigsHeap 1 ≠ none; decide, by show bigsOf twoBigsHeap 2 ≠ none; decide⟩

example : (match evalBig sample twoBigsHeap with
    | .ok (x, h) => (x.at_, x.own, h.box x.at_, h.dropped, h.box 5, h.box 1)
    | .error _ => (0, false, none, [], none, none)) =
    (8, true, some ⟨1, 1, some (.bigint 8)⟩, [7, 4, 6, 5], none, some ⟨1, 1, some (.bigint (-7))⟩) := by
  decide +kernel

/-- Division by zero, deep in an expression. -/
example : (match evalStr (.cat (.obj 3) (.ofBig (.bin .div (.obj 1) (.bin .sub (.obj 2) (.ofInt 3)))))
      twoBigsHeap with
    | .ok _ => false
    | .error f => f = .panic) = true := by decide

/-- `"AB" + bigint_to_string (-7 / 3)`. -/
example : (match evalStr (.cat (.obj 3) (.ofBig (.bin .div (.obj 1) (.obj 2)))) twoBigsHeap with
    | .ok (x, h) => (h.box x.at_, h.dropped)
    | .error _ => (none, [])) = (some ⟨1, 1, some (.string [65, 66, 45, 50])⟩, [5, 4]) := by decide

/-! ### C55 -/

/-- The values that can be turned into text. -/
inductive Shown
  | int (n : ℤ)
  | double (d : Double)
  | bool (b : Bool)
  | pauli (P : PauliArg)
  | range (r : Range)

/-- The conversion. -/
def Shown.toText : Shown → StrExpr
  | .int n => .ofInt n
  | .double d => .ofDouble d
  | .bool b => .ofBool b
  | .pauli P => .ofPauli P
  | .range r => .ofRange r

/-- The text of the library. -/
def Shown.text : Shown → List Char
  | .int n => intText n
  | .double d => doubleText d
  | .bool b => boolText b
  | .pauli P => "Pauli".toList ++ [P.letter]
  | .range r => rangeText r

theorem Shown.text_field (v : Shown) : Field v.text := by
  cases v with
  | int n => exact intText_field n
  | double d => exact doubleText_field d
  | bool b => exact boolText_field b
  | pauli P => cases P <;> decide
  | range r => exact rangeText_field r

theorem Shown.reads {σ τ} {v : Shown} {s : List UInt8} (h : Reads σ τ v.toText s) : s = ascii v.text := by
  cases v with
  | int n => cases h with | ofInt h => rw [decimal_iff.mp h]; rfl
  | double d => cases h with | ofDouble h => rw [point_iff.mp h]; rfl
  | bool b => cases h <;> rfl
  | pauli P => cases h; rfl
  | range r => cases h with | ofRange h => rw [rangeReads_iff.mp h]; rfl

theorem count_dot_int (n : ℤ) : (intText n).count '.' = 0 := List.count_eq_zero.mpr (no_mark (by decide) (by decide))

/-- The kind, read off the text. -/
def kindOf (l : List Char) : ℕ := if 2 ≤ l.count '.' then 4 else groupOf l

theorem kindOf_text (v : Shown) : kindOf v.text =
    match v with | .int _ => 0 | .bool _ => 1 | .double _ => 2 | .pauli _ => 3 | .range _ => 4 := by
  cases v with
  | int n =>
    show kindOf (intText n) = 0
    rw [kindOf, count_dot_int, if_neg (by omega)]
    exact groupOf_text (.int n)
  | double d =>
    have h2 : ¬ 2 ≤ (doubleText d).count '.' := by
      match d with
      | .nan => decide
      | .inf false => decide
      | .inf true => decide
      | .finite neg whole frac hn =>
        rw [doubleText_finite, List.count_append, List.count_eq_zero.mpr (dot_notMem neg whole),
          List.count_cons_self]
        have : (tailText frac).count '.' = 0 := by
          rw [List.count_eq_zero]
          unfold tailText
          split_ifs
          · decide
          · intro h
            obtain ⟨a, -, ha⟩ := List.mem_map.mp h
            revert ha; revert a; decide
        omega
    show kindOf (doubleText d) = 2
    rw [kindOf, if_neg h2]
    exact groupOf_text (.double d)
  | bool b => cases b <;> decide +kernel
  | pauli P => cases P <;> decide +kernel
  | range r =>
    show kindOf (rangeText r) = 4
    rw [kindOf, if_pos]
    unfold rangeText
    simp only [List.count_append]
    have : List.count '.' ['.', '.'] = 2 := by decide
    omega

/-- **C55**.  The text of a value determines its type and the value: integers, doubles, booleans, Pauli
matrices and ranges. -/
theorem C55_text_injective (σ τ) (v w : Shown) (s : List UInt8) (hv : Reads σ τ v.toText s)
    (hw : Reads σ τ w.toText s) : v = w := by
  have h : v.text = w.text :=
    ascii_inj v.text_field.narrow w.text_field.narrow ((Shown.reads hv).symm.trans (Shown.reads hw))
  have hk : kindOf v.text = kindOf w.text := by rw [h]
  rw [kindOf_text, kindOf_text] at hk
  cases v <;> cases w <;> first | (exfalso; simp at hk; done) | skip
  · exact congrArg _ (intText_inj h)
  · exact congrArg _ (doubleText_inj h)
  · exact congrArg _ (boolText_inj h)
  · rename_i P Q
    have : P.letter = Q.letter := by simpa [Shown.text] using h
    congr 1
    revert this
    cases P <;> cases Q <;> decide
  · exact congrArg _ (C43_range_text_injective _ _ h)

/-- **C55**: every value has a text, and `int_to_string` and `bigint_to_string` agree. -/
theorem C55_text (σ τ) (v : Shown) : ∃ s, Reads σ τ v.toText s := by
  cases v with
  | int n => exact ⟨_, .ofInt (decimal_iff.mpr rfl)⟩
  | double d => exact ⟨_, .ofDouble (point_iff.mpr rfl)⟩
  | bool b => cases b; exacts [⟨_, .ofFalse⟩, ⟨_, .ofTrue⟩]
  | pauli P => exact ⟨_, .ofPauli P⟩
  | range r => exact ⟨_, .ofRange (rangeReads_iff.mpr rfl)⟩

theorem C55_big_as_int (σ τ) (e : BigExpr) (n : ℤ) (hn : Means σ e n) (s : List UInt8) :
    Reads σ τ (.ofBig e) s ↔ Reads σ τ (.ofInt n) s := by
  constructor
  · intro h
    cases h with | ofBig m d => rw [m.unique hn] at d; exact .ofInt d
  · intro h
    cases h with | ofInt d => exact .ofBig hn d

/-- **C55**, classification of doubles: each is of exactly one of the four sorts, the constants are of the sort
they are called, and the tests agree with the text. -/
theorem C55_classification :
    isnanBody nanBody = true ∧ isinfBody infinityBody = true ∧
    (∀ d : Double, isnanBody d = true ↔ doubleText d = "NaN".toList) ∧
    (∀ d : Double, isinfBody d = true ↔ doubleText d = "inf".toList) ∧
    (∀ d : Double, isnegativeinfinityBody d = true ↔ doubleText d = "-inf".toList) ∧
    ∀ d : Double, ((isnanBody d).toNat + (isinfBody d).toNat + (isnegativeinfinityBody d).toNat ≤ 1) ∧
      (isnanBody d = false → isinfBody d = false → isnegativeinfinityBody d = false → '.' ∈ doubleText d) := by
  have hfin : ∀ neg whole frac hn, '.' ∈ doubleText (.finite neg whole frac hn) := by
    intro neg whole frac hn; rw [doubleText_finite]; simp
  have hdot : ∀ {neg whole frac hn} {l : List Char}, '.' ∉ l → ¬ doubleText (.finite neg whole frac hn) = l :=
    fun h e => h (e ▸ hfin _ _ _ _)
  refine ⟨rfl, rfl, fun d => ?_, fun d => ?_, fun d => ?_, fun d => ⟨?_, ?_⟩⟩
  · match d with
    | .nan => decide
    | .inf false => decide
    | .inf true => decide
    | .finite .. => exact ⟨fun h => (nomatch h), fun h => absurd h (hdot (by decide))⟩
  · match d with
    | .nan => decide
    | .inf false => decide
    | .inf true => decide
    | .finite .. => exact ⟨fun h => (nomatch h), fun h => absurd h (hdot (by decide))⟩
  · match d with
    | .nan => decide
    | .inf false => decide
    | .inf true => decide
    | .finite .. => exact ⟨fun h => (nomatch h), fun h => absurd h (hdot (by decide))⟩
  · match d with
    | .nan => decide
    | .inf false => decide
    | .inf true => decide
    | .finite .. => exact Nat.zero_le 1
  · match d with
    | .nan => decide
    | .inf false => decide
    | .inf true => decide
    | .finite .. => exact fun _ _ _ => hfin _ _ _ _

/-- Two texts that are close: the integer 3 and the double 3. -/
example : (Shown.int 3).text = "3".toList ∧ (Shown.double (.finite false 3 [] (by simp))).text = "3.0".toList ∧
    (Shown.range ⟨3, 1, 0⟩).text = "3..0".toList := by decide +kernel

end Qir.Std
