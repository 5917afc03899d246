import Verif.Proof.Heap
import Mathlib.Algebra.Order.Ring.Nat
import Mathlib.Tactic.NormNum

/-!
# C32, C33, C35: reference counts, copying, concatenation
-/

namespace Qir.Std
open Spec Heap

/-- The object at `p` can be read and has these contents. -/
def Shows (h : Heap) (p : Addr) : Content → Prop
  | .array s d => readArray p h = .ok ⟨s, d⟩
  | .tuple ws => readTuple p h = .ok (p, ws)
  | .callable c => readCallable p h = .ok c
  | .string s => Heap.read p h = .ok (.string s)
  | .bigint n => Heap.read p h = .ok (.bigint n)

theorem Agrees.shows {h : Heap} {st : Store} (ha : Agrees h st) {p : Addr} {e : Entry}
    (he : st.entry p = some e) (hr : 0 < e.refs) : Shows h p e.content := by
  cases hc : e.content with
  | array s d => exact ha.readArray_eq he hr hc
  | tuple ws => exact ha.readTuple_eq he hr hc
  | callable c => exact ha.readCallable_eq he hr hc
  | string s => simpa [Shows, hc, objOf] using ha.read_eq he hr
  | bigint n => simpa [Shows, hc, objOf] using ha.read_eq he hr

theorem AllowedRun.act {as : List Act} {st : Store} {a : Act} (h : Store.AllowedRun (as ++ [a]) st) :
    Store.AllowedRun as st ∧ (Store.run as st).2.Allowed a := by
  induction as generalizing st with
  | nil => exact ⟨trivial, h.1⟩
  | cons b as ih => exact ⟨⟨h.1, (ih h.2).1⟩, (ih h.2).2⟩

/-- **C32**.  For every session in which the client keeps to its entitlements: nothing goes wrong, the
names returned are those of the store, and at the end each object

* can be read, with the contents it should have, as long as references are left;
* has been dropped once if no references are left, otherwise not at all;
* has had its memory released once if neither references nor aliases are left, otherwise not at all. -/
theorem C32_counts (as : List Act) (hal : Store.AllowedRun as Store.empty) :
    ∃ h, Heap.run as Heap.empty = .ok ((Store.run as Store.empty).1, h) ∧
      (∀ p e, (Store.run as Store.empty).2.entry p = some e →
        (0 < e.refs → Shows h p e.content) ∧
        h.dropped.count p = (if e.refs = 0 then 1 else 0) ∧
        h.freed.count p = (if e.refs = 0 ∧ e.aliases = 0 then 1 else 0)) ∧
      ∀ p, (Store.run as Store.empty).2.entry p = none → p ∉ h.dropped ∧ p ∉ h.freed := by
  obtain ⟨h, h1, ha⟩ := agrees_empty.run as hal
  refine ⟨h, h1, fun p e he => ⟨ha.shows he, ?_, ?_⟩, fun p hp => ⟨?_, ?_⟩⟩
  · rw [ha.dropped, he]; rfl
  · rw [ha.freed, he]; rfl
  · rw [← List.count_eq_zero, ha.dropped, hp]; rfl
  · rw [← List.count_eq_zero, ha.freed, hp]; rfl

/-- **C32**, the moment of the drop: a request drops an object exactly when it takes its last
references. -/
theorem C32_drop_moment (as : List Act) (a : Act) (hal : Store.AllowedRun (as ++ [a]) Store.empty) :
    ∃ rs h r h', Heap.run as Heap.empty = .ok (rs, h) ∧ h.act a = .ok (r, h') ∧
      ∀ p, h'.dropped.count p = h.dropped.count p + 1 ↔
        ∃ e u k, (Store.run as Store.empty).2.entry p = some e ∧ 0 < e.refs ∧ a = .ref k p u ∧
          (e.refs : ℤ) + u = 0 := by
  obtain ⟨h1, h2⟩ := AllowedRun.act hal
  obtain ⟨h, hrun, ha⟩ := agrees_empty.run as h1
  obtain ⟨h', hact, ha'⟩ := ha.act a h2
  refine ⟨_, h, _, h', hrun, hact, fun p => ?_⟩
  generalize (Store.run as Store.empty).2 = st at *
  rw [ha'.dropped, ha.dropped]
  have hcreate : ∀ c q, dropsOf ((st.create c).2.entry q) = dropsOf (st.entry q) := by
    intro c q
    simp only [Store.create]
    split_ifs with h3
    · rw [ha.new q (by omega)]; simp [dropsOf]
    · rfl
  have hchange : ∀ (f : Entry → Entry) q p', (∀ e, (f e).refs = e.refs) →
      dropsOf ((st.change p' f).entry q) = dropsOf (st.entry q) := by
    intro f q p' hf
    simp only [Store.change]
    split_ifs with h3
    · cases st.entry q <;> simp [dropsOf, hf]
    · rfl
  cases a with
  | ref k q u =>
    obtain ⟨e, he, hk, hr, hu⟩ := h2
    simp only [Store.act, Store.change]
    constructor
    · intro h4
      split_ifs at h4 with h5
      · subst h5
        rw [he] at h4
        simp only [Option.map_some, dropsOf, Nat.pos_iff_ne_zero.mp hr, if_false] at h4
        refine ⟨e, u, k, he, hr, rfl, ?_⟩
        split_ifs at h4 with h6
        omega
      · omega
    · rintro ⟨e', u', k', he', hr', h5, h6⟩
      obtain ⟨rfl, rfl, rfl⟩ : k = k' ∧ q = p ∧ u = u' := by simpa using h5
      rw [he] at he'; cases he'
      simp [he, dropsOf, Nat.pos_iff_ne_zero.mp hr, h6]
  | «alias» k q u =>
    simp only [Store.act]
    rw [hchange (fun e => { e with aliases := (e.aliases + u).toNat }) _ _ fun _ => rfl]
    simp
  | copy k q force =>
    simp only [Store.act]
    cases hq : st.entry q with
    | none => simp
    | some e =>
      simp only
      split_ifs with h3
      · rw [hcreate]; simp
      · simp only [Store.change]
        obtain ⟨⟨e', he', hr, _⟩, _⟩ := h2
        rw [hq] at he'; cases he'
        by_cases h4 : p = q
        · subst h4; simp [hq, dropsOf, Nat.pos_iff_ne_zero.mp hr]
        · simp [h4]
  | concat q r =>
    obtain ⟨⟨_, _, _⟩, ⟨_, _, _⟩, s, d, d', he, hf, _, _, rfl, rfl⟩ := h2
    simp only [Store.act, he, hf]
    rw [hcreate]; simp
  | joinStrings q r =>
    obtain ⟨⟨⟨_, _, c⟩, he, _, hk⟩, ⟨⟨_, _, c'⟩, hf, _, hk'⟩⟩ := h2
    cases c <;> simp only [Content.kind, reduceCtorEq] at hk
    cases c' <;> simp only [Content.kind, reduceCtorEq] at hk'
    simp only [Store.act, he, hf]
    rw [hcreate]; simp
  | newArray s n => simp only [Store.act]; rw [hcreate]; simp
  | newTuple n => simp only [Store.act]; rw [hcreate]; simp
  | newCallable f m c => simp only [Store.act]; rw [hcreate]; simp
  | newString s => simp only [Store.act]; rw [hcreate]; simp
  | newBigint n => simp only [Store.act]; rw [hcreate]; simp
  | storeElement q i v =>
    simp only [Store.act]; rw [hchange _ _ _ fun e => by split <;> rfl]; simp
  | storeWord q i v =>
    simp only [Store.act]; rw [hchange _ _ _ fun e => by split <;> rfl]; simp
  | makeAdjoint q =>
    simp only [Store.act]; rw [hchange _ _ _ fun e => by split <;> rfl]; simp
  | makeControlled q =>
    simp only [Store.act]; rw [hchange _ _ _ fun e => by split <;> rfl]; simp

/-- **C32**, aliases: an update of alias counts drops nothing and leaves every object readable as it
was. -/
theorem C32_alias_harmless (as : List Act) (k : Kind) (p : Addr) (u : ℤ)
    (hal : Store.AllowedRun (as ++ [.alias k p u]) Store.empty) :
    ∃ rs h h', Heap.run as Heap.empty = .ok (rs, h) ∧ h.act (.alias k p u) = .ok (none, h') ∧
      h'.dropped = h.dropped ∧ ∀ q, Heap.read q h' = Heap.read q h := by
  obtain ⟨h1, h2⟩ := AllowedRun.act hal
  obtain ⟨h, hrun, ha⟩ := agrees_empty.run as h1
  obtain ⟨h', hact, ha'⟩ := ha.act _ h2
  refine ⟨_, h, h', hrun, hact, ?_, fun q => ?_⟩
  · obtain ⟨e, he, hk, hu, hk1, hk2, hl⟩ := h2
    have hup : ∃ p', updateCounts p' u true h = .ok h' := by
      cases k with
      | tuple =>
        rw [Heap.act, tupleUpdateAlias, ha.header_eq he (by tauto) hk] at hact
        refine ⟨p, ?_⟩
        simp only [bind, Except.bind, pure, Except.pure] at hact
        split at hact
        · cases hact
        · rename_i hh; cases hact; exact hh
      | string => exact absurd rfl hk1
      | bigint => exact absurd rfl hk2
      | array =>
        rw [Heap.act, arrayUpdateAlias] at hact
        refine ⟨p, ?_⟩
        simp only [bind, Except.bind, pure, Except.pure] at hact
        split at hact
        · cases hact
        · rename_i hh; cases hact; exact hh
      | callable =>
        rw [Heap.act, callableUpdateAlias] at hact
        refine ⟨p, ?_⟩
        simp only [bind, Except.bind, pure, Except.pure] at hact
        split at hact
        · cases hact
        · rename_i hh; cases hact; exact hh
    obtain ⟨p', hup⟩ := hup
    have hinc : ∀ {g g' : Heap}, incWeak p' g = .ok g' → g'.dropped = g.dropped := by
      intro g g' hg
      simp only [incWeak] at hg
      split at hg <;> cases hg
      rfl
    have hdec : ∀ {g g' : Heap}, decWeak p' g = .ok g' → g'.dropped = g.dropped := by
      intro g g' hg
      simp only [decWeak] at hg
      split at hg
      · split_ifs at hg <;> cases hg <;> rfl
      · cases hg
    have hiter : ∀ (f : Heap → Except Fault Heap), (∀ {g g' : Heap}, f g = .ok g' → g'.dropped = g.dropped) →
        ∀ n {g g' : Heap}, iterate f n g = .ok g' → g'.dropped = g.dropped := by
      intro f hf n
      induction n with
      | zero => intro g g' hg; cases hg; rfl
      | succ n ih =>
        intro g g' hg
        simp only [iterate, bind, Except.bind] at hg
        split at hg
        · cases hg
        · rename_i hh; exact (ih hg).trans (hf hh)
    simp only [updateCounts] at hup
    split_ifs at hup
    · exact hiter _ (fun hg => hinc (by simpa [countUp] using hg)) _ hup
    · refine hiter _ (fun {g g'} hg => ?_) _ hup
      simp only [countDown, if_true, bind, Except.bind] at hg
      split at hg
      · cases hg
      · rename_i h3
        split at hg
        · cases hg
        · rename_i h4; exact (hdec hg).trans ((hdec h4).trans (hinc h3))
  · simp only [Heap.read, ha.box, ha'.box, Store.act, Store.change]
    by_cases h3 : q = p
    · subst h3
      obtain ⟨e, he, -⟩ := h2
      rw [if_pos rfl, he]
      simp only [Option.map_some, Option.bind_some, boxOf]
      by_cases h4 : 0 < e.refs
      · simp [h4]
      · simp only [h4, if_false]
        split_ifs <;> rfl
    · rw [if_neg h3]

/-- A session meeting the hypotheses, with two kinds of objects, aliases and copies: an array is created,
aliased, copied because of the alias, given two more references, all of which are returned; the tuple
stays. -/
example : Store.AllowedRun [.newArray 1 3, .alias .array 1 1, .copy .array 1 false, .ref .array 1 2,
    .newTuple 2, .storeWord 3 1 7, .alias .array 1 (-1), .ref .array 1 (-3)] Store.empty := by
  simp [Store.AllowedRun, Store.Allowed, Store.act, Store.create, Store.change, Store.empty, Content.kind,
    Store.Live]

/-- Taking one reference more than there are is undefined behaviour. -/
theorem C32_too_many (as : List Act) (hal : Store.AllowedRun as Store.empty) (p : Addr) (e : Entry)
    (he : (Store.run as Store.empty).2.entry p = some e) (hk : e.content.kind = .array) (n : ℕ)
    (hn : e.refs < n) :
    ∃ rs h, Heap.run as Heap.empty = .ok (rs, h) ∧ h.act (.ref .array p (-n)) = .error .undefined := by
  obtain ⟨h, hrun, ha⟩ := agrees_empty.run as hal
  refine ⟨_, h, hrun, ?_⟩
  have hdown : ∀ n (g : Heap), (∀ b, g.box p = some b → b.strong < n ∧ (0 < b.strong → 0 < b.weak)) → 0 < n →
      iterate (countDown p false) n g = .error .undefined := by
    intro n
    induction n with
    | zero => intro g _ h0; omega
    | succ n ih =>
      intro g hg _
      simp only [iterate, countDown, decStrong]
      cases hb : g.box p with
      | none => simp [bind, Except.bind]
      | some b =>
        obtain ⟨h1, h2⟩ := hg b hb
        simp only [Bool.false_eq_true, if_false]
        split_ifs with h3 h4
        · rfl
        · have h5 : 0 < b.weak := h2 (by omega)
          simp only [decWeak, box_set, if_true]
          split_ifs with h6 h7
          · omega
          · simp only [bind, Except.bind]
            refine ih _ (fun c hc => ?_) (by omega)
            simp [box_dealloc] at hc
          · simp only [bind, Except.bind]
            refine ih _ (fun c hc => ?_) (by omega)
            simp only [box_set, if_true, Option.some.injEq] at hc
            subst hc
            simp
            omega
        · simp only [bind, Except.bind]
          refine ih _ (fun c hc => ?_) (by omega)
          simp only [box_set, if_true, Option.some.injEq] at hc
          subst hc
          exact ⟨by simp only; omega, fun _ => h2 (by omega)⟩
  have : updateCounts p (-(n : ℤ)) false h = .error .undefined := by
    unfold updateCounts
    rw [if_neg (by omega)]
    have h0 : (- -(n : ℤ)).toNat = n := by omega
    rw [h0]
    refine hdown n h (fun b hb => ?_) (by omega)
    rw [ha.box, he] at hb
    simp only [Option.bind_some, boxOf] at hb
    split_ifs at hb <;> cases hb <;> constructor <;> simp only <;> omega
  simp [Heap.act, arrayUpdateRef, this, bind, Except.bind]

/-! ### C33 -/

/-- **C33**.  Whatever happened before: if the copy is forced or the object has aliases, a new object
with equal contents results and the old one is exactly as before; otherwise the same object results,
with one more reference and the same contents. -/
theorem C33_copy (as : List Act) (k : Kind) (p : Addr) (force : Bool)
    (hal : Store.AllowedRun (as ++ [.copy k p force]) Store.empty) :
    ∃ rs h q h' e, Heap.run as Heap.empty = .ok (rs, h) ∧ h.act (.copy k p force) = .ok (some q, h') ∧
      (Store.run as Store.empty).2.entry p = some e ∧ Shows h p e.content ∧ Shows h' q e.content ∧
      (force = true ∨ 0 < e.aliases → h.box q = none ∧ q ∉ h.freed ∧ (∀ r, r ≠ q → h'.box r = h.box r) ∧
        h'.box q = some ⟨1, 1, (h'.box q).bind Box.val⟩) ∧
      (¬ (force = true ∨ 0 < e.aliases) → q = p ∧ (∀ r, r ≠ p → h'.box r = h.box r) ∧
        ∃ b, h.box p = some b ∧ h'.box p = some { b with strong := b.strong + 1 }) := by
  obtain ⟨h1, h2⟩ := AllowedRun.act hal
  obtain ⟨h, hrun, ha⟩ := agrees_empty.run as h1
  obtain ⟨h', hact, ha'⟩ := ha.act _ h2
  obtain ⟨⟨e, he, hr, hk⟩, hk1, hk2⟩ := h2
  generalize (Store.run as Store.empty).2 = st at *
  by_cases hc : force = true ∨ 0 < e.aliases
  · have h3 : st.act (.copy k p force) = st.create e.content := by simp [Store.act, he, hc]
    rw [h3] at hact ha'
    have hnew := ha.new st.next (le_refl _)
    have hent : (st.create e.content).2.entry st.next = some ⟨1, 0, e.content⟩ := by
      simp [Store.create]
    refine ⟨_, h, st.next, h', e, hrun, hact, he, ha.shows he hr,
      Agrees.shows (e := ⟨1, 0, e.content⟩) ha' hent Nat.one_pos, fun _ => ⟨?_, ?_, fun r hrn => ?_, ?_⟩, fun hn => absurd hc hn⟩
    · rw [ha.box, hnew]; rfl
    · rw [← List.count_eq_zero, ha.freed, hnew]; rfl
    · rw [ha.box, ha'.box]; simp [Store.create, hrn]
    · rw [ha'.live hent Nat.one_pos]; rfl
  · have h3 : st.act (.copy k p force) =
        (some p, st.change p fun e => { e with refs := e.refs + 1 }) := by
      simp only [Store.act, he]; rw [if_neg hc]
    rw [h3] at hact ha'
    have hent : (st.change p fun e => { e with refs := e.refs + 1 }).entry p =
        some { e with refs := e.refs + 1 } := by simp [Store.change, he]
    refine ⟨_, h, p, h', e, hrun, hact, he, ha.shows he hr, ?_, fun hn => absurd hn hc,
      fun _ => ⟨rfl, fun r hrn => ?_, _, ha.live he hr, ?_⟩⟩
    · exact Agrees.shows (e := { e with refs := e.refs + 1 }) ha' hent (Nat.succ_pos _)
    · rw [ha.box, ha'.box]; simp [Store.change, hrn]
    · rw [ha'.live hent (Nat.succ_pos _)]

/-- Requests that write into the object `q`. -/
def Act.Writes : Act → Addr → Prop
  | .storeElement p _ _, q | .storeWord p _ _, q | .makeAdjoint p, q | .makeControlled p, q => p = q
  | _, _ => False

/-- **C33**, writes: a write into one object changes no other, at no time. -/
theorem C33_writes_separate (as : List Act) (a : Act) (q : Addr) (ha : a.Writes q)
    (hal : Store.AllowedRun (as ++ [a]) Store.empty) :
    ∃ rs h r h', Heap.run as Heap.empty = .ok (rs, h) ∧ h.act a = .ok (r, h') ∧
      ∀ p, p ≠ q → h'.box p = h.box p := by
  obtain ⟨h1, h2⟩ := AllowedRun.act hal
  obtain ⟨h, hrun, hag⟩ := agrees_empty.run as h1
  obtain ⟨h', hact, hag'⟩ := hag.act _ h2
  refine ⟨_, h, _, h', hrun, hact, fun p hp => ?_⟩
  rw [hag.box, hag'.box]
  cases a <;> simp only [Act.Writes] at ha <;> subst ha <;> simp [Store.act, Store.change, hp]

/-- A copy because of an alias followed by a write to the copy: the original still shows zeros. -/
example : ∃ rs h, Heap.run [.newTuple 2, .alias .tuple 1 1, .copy .tuple 1 false, .storeWord 2 0 9]
      Heap.empty = .ok (rs, h) ∧ Shows h 1 (.tuple [0, 0]) ∧ Shows h 2 (.tuple [9, 0]) := by
  obtain ⟨h, h1, h2, -⟩ := C32_counts
    [.newTuple 2, .alias .tuple 1 1, .copy .tuple 1 false, .storeWord 2 0 9] (by
      simp [Store.AllowedRun, Store.Allowed, Store.act, Store.create, Store.change, Store.empty,
        Content.kind, Store.Live])
  refine ⟨_, h, h1, ?_, ?_⟩
  · exact (h2 1 ⟨1, 1, .tuple [0, 0]⟩ (by
      simp [Store.run, Store.act, Store.create, Store.change, Store.empty])).1 Nat.one_pos
  · exact (h2 2 ⟨1, 0, .tuple [9, 0]⟩ (by
      simp [Store.run, Store.act, Store.create, Store.change, Store.empty])).1 Nat.one_pos

/-! ### C35 -/

/-- The length of every array is a multiple of its element size. -/
def WholeElements (st : Store) : Prop :=
  ∀ p e s d, st.entry p = some e → e.content = .array s d → s ∣ d.length

theorem WholeElements.act {st : Store} (hw : WholeElements st) (a : Act) (hal : st.Allowed a) :
    WholeElements (st.act a).2 := by
  have hcreate : ∀ c, (∀ s d, c = .array s d → s ∣ d.length) → WholeElements (st.create c).2 := by
    intro c hc p e s d he hcc
    simp only [Store.create] at he
    split_ifs at he with h1
    · cases he; exact hc s d hcc
    · exact hw p e s d he hcc
  have hchange : ∀ p (f : Entry → Entry),
      (∀ e s d, (f e).content = .array s d → ∃ d', e.content = .array s d' ∧ d'.length = d.length) →
      WholeElements (st.change p f) := by
    intro p f hf q e s d he hc
    simp only [Store.change] at he
    split_ifs at he with h1
    · cases hq : st.entry q with
      | none => simp [hq] at he
      | some e' =>
        rw [hq] at he
        cases he
        obtain ⟨d', h2, h3⟩ := hf e' s d hc
        rw [← h3]; exact hw q e' s d' hq h2
    · exact hw q e s d he hc
  cases a with
  | newArray s n =>
    exact hcreate _ fun s' d hc => by cases hc; simp
  | newTuple n => exact hcreate _ fun s' d hc => by cases hc
  | newCallable f m c => exact hcreate _ fun s' d hc => by cases hc
  | newString s => exact hcreate _ fun s' d hc => by cases hc
  | newBigint n => exact hcreate _ fun s' d hc => by cases hc
  | ref k p u => exact hchange _ _ fun e s d hc => ⟨d, hc, rfl⟩
  | «alias» k p u => exact hchange _ _ fun e s d hc => ⟨d, hc, rfl⟩
  | copy k p force =>
    simp only [Store.act]
    split
    · rename_i e he
      split_ifs
      · exact hcreate _ fun s d hc => hw p e s d he hc
      · exact hchange _ _ fun e s d hc => ⟨d, hc, rfl⟩
    · exact hw
  | concat p q =>
    obtain ⟨⟨_, _, _⟩, ⟨_, _, _⟩, s, d, d', he, hf, _, _, rfl, rfl⟩ := hal
    simp only [Store.act, he, hf]
    refine hcreate _ fun s'' d'' hc => ?_
    cases hc
    rw [List.length_append]
    exact Nat.dvd_add (hw p _ s d he rfl) (hw q _ s d' hf rfl)
  | joinStrings p q =>
    simp only [Store.act]
    split
    · exact hcreate _ fun s' d hc => by cases hc
    · exact hw
  | storeElement p i v =>
    refine hchange _ _ fun e s d hc => ?_
    split at hc
    · rename_i s' d' he
      cases hc
      exact ⟨d', he, by simp [Store.splice]⟩
    · exact ⟨d, hc, rfl⟩
  | storeWord p i v =>
    refine hchange _ _ fun e s d hc => ?_
    split at hc
    · cases hc
    · exact ⟨d, hc, rfl⟩
  | makeAdjoint p =>
    refine hchange _ _ fun e s d hc => ?_
    split at hc
    · cases hc
    · exact ⟨d, hc, rfl⟩
  | makeControlled p =>
    refine hchange _ _ fun e s d hc => ?_
    split at hc
    · cases hc
    · exact ⟨d, hc, rfl⟩

theorem WholeElements.run : ∀ (as : List Act) {st : Store}, WholeElements st → Store.AllowedRun as st →
    WholeElements (Store.run as st).2
  | [], _, hw, _ => hw
  | a :: as, _, hw, hal => WholeElements.run as (hw.act a hal.1) hal.2

theorem wholeElements_empty : WholeElements Store.empty := by
  intro p e s d he; cases he

theorem getSize_ok {h : Heap} {p : Addr} {n : ℕ} (hn : arrayGetSize p h = .ok n) :
    ∃ s d, readArray p h = .ok ⟨s, d⟩ ∧ s ≠ 0 ∧ n = d.length / s := by
  simp only [arrayGetSize, bind, Except.bind, pure, Except.pure] at hn
  split at hn
  · cases hn
  · rename_i a hq
    split_ifs at hn with h0
    cases hn
    exact ⟨_, _, hq, h0, rfl⟩

theorem slice_left {α : Type*} (d d' : List α) (o s : ℕ) (ho : o + s ≤ d.length) :
    ((d ++ d').drop o).take s = (d.drop o).take s := by
  rw [List.drop_append_of_le_length (by omega), List.take_append_of_le_length (by simp; omega)]

/-- **C35**.  In every state a client can bring about, for two arrays of `n` and `m` elements of the
same size: the concatenation has `n + m` elements, element `i` is element `i` of the first array or
element `i - n` of the second, and nothing else changes. -/
theorem C35_concatenate (as : List Act) (hal : Store.AllowedRun as Store.empty) :
    ∃ rs h, Heap.run as Heap.empty = .ok (rs, h) ∧ ∀ p q n m s d d',
      readArray p h = .ok ⟨s, d⟩ → readArray q h = .ok ⟨s, d'⟩ →
      arrayGetSize p h = .ok n → arrayGetSize q h = .ok m →
      ∃ r h', arrayConcatenate p q h = .ok (r, h') ∧ h.box r = none ∧
        (∀ t, t ≠ r → h'.box t = h.box t) ∧ h'.freed = h.freed ∧ h'.dropped = h.dropped ∧
        arrayGetSize r h' = .ok (n + m) ∧
        (∀ i, i < n → arrayLoad r i h' = arrayLoad p i h ∧ ∃ v, arrayLoad p i h = .ok v) ∧
        (∀ i, i < m → arrayLoad r (n + i) h' = arrayLoad q i h ∧ ∃ v, arrayLoad q i h = .ok v) ∧
        ∀ i, n + m ≤ i → arrayLoad r i h' = .error .undefined := by
  obtain ⟨h, hrun, ha⟩ := agrees_empty.run as hal
  have hw := WholeElements.run as wholeElements_empty hal
  refine ⟨_, h, hrun, fun p q n m s d d' hp hq hn hm => ?_⟩
  generalize (Store.run as Store.empty).2 = st at *
  have hdvd : ∀ {p d}, readArray p h = .ok ⟨s, d⟩ → s ∣ d.length := by
    intro p d hp
    simp only [readArray, Heap.read, ha.box, bind, Except.bind] at hp
    cases he : st.entry p with
    | none => simp [he] at hp
    | some e =>
      simp only [he, Option.bind_some, boxOf] at hp
      by_cases h1 : 0 < e.refs
      · simp only [h1, if_true] at hp
        cases hc : e.content with
        | array s' d' =>
          simp only [hc, objOf, pure, Except.pure, Except.ok.injEq, QirArray.mk.injEq] at hp
          obtain ⟨rfl, rfl⟩ := hp
          exact hw p e _ _ he hc
        | _ => simp [hc, objOf] at hp
      · simp only [h1, if_false] at hp
        split_ifs at hp <;> simp at hp
  obtain ⟨s1, d1, h1, hs, rfl⟩ := getSize_ok hn
  obtain ⟨s2, d2, h2, _, rfl⟩ := getSize_ok hm
  rw [hp] at h1; cases h1
  rw [hq] at h2; cases h2
  obtain ⟨a, hda⟩ := hdvd hp
  obtain ⟨b, hdb⟩ := hdvd hq
  have hs0 : 0 < s := Nat.pos_of_ne_zero hs
  have hna : d.length / s = a := by rw [hda]; exact Nat.mul_div_cancel_left a hs0
  have hmb : d'.length / s = b := by rw [hdb]; exact Nat.mul_div_cancel_left b hs0
  rw [hna, hmb]
  have hnew : h.box h.next = none := by
    rw [ha.box, ha.next, ha.new _ (le_refl _)]; rfl
  obtain ⟨g, hcat, hbox, hfr, hdr⟩ : ∃ g, arrayConcatenate p q h = .ok (h.next, g) ∧
      (∀ t, g.box t = if t = h.next then some ⟨1, 1, some (.array ⟨s, d ++ d'⟩)⟩ else h.box t) ∧
      g.freed = h.freed ∧ g.dropped = h.dropped := by
    refine ⟨(h.alloc (.array ⟨s, d ++ d'⟩)).2, ?_, fun t => ?_, rfl, rfl⟩
    · simp only [arrayConcatenate, hp, hq, concatData, bind, Except.bind, pure, Except.pure,
        ne_eq, not_true_eq_false, if_false]
      rfl
    · show (h.set h.next _).box t = _
      rw [box_set]
  have hread : readArray h.next g = .ok ⟨s, d ++ d'⟩ := by
    simp [readArray, Heap.read, hbox, bind, Except.bind, pure, Except.pure]
  have hlen : (d ++ d').length = s * (a + b) := by rw [List.length_append, hda, hdb, Nat.mul_add]
  have hstep : ∀ i j, i < j → s * i + s ≤ s * j := by
    intro i j hij
    calc s * i + s = s * (i + 1) := by rw [Nat.mul_add, Nat.mul_one]
      _ ≤ s * j := Nat.mul_le_mul_left s hij
  refine ⟨_, g, hcat, hnew, fun t ht => ?_, hfr, hdr, ?_, fun i hi => ?_, fun i hi => ?_, fun i hi => ?_⟩
  · rw [hbox, if_neg ht]
  · simp only [arrayGetSize, hread, bind, Except.bind, pure, Except.pure, if_neg hs, hlen]
    rw [Nat.mul_div_cancel_left _ hs0]
  · have h3 := hstep i a hi
    have h4 : s * i + s ≤ (d ++ d').length := by rw [List.length_append]; omega
    have h5 : s * i + s ≤ d.length := by omega
    constructor
    · simp only [arrayLoad, hread, hp, bind, Except.bind, pure, Except.pure, elementOffset, h4, h5, if_true]
      rw [slice_left _ _ _ _ h5]
    · simp [arrayLoad, hp, bind, Except.bind, pure, Except.pure, elementOffset, h5]
  · have h3 := hstep i b hi
    have h4 : s * (a + i) + s ≤ (d ++ d').length := by
      rw [hlen]; exact hstep _ _ (by omega)
    have h5 : s * i + s ≤ d'.length := by omega
    constructor
    · simp only [arrayLoad, hread, hq, bind, Except.bind, pure, Except.pure, elementOffset, h4, h5, if_true]
      rw [Nat.mul_add, ← hda, ← List.drop_drop, List.drop_left]
    · simp [arrayLoad, hq, bind, Except.bind, pure, Except.pure, elementOffset, h5]
  · have h6 : s * (a + b) ≤ s * i := Nat.mul_le_mul_left s hi
    have h7 : ¬ (s * i + s ≤ (d ++ d').length) := by rw [hlen]; omega
    simp only [arrayLoad, hread, bind, Except.bind, pure, Except.pure, elementOffset, h7, if_false]

/-- Arrays of different element sizes are refused. -/
theorem C35_mismatch (h : Heap) (p q : Addr) (a b : QirArray) (hp : readArray p h = .ok a)
    (hq : readArray q h = .ok b) (hs : a.elemSize ≠ b.elemSize) :
    arrayConcatenate p q h = .error .panic := by
  simp [arrayConcatenate, hp, hq, concatData, hs, bind, Except.bind]

/-- **C35**, access: an element written is read back, all others stay. -/
theorem C35_store_load (h h' : Heap) (p : Addr) (i : ℕ) (v : List UInt8)
    (hst : arrayStore p i v h = .ok h') :
    arrayLoad p i h' = .ok v ∧ arrayGetSize p h' = arrayGetSize p h ∧
      ∀ j, j ≠ i → arrayLoad p j h' = arrayLoad p j h := by
  simp only [arrayStore, bind, Except.bind] at hst
  split at hst
  · cases hst
  rename_i a hr
  obtain ⟨s, d⟩ := a
  split_ifs at hst with hc
  obtain ⟨rfl, hb⟩ := hc
  simp only [elementOffset] at hst hb
  rw [Agrees.splice_eq _ _ _ hb] at hst
  have hr' : readArray p h' = .ok ⟨v.length, Store.splice d (v.length * i) v⟩ := by
    simp only [write] at hst
    split at hst
    · split at hst
      · cases hst
        simp [readArray, Heap.read, box_set, bind, Except.bind, pure, Except.pure]
      · cases hst
    · cases hst
  have hlen : (Store.splice d (v.length * i) v).length = d.length := by simp [Store.splice]
  refine ⟨?_, ?_, fun j hj => ?_⟩
  · simp only [arrayLoad, hr', bind, Except.bind, pure, Except.pure, elementOffset, hlen, hb, if_true]
    rw [← Agrees.splice_eq _ _ _ hb, List.append_assoc, List.drop_append, List.length_take,
      Nat.min_eq_left (by omega), List.drop_eq_nil_of_le (by simp), Nat.sub_self]
    simp
  · simp only [arrayGetSize, hr, hr', hlen, bind, Except.bind, pure, Except.pure]
  · simp only [arrayLoad, hr, hr', bind, Except.bind, pure, Except.pure, elementOffset, hlen]
    by_cases h1 : v.length * j + v.length ≤ d.length
    · simp only [h1, if_true]
      congr 1
      apply List.ext_getElem?
      intro k
      simp only [List.getElem?_take, List.getElem?_drop, Store.splice, List.getElem?_mapIdx]
      by_cases h2 : k < v.length
      · have h3 : ¬ (v.length * i ≤ v.length * j + k ∧ v.length * j + k < v.length * i + v.length) := by
          rintro ⟨h3, h4⟩
          rcases Nat.lt_or_gt_of_ne hj with h5 | h5
          · have := Nat.mul_le_mul_left v.length (Nat.succ_le_of_lt h5)
            rw [Nat.mul_succ] at this
            omega
          · have := Nat.mul_le_mul_left v.length (Nat.succ_le_of_lt h5)
            rw [Nat.mul_succ] at this
            omega
        simp [h2, h3]
      · simp [h2]
    · simp only [h1, if_false]

end Qir.Std
