import Verif.Proof.Heap
import Verif.Props.Heap

/-!
# C36: functors on callables and their invocation
-/

namespace Qir.Std
open Spec Heap

/-! ### Functors -/

theorem adjoint_ok {h h' : Heap} {p : Addr} (hok : callableMakeAdjoint p h = .ok h') :
    ∃ b c, h.box p = some b ∧ b.val = some (.callable c) ∧
      h' = h.set p { b with val := some (.callable { c with isAdj := !c.isAdj }) } := by
  simp only [callableMakeAdjoint, readCallable, Heap.read, write, bind, Except.bind, pure, Except.pure] at hok
  cases hb : h.box p with
  | none => simp [hb] at hok
  | some b =>
    cases hv : b.val with
    | none => simp [hb, hv] at hok
    | some v =>
      cases v with
      | callable c =>
        simp only [hb, hv] at hok
        cases hok
        exact ⟨b, c, rfl, hv, rfl⟩
      | _ => simp [hb, hv] at hok

theorem adjoint_of {h : Heap} {p : Addr} {b : Box} {c : Callable} (hb : h.box p = some b)
    (hv : b.val = some (.callable c)) : callableMakeAdjoint p h =
      .ok (h.set p { b with val := some (.callable { c with isAdj := !c.isAdj }) }) := by
  simp [callableMakeAdjoint, readCallable, Heap.read, write, bind, Except.bind, pure, Except.pure, hb, hv]

theorem controlled_of {h : Heap} {p : Addr} {b : Box} {c : Callable} (hb : h.box p = some b)
    (hv : b.val = some (.callable c)) : callableMakeControlled p h =
      .ok (h.set p { b with val := some (.callable { c with ctlsCount := c.ctlsCount + 1 }) }) := by
  simp [callableMakeControlled, readCallable, Heap.read, write, bind, Except.bind, pure, Except.pure, hb, hv]

/-- **C36**, adjoint: applied twice it changes nothing at all. -/
theorem C36_adjoint_twice (h h' : Heap) (p : Addr) (h1 : callableMakeAdjoint p h = .ok h') :
    callableMakeAdjoint p h' = .ok h := by
  obtain ⟨b, c, hb, hv, rfl⟩ := adjoint_ok h1
  have h2 : (h.set p { b with val := some (.callable { c with isAdj := !c.isAdj }) }).box p =
      some { b with val := some (.callable { c with isAdj := !c.isAdj }) } := by simp [box_set]
  rw [adjoint_of h2 rfl]
  simp only [set_set, Bool.not_not]
  have : b = { b with val := some (.callable c) } := by cases b; simp_all
  rw [← this, set_self hb]

/-- **C36**: adjoint and controlled commute. -/
theorem C36_commute (h : Heap) (p : Addr) :
    (do let h ← callableMakeAdjoint p h; callableMakeControlled p h) =
      (do let h ← callableMakeControlled p h; callableMakeAdjoint p h) := by
  cases hb : h.box p with
  | none => simp [callableMakeAdjoint, callableMakeControlled, readCallable, Heap.read, hb, bind, Except.bind]
  | some b =>
    cases hv : b.val with
    | none =>
      simp [callableMakeAdjoint, callableMakeControlled, readCallable, Heap.read, hb, hv, bind, Except.bind]
    | some v =>
      cases v with
      | callable c =>
        rw [adjoint_of hb hv, controlled_of hb hv]
        simp only [bind, Except.bind]
        rw [controlled_of (c := { c with isAdj := !c.isAdj }) (by simp [box_set]; rfl) rfl,
          adjoint_of (c := { c with ctlsCount := c.ctlsCount + 1 }) (by simp [box_set]; rfl) rfl]
        simp only [set_set]
      | _ =>
        simp [callableMakeAdjoint, callableMakeControlled, readCallable, Heap.read, hb, hv, bind, Except.bind]

/-- Apply functors in turn; `true` stands for adjoint. -/
def applyFunctors (p : Addr) : List Bool → Heap → Except Fault Heap
  | [], h => .ok h
  | f :: fs, h => do
    let h ← if f then callableMakeAdjoint p h else callableMakeControlled p h
    applyFunctors p fs h

/-- **C36**, any sequence of functors: only the parity of the adjoints and the number of controls
matter. -/
theorem C36_functors (p : Addr) (fs : List Bool) (h : Heap) (c : Callable)
    (hc : readCallable p h = .ok c) :
    ∃ h', applyFunctors p fs h = .ok h' ∧ (∀ q, q ≠ p → h'.box q = h.box q) ∧
      readCallable p h' = .ok { c with
        isAdj := xor c.isAdj (decide (fs.count true % 2 = 1))
        ctlsCount := c.ctlsCount + fs.count false } := by
  induction fs generalizing h c with
  | nil => exact ⟨h, rfl, fun _ _ => rfl, by simpa using hc⟩
  | cons f fs ih =>
    obtain ⟨b, hb, hv⟩ : ∃ b, h.box p = some b ∧ b.val = some (.callable c) := by
      simp only [readCallable, Heap.read, bind, Except.bind, pure, Except.pure] at hc
      cases hb : h.box p with
      | none => simp [hb] at hc
      | some b =>
        cases hv : b.val with
        | none => simp [hb, hv] at hc
        | some v =>
          cases v with
          | callable c' => simp only [hb, hv] at hc; cases hc; exact ⟨b, rfl, hv⟩
          | _ => simp [hb, hv] at hc
    cases f with
    | true =>
      obtain ⟨h', h1, h2, h3⟩ := ih _ { c with isAdj := !c.isAdj } (by
        rw [readCallable, Heap.read, box_set, if_pos rfl]; rfl :
        readCallable p (h.set p { b with val := some (.callable { c with isAdj := !c.isAdj }) }) = _)
      refine ⟨h', ?_, fun q hq => by rw [h2 q hq, box_set, if_neg hq], ?_⟩
      · simp only [applyFunctors, if_true, adjoint_of hb hv, bind, Except.bind]; exact h1
      · rw [h3]
        simp only [List.count_cons_self, List.count_cons, beq_iff_eq, Bool.true_eq_false, if_false,
          Nat.add_zero]
        congr 2
        rcases Nat.mod_two_eq_zero_or_one (fs.count true) with h4 | h4
        · have : (fs.count true + 1) % 2 = 1 := by omega
          simp [h4, this]
        · have : (fs.count true + 1) % 2 = 0 := by omega
          simp [h4, this]
    | false =>
      obtain ⟨h', h1, h2, h3⟩ := ih _ { c with ctlsCount := c.ctlsCount + 1 } (by
        rw [readCallable, Heap.read, box_set, if_pos rfl]; rfl :
        readCallable p (h.set p { b with
          val := some (.callable { c with ctlsCount := c.ctlsCount + 1 }) }) = _)
      refine ⟨h', ?_, fun q hq => by rw [h2 q hq, box_set, if_neg hq], ?_⟩
      · simp only [applyFunctors, Bool.false_eq_true, if_false, controlled_of hb hv, bind, Except.bind]
        exact h1
      · rw [h3]
        simp only [List.count_cons_self, List.count_cons, beq_iff_eq, Bool.false_eq_true, if_false,
          Nat.add_zero]
        congr 2
        omega

/-! ### Invocation -/

/-- The arguments of a callable controlled `n` times, `n ≥ 1`: control list and tuple with the
arguments of the callable controlled one time less.  `lists` are the contents of the control lists from
the outside inwards; `rest` are the innermost arguments. -/
inductive Nested (st : Store) (s : ℕ) : ℕ → Addr → Addr → List (List UInt8) → List ℕ → Prop
  | last {args e c rest f d} : st.entry args = some e → 0 < e.refs → e.content = .tuple (c :: rest) →
      st.entry c = some f → 0 < f.refs → f.content = .array s d → Nested st s 1 args c [d] rest
  | more {n args e c t ws f d c' ds rest} : st.entry args = some e → 0 < e.refs →
      e.content = .tuple (c :: t :: ws) →
      st.entry c = some f → 0 < f.refs → f.content = .array s d → Nested st s n t c' ds rest →
      Nested st s (n + 1) args c (d :: ds) rest

/-- The object is gone, or was never there. -/
def Gone (e : Option Entry) : Prop := ∀ f, e = some f → f.refs = 0 ∧ f.aliases = 0

/-- What is true between two rounds of the loop: below `st.next` nothing has changed except that the
control list `x`, if it is there, has one more reference; above, only the copy `a` of the arguments and,
if it is there, the control list `x` are left. -/
structure Between (st st' : Store) (a x : Addr) (s : ℕ) (d : List UInt8) (ws : List ℕ) : Prop where
  grows : st.next ≤ st'.next
  new : st.next ≤ a
  ne : a ≠ x
  args : st'.entry a = some ⟨1, 0, .tuple (x :: ws)⟩
  old : ∀ q, q < st.next → q ≠ x → st'.entry q = st.entry q
  ctl : (st.next ≤ x ∧ st'.entry x = some ⟨1, 0, .array s d⟩) ∨
    (x < st.next ∧ ∃ f, st.entry x = some f ∧ 0 < f.refs ∧ f.content = .array s d ∧
      st'.entry x = some { f with refs := f.refs + 1 })
  gone : ∀ q, st.next ≤ q → q ≠ a → q ≠ x → Gone (st'.entry q)

theorem Agrees.lt {h : Heap} {st : Store} (ha : Agrees h st) {p : Addr} {e : Entry}
    (he : st.entry p = some e) : p < st.next := by
  by_contra h1
  rw [ha.new p (by omega)] at he
  cases he

theorem tupleLoad_eq {h : Heap} {st : Store} (ha : Agrees h st) {p : Addr} {e : Entry} {ws : List ℕ}
    {i w : ℕ} (he : st.entry p = some e) (hr : 0 < e.refs) (hc : e.content = .tuple ws)
    (hw : ws[i]? = some w) : tupleLoad p i h = .ok w := by
  simp [tupleLoad, ha.readTuple_eq he hr hc, hw, bind, Except.bind, pure, Except.pure]

theorem tupleCopy_eq {h : Heap} {st : Store} (ha : Agrees h st) {p : Addr} {e : Entry} {ws : List ℕ}
    (he : st.entry p = some e) (hr : 0 < e.refs) (hc : e.content = .tuple ws) :
    ∃ h', tupleCopy p true h = .ok (st.next, h') ∧ Agrees h' (st.create (.tuple ws)).2 := by
  obtain ⟨h1, h2⟩ := ha.alloc_tuple p ws
  refine ⟨_, ?_, h2⟩
  simp only [tupleCopy, ha.header_eq he hr (by rw [hc]; rfl), ha.weakCount_eq he hr,
    ha.readTuple_eq he hr hc, bind, Except.bind, pure, Except.pure, true_or, if_true]
  have : (Heap.alloc (Obj.tuple p ws) h).1 = st.next := by simp [Heap.alloc, ha.next]
  rw [this]

theorem concat_eq {h : Heap} {st : Store} (ha : Agrees h st) {p q : Addr} {e f : Entry} {s : ℕ}
    {d d' : List UInt8} (he : st.entry p = some e) (hr : 0 < e.refs) (hc : e.content = .array s d)
    (hf : st.entry q = some f) (hr' : 0 < f.refs) (hc' : f.content = .array s d') :
    ∃ h', arrayConcatenate p q h = .ok (st.next, h') ∧ Agrees h' (st.create (.array s (d ++ d'))).2 := by
  obtain ⟨h1, h2⟩ := ha.alloc_obj (.array s (d ++ d')) (by simp [Content.kind])
  refine ⟨_, ?_, h2⟩
  simp only [arrayConcatenate, ha.readArray_eq he hr hc, ha.readArray_eq hf hr' hc', concatData, bind,
    Except.bind, pure, Except.pure, ne_eq, not_true_eq_false, if_false, objOf]
  have : (Heap.alloc (Obj.array ⟨s, d ++ d'⟩) h).1 = st.next := by simp [Heap.alloc, ha.next]
  rw [← this]

theorem tupleStore_eq {h : Heap} {st : Store} (ha : Agrees h st) {p : Addr} {e : Entry} {ws : List ℕ}
    {i : ℕ} (w : ℕ) (he : st.entry p = some e) (hr : 0 < e.refs) (hc : e.content = .tuple ws)
    (hi : i < ws.length) :
    ∃ h', tupleStore p i w h = .ok h' ∧
      Agrees h' (st.change p fun e => { e with content := .tuple (ws.set i w) }) := by
  obtain ⟨h', h1, h2⟩ := ha.write_eq (f := fun e => { e with content := .tuple (ws.set i w) })
    (c := .tuple (ws.set i w)) he hr rfl
  refine ⟨h', ?_, h2⟩
  simp [tupleStore, ha.readTuple_eq he hr hc, hi, bind, Except.bind, pure, Except.pure, objOf] at h1 ⊢
  exact h1

theorem change_entry (st : Store) (p q : Addr) (f : Entry → Entry) :
    (st.change p f).entry q = if q = p then (st.entry q).map f else st.entry q := rfl

theorem create_entry (st : Store) (q : Addr) (c : Content) :
    (st.create c).2.entry q = if q = st.next then some ⟨1, 0, c⟩ else st.entry q := rfl

theorem create_next (st : Store) (c : Content) : (st.create c).2.next = st.next + 1 := rfl

theorem change_next (st : Store) (p : Addr) (f : Entry → Entry) : (st.change p f).next = st.next := rfl

/-- One round of the loop. -/
theorem round {h : Heap} {st st' : Store} {a x s d t ws} (ha : Agrees h st')
    (hnew : ∀ q, st.next ≤ q → st.entry q = none)
    (hb : Between st st' a x s d (t :: ws)) {n c' ds rest} (hN : Nested st s n t c' ds rest) :
    ∃ wt dt h1 h2 h3 h4 h5 st2 e, tupleLoad a 0 h = .ok x ∧ tupleLoad a 1 h = .ok t ∧
      st.entry t = some e ∧ 0 < e.refs ∧ e.content = .tuple (c' :: wt) ∧ ds.head? = some dt ∧
      tupleLoad t 0 h = .ok c' ∧ arrayConcatenate x c' h = .ok (st'.next, h1) ∧
      tupleCopy t true h1 = .ok (st'.next + 1, h2) ∧ tupleStore (st'.next + 1) 0 st'.next h2 = .ok h3 ∧
      tupleLoad a 0 h3 = .ok x ∧ arrayUpdateRef x (-1) h3 = .ok h4 ∧ tupleUpdateRef a (-1) h4 = .ok h5 ∧
      Agrees h5 st2 ∧ Between st st2 (st'.next + 1) st'.next s (d ++ dt) wt := by
  have hargs := tupleLoad_eq ha hb.args Nat.one_pos rfl (i := 0) (w := x) rfl
  have hargs1 := tupleLoad_eq ha hb.args Nat.one_pos rfl (i := 1) (w := t) rfl
  have hax : a < st'.next := ha.lt hb.args
  obtain ⟨ex, hex, hrx, hcx⟩ : ∃ ex, st'.entry x = some ex ∧ 0 < ex.refs ∧ ex.content = .array s d := by
    rcases hb.ctl with ⟨_, h1⟩ | ⟨_, f, _, h2, h3, h4⟩
    · exact ⟨_, h1, Nat.one_pos, rfl⟩
    · exact ⟨_, h4, Nat.succ_pos _, h3⟩
  have hxl : x < st'.next := ha.lt hex
  obtain ⟨e, f, wt, dt, het, hrt, hct, hfc, hrf, hcf, hds⟩ : ∃ e f wt dt, st.entry t = some e ∧ 0 < e.refs ∧
      e.content = .tuple (c' :: wt) ∧ st.entry c' = some f ∧ 0 < f.refs ∧ f.content = .array s dt ∧
      ds.head? = some dt := by
    cases hN with
    | last h1 h2 h3 h4 h5 h6 => exact ⟨_, _, _, _, h1, h2, h3, h4, h5, h6, rfl⟩
    | more h1 h2 h3 h4 h5 h6 _ => exact ⟨_, _, _, _, h1, h2, h3, h4, h5, h6, rfl⟩
  have hlt : ∀ {q e}, st.entry q = some e → q < st.next := by
    intro q e hq
    by_contra h1
    rw [hnew q (by omega)] at hq
    cases hq
  have htl := hlt het
  have hcl := hlt hfc
  have htx : t ≠ x := by
    rintro rfl
    rcases hb.ctl with ⟨h1, _⟩ | ⟨_, f, h1, _, h3, _⟩
    · omega
    · rw [h1] at het; cases het; rw [h3] at hct; cases hct
  have het' : st'.entry t = some e := by rw [hb.old t htl htx, het]
  obtain ⟨f', hf', hrf', hcf'⟩ : ∃ f', st'.entry c' = some f' ∧ 0 < f'.refs ∧ f'.content = .array s dt := by
    by_cases h1 : c' = x
    · subst h1
      rcases hb.ctl with ⟨h1, _⟩ | ⟨_, g, h1, _, h3, h4⟩
      · omega
      · rw [h1] at hfc; cases hfc
        exact ⟨_, h4, Nat.succ_pos _, hcf⟩
    · exact ⟨f, by rw [hb.old c' hcl h1, hfc], hrf, hcf⟩
  obtain ⟨h1, hk1, ha1⟩ := concat_eq ha hex hrx hcx hf' hrf' hcf'
  have hgr := hb.grows
  have ht1 : (st'.create (.array s (d ++ dt))).2.entry t = some e := by
    rw [create_entry, if_neg (by omega), het']
  obtain ⟨h2, hk2, ha2⟩ := tupleCopy_eq ha1 ht1 hrt hct
  rw [create_next] at hk2
  have hn2 : ((st'.create (.array s (d ++ dt))).2.create (.tuple (c' :: wt))).2.entry (st'.next + 1) =
      some ⟨1, 0, .tuple (c' :: wt)⟩ := by
    rw [create_entry, create_next, if_pos rfl]
  obtain ⟨h3, hk3, ha3⟩ := tupleStore_eq ha2 st'.next hn2 Nat.one_pos rfl (i := 0) (by simp)
  generalize hst3 : Store.change _ _ _ = st3 at ha3
  have hent3 : ∀ q, st3.entry q = if q = st'.next + 1 then some ⟨1, 0, .tuple (st'.next :: wt)⟩
      else if q = st'.next then some ⟨1, 0, .array s (d ++ dt)⟩ else st'.entry q := by
    intro q
    rw [← hst3, change_entry, create_entry, create_next, create_entry]
    by_cases hq : q = st'.next + 1
    · simp [hq]
    · simp [hq]
  have hnext3 : st3.next = st'.next + 2 := by rw [← hst3]; rfl
  have ha3a : st3.entry a = some ⟨1, 0, .tuple (x :: t :: ws)⟩ := by
    rw [hent3, if_neg (by omega), if_neg (by omega), hb.args]
  have hx3 : st3.entry x = some ex := by rw [hent3, if_neg (by omega), if_neg (by omega), hex]
  have hk3' := tupleLoad_eq ha3 ha3a Nat.one_pos rfl (i := 0) (w := x) rfl
  obtain ⟨h4, hk4, ha4⟩ := ha3.update_ref (u := -1) hx3 hrx (by omega)
  have ha4a : (st3.change x fun e => { e with refs := ((e.refs : ℤ) + -1).toNat }).entry a =
      some ⟨1, 0, .tuple (x :: t :: ws)⟩ := by rw [change_entry, if_neg hb.ne, ha3a]
  obtain ⟨h5, hk5, ha5⟩ := ha4.update_ref (u := -1) ha4a Nat.one_pos (by norm_num)
  have hk5' : tupleUpdateRef a (-1) h4 = .ok h5 := by
    simp [tupleUpdateRef, ha4.header_eq ha4a Nat.one_pos rfl, hk5, bind, Except.bind]
  generalize hst5 : Store.change _ a _ = st5 at ha5
  have hent5 : ∀ q, st5.entry q = if q = a then some ⟨0, 0, .tuple (x :: t :: ws)⟩
      else if q = x then some { ex with refs := ex.refs - 1 } else st3.entry q := by
    intro q
    rw [← hst5, change_entry, change_entry]
    by_cases hq : q = a
    · subst hq
      simp [hb.ne, ha3a]
    · by_cases hq' : q = x
      · subst hq'
        simp only [hq, if_false, if_true, hx3, Option.map_some]
        congr 2
        omega
      · simp [hq, hq']
  refine ⟨wt, dt, h1, h2, h3, h4, h5, st5, e, hargs, hargs1, het, hrt, hct, hds,
    tupleLoad_eq ha het' hrt hct rfl, hk1, hk2, hk3, hk3', hk4, hk5', ha5, ?_⟩
  exact
    { grows := by
        have : st5.next = st3.next := by rw [← hst5]; rfl
        omega
      new := by omega
      ne := by omega
      args := by
        rw [hent5, if_neg (by omega), if_neg (by omega), hent3, if_pos rfl]
      old := by
        intro q hq hqx
        have := hb.new
        rw [hent5, if_neg (by omega)]
        by_cases hq' : q = x
        · subst hq'
          rw [if_pos rfl]
          rcases hb.ctl with ⟨h1, _⟩ | ⟨_, g, h1, _, h3, h4⟩
          · omega
          · rw [h4] at hex; cases hex
            rw [h1]; rfl
        · rw [if_neg hq', hent3, if_neg (by omega), if_neg (by omega), hb.old q hq hq']
      ctl := by
        left
        refine ⟨hgr, ?_⟩
        rw [hent5, if_neg (by omega), if_neg (by omega), hent3, if_neg (by omega), if_pos rfl]
      gone := by
        intro q hq hqa hqx
        rw [hent5]
        split_ifs with h6 h7
        · intro g hg; cases hg; exact ⟨rfl, rfl⟩
        · subst h7
          rcases hb.ctl with ⟨_, h1⟩ | ⟨h1, _⟩
          · rw [h1] at hex; cases hex
            intro g hg; cases hg; exact ⟨rfl, rfl⟩
          · omega
        · rw [hent3, if_neg hqa, if_neg hqx]
          exact hb.gone q hq h6 h7 }

/-- The whole loop. -/
theorem loop {st : Store} {s : ℕ} (hnew : ∀ q, st.next ≤ q → st.entry q = none) :
    ∀ (n : ℕ) {h : Heap} {st' : Store} {a x d t ws c' ds rest}, Agrees h st' →
      Between st st' a x s d (t :: ws) → Nested st s (n + 1) t c' ds rest →
      ∃ a' x' h' st2, invokeLoop (n + 2) a h = .ok (a', h') ∧ Agrees h' st2 ∧ st.next ≤ x' ∧
        Between st st2 a' x' s (d ++ ds.flatten) rest
  | 0, h, st', a, x, d, t, ws, c', ds, rest, ha, hb, hN => by
    obtain ⟨wt, dt, h1, h2, h3, h4, h5, st2, e, r1, r2, he, hr, hc, hd, r3, r4, r5, r6, r7, r8, r9, r10, r11⟩ :=
      round ha hnew hb hN
    refine ⟨st'.next + 1, st'.next, h5, st2, ?_, r10, hb.grows, ?_⟩
    · simp only [invokeLoop, r1, r2, r3, r4, r5, r6, r7, r8, r9, bind, Except.bind]
    · cases hN with
      | last g1 g2 g3 g4 g5 g6 =>
        rw [he] at g1; cases g1
        rw [hc] at g3; cases g3
        cases hd
        simpa using r11
      | more _ _ _ _ _ _ hN' => cases hN'
  | n + 1, h, st', a, x, d, t, ws, c', ds, rest, ha, hb, hN => by
    obtain ⟨wt, dt, h1, h2, h3, h4, h5, st2, e, r1, r2, he, hr, hc, hd, r3, r4, r5, r6, r7, r8, r9, r10, r11⟩ :=
      round ha hnew hb hN
    cases hN with
    | more g1 g2 g3 g4 g5 g6 hN' =>
      rw [he] at g1; cases g1
      rw [hc] at g3; cases g3
      cases hd
      obtain ⟨a', x', h', st3, k1, k2, k3, k4⟩ := loop hnew n r10 r11 hN'
      refine ⟨a', x', h', st3, ?_, k2, k3, ?_⟩
      · rw [invokeLoop]
        simp only [r1, r2, r3, r4, r5, r6, r7, r8, r9, bind, Except.bind]
        exact k1
      · simpa using k4

/-- Everything that precedes the call of a callable controlled `n + 1` times. -/
theorem prepare {h : Heap} {st : Store} (ha : Agrees h st) {s n args ctl lists rest} {c : Callable}
    (hn : c.ctlsCount = n + 1) (hN : Nested st s (n + 1) args ctl lists rest) (hargs : args ≠ 0) :
    ∃ a x h' st', invokePrepare c args h = .ok (a, h') ∧ Agrees h' st' ∧
      Between st st' a x s lists.flatten rest ∧ (if n = 0 then x = ctl else st.next ≤ x) := by
  obtain ⟨e, ws, f, d, he, hr, hc, hf, hrf, hcf⟩ : ∃ e ws f d, st.entry args = some e ∧ 0 < e.refs ∧
      e.content = .tuple (ctl :: ws) ∧ st.entry ctl = some f ∧ 0 < f.refs ∧ f.content = .array s d := by
    cases hN with
    | last h1 h2 h3 h4 h5 h6 => exact ⟨_, _, _, _, h1, h2, h3, h4, h5, h6⟩
    | more h1 h2 h3 h4 h5 h6 _ => exact ⟨_, _, _, _, h1, h2, h3, h4, h5, h6⟩
  have hcl := ha.lt hf
  obtain ⟨h1, k1, ha1⟩ := tupleCopy_eq ha he hr hc
  have he1 : (st.create (.tuple (ctl :: ws))).2.entry st.next = some ⟨1, 0, .tuple (ctl :: ws)⟩ := by
    rw [create_entry, if_pos rfl]
  have hf1 : (st.create (.tuple (ctl :: ws))).2.entry ctl = some f := by
    rw [create_entry, if_neg (by omega), hf]
  have k2 := tupleLoad_eq ha1 he1 Nat.one_pos rfl (i := 0) (w := ctl) rfl
  obtain ⟨h2, k3, ha2⟩ := ha1.update_ref (u := 1) hf1 hrf (by omega)
  generalize hst2 : Store.change _ _ _ = st2 at ha2
  have hent : ∀ q, st2.entry q = if q = ctl then some { f with refs := f.refs + 1 }
      else if q = st.next then some ⟨1, 0, .tuple (ctl :: ws)⟩ else st.entry q := by
    intro q
    rw [← hst2, change_entry, create_entry]
    by_cases hq : q = ctl
    · subst hq
      simp only [if_true, if_neg (show q ≠ st.next by omega), hf, Option.map_some]
      congr 2
    · simp [hq]
  have hB : Between st st2 st.next ctl s d ws :=
    { grows := by
        have : st2.next = st.next + 1 := by rw [← hst2]; rfl
        omega
      new := le_refl _
      ne := by omega
      args := by rw [hent, if_neg (by omega), if_pos rfl]
      old := fun q hq hqx => by rw [hent, if_neg hqx, if_neg (by omega)]
      ctl := .inr ⟨hcl, f, hf, hrf, hcf, by rw [hent, if_pos rfl]⟩
      gone := fun q hq hqa hqx => by
        rw [hent, if_neg hqx, if_neg hqa, ha.new q hq]
        intro g hg; cases hg }
  have kk : invokePrepare c args h = invokeLoop (n + 1) st.next h2 := by
    simp only [invokePrepare, if_neg hargs, k1, hn, bind, Except.bind, Nat.succ_pos, if_true, gt_iff_lt, k2,
      arrayUpdateRef, k3]
  cases hN with
  | last g1 g2 g3 g4 g5 g6 =>
    rw [he] at g1; cases g1
    rw [hc] at g3; cases g3
    rw [hf] at g4; cases g4
    rw [hcf] at g6; cases g6
    exact ⟨_, _, h2, st2, kk, ha2, by simpa using hB, rfl⟩
  | more g1 g2 g3 g4 g5 g6 hN' =>
    rename_i t ws' _ _ _ _
    rw [he] at g1; cases g1
    rw [hc] at g3; cases g3
    rw [hf] at g4; cases g4
    rw [hcf] at g6; cases g6
    obtain ⟨m, rfl⟩ : ∃ m, n = m + 1 := by
      cases n with
      | zero => cases hN'
      | succ m => exact ⟨m, rfl⟩
    obtain ⟨a', x', h', st3, k4, k5, k6, k7⟩ := loop ha.new m ha2 hB hN'
    exact ⟨a', x', h', st3, kk.trans k4, k5, by simpa using k7, by rw [if_neg (by omega)]; exact k6⟩

theorem free_one {h : Heap} {p : Addr} {v : Option Obj} (hb : h.box p = some ⟨1, 1, v⟩) :
    updateCounts p (-1) false h = .ok (lastRef p 1 h) := by
  unfold updateCounts
  rw [if_neg (by decide)]
  refine (downs_ref (-(-1) : ℤ).toNat hb Nat.one_pos Nat.one_pos (by decide)).trans ?_
  rw [if_pos (by decide)]

theorem lastRef_box (h : Heap) (p q : Addr) : (lastRef p 1 h).box q = if q = p then none else h.box q := by
  simp only [lastRef, if_true, box_dealloc, box_set]
  split_ifs <;> rfl

theorem lower {h : Heap} {p : Addr} {b : Box} (hb : h.box p = some b) (h1 : 2 ≤ b.strong) (h2 : 0 < b.weak) :
    updateCounts p (-1) false h = .ok (h.set p { b with strong := b.strong - 1 }) := by
  unfold updateCounts
  rw [if_neg (by decide)]
  have e : (-(-1) : ℤ).toNat = 1 := by decide
  rw [e, downs_ref 1 hb (by omega) h2 (by omega), if_neg (by omega)]

/-- **C36**, controlled.  In every state `h` a client can bring about, let `p` be a callable controlled
`n + 1` times and `args` its arguments, nested accordingly.  Then there are a heap `h1`, an argument tuple `a`
and a control list `x` such that, whatever the program is:

* invoking `p` calls exactly one function: that with index 2, or 3 if `p` is an adjoint, of the table of
  `p`, in the heap `h1`, on the captured values of `p`, the tuple `a` and the result tuple given;
* `a` holds the control list `x` and the innermost arguments;
* `x` holds all controls, those of the outermost list first;
* in `h1` all other objects are as in `h`, and no other temporary is left;
* provided that the function called leaves `a`, `x` and the number of controls of `p` alone, the temporaries
  are freed after its return, and all other objects are as the function left them; in particular, a control
  list that was passed through has the same counts as before. -/
theorem C36_invoke_controlled (as : List Act) (hal : Store.AllowedRun as Store.empty) (p args ctl : Addr)
    (e : Entry) (c : Callable) (n s : ℕ) (lists : List (List UInt8)) (rest : List ℕ) (hargs : args ≠ 0)
    (he : (Store.run as Store.empty).2.entry p = some e) (hr : 0 < e.refs) (hc : e.content = .callable c)
    (hn : c.ctlsCount = n + 1)
    (hN : Nested (Store.run as Store.empty).2 s (n + 1) args ctl lists rest) :
    ∃ rs h h1 a x, Heap.run as Heap.empty = .ok (rs, h) ∧
      (∀ prog res, callableInvoke prog p args res h =
        (do
          let h2 ← prog c.funcTable (if c.isAdj then 3 else 2) c.capTuple a res h1
          invokeFinish p a h2)) ∧
      h.box a = none ∧ h1.box a = some ⟨1, 1, some (.tuple a (x :: rest))⟩ ∧
      (∃ b, h1.box x = some b ∧ b.val = some (.array ⟨s, lists.flatten⟩)) ∧
      (∀ q, q ≠ a → q ≠ x → h1.box q = h.box q) ∧
      (n ≠ 0 → h.box x = none ∧ ∃ v, h1.box x = some ⟨1, 1, v⟩) ∧
      (n = 0 → x = ctl ∧ ∃ b, 0 < b.strong ∧ h.box x = some b ∧
        h1.box x = some { b with strong := b.strong + 1 }) ∧
      ∀ h2 c', h2.box a = h1.box a → h2.box x = h1.box x → readCallable p h2 = .ok c' →
        0 < c'.ctlsCount →
        ∃ h3, invokeFinish p a h2 = .ok h3 ∧ h3.box a = none ∧ h3.box x = h.box x ∧
          ∀ q, q ≠ a → q ≠ x → h3.box q = h2.box q := by
  obtain ⟨h, hrun, ha⟩ := agrees_empty.run as hal
  generalize (Store.run as Store.empty).2 = st at *
  obtain ⟨a, x, h1, st1, k1, ha1, hB, hx⟩ := prepare ha hn hN hargs
  have hA : h1.box a = some ⟨1, 1, some (.tuple a (x :: rest))⟩ := by
    rw [ha1.live hB.args Nat.one_pos]; rfl
  have hold : ∀ q, q ≠ a → q ≠ x → h1.box q = h.box q := by
    intro q hqa hqx
    rw [ha.box, ha1.box]
    rcases Nat.lt_or_ge q st.next with h2 | h2
    · rw [hB.old q h2 hqx]
    · rw [ha.new q h2]
      cases hq : st1.entry q with
      | none => rfl
      | some g =>
        obtain ⟨g1, g2⟩ := hB.gone q h2 hqa hqx g hq
        simp [boxOf, g1, g2]
  have hfresh : n ≠ 0 → h.box x = none ∧ h1.box x = some ⟨1, 1, some (.array ⟨s, lists.flatten⟩)⟩ := by
    intro hn0
    rw [if_neg hn0] at hx
    rcases hB.ctl with ⟨_, g⟩ | ⟨g, _⟩
    · exact ⟨by rw [ha.box, ha.new x hx]; rfl, by rw [ha1.live g Nat.one_pos]; rfl⟩
    · omega
  have hsame : n = 0 → x = ctl ∧ ∃ b, 0 < b.strong ∧ 0 < b.weak ∧ b.val = some (.array ⟨s, lists.flatten⟩) ∧
      h.box x = some b ∧ h1.box x = some { b with strong := b.strong + 1 } := by
    intro hn0
    rw [if_pos hn0] at hx
    refine ⟨hx, ?_⟩
    rcases hB.ctl with ⟨g, _⟩ | ⟨g, f, g1, g2, g3, g4⟩
    · exfalso
      have : ∃ f, st.entry ctl = some f := by
        cases hN with
        | last _ _ _ h4 => exact ⟨_, h4⟩
        | more _ _ _ h4 => exact ⟨_, h4⟩
      obtain ⟨f, hf⟩ := this
      have := ha.lt hf
      omega
    · refine ⟨_, g2, Nat.succ_pos _, ?_, ha.live g1 g2, ?_⟩
      · simp [objOf, g3]
      · rw [ha1.live g4 (Nat.succ_pos _)]
  have hxval : ∃ b, h1.box x = some b ∧ b.val = some (.array ⟨s, lists.flatten⟩) := by
    by_cases hn0 : n = 0
    · obtain ⟨_, b, _, _, g1, _, g2⟩ := hsame hn0
      exact ⟨_, g2, g1⟩
    · exact ⟨_, (hfresh hn0).2, rfl⟩
  refine ⟨_, h, h1, a, x, hrun, fun prog res => ?_, ?_, hA, hxval, hold,
    fun hn0 => ⟨(hfresh hn0).1, _, (hfresh hn0).2⟩, fun hn0 => ?_, fun h2 c' e1 e2 e3 e4 => ?_⟩
  · simp only [callableInvoke, ha.readCallable_eq he hr hc, hn, k1, bind, Except.bind]
    cases c.isAdj <;> rfl
  · rw [ha.box, ha.new a hB.new]; rfl
  · obtain ⟨g1, b, g2, _, _, g3, g4⟩ := hsame hn0
    exact ⟨g1, b, g2, g3, g4⟩
  · rw [hA] at e1
    have hload : tupleLoad a 0 h2 = .ok x := by
      simp [tupleLoad, readTuple, Heap.read, e1, bind, Except.bind, pure, Except.pure]
    have ha0 : a ≠ 0 := by have := ha.pos; have := hB.new; omega
    have hfin : ∀ h3, updateCounts x (-1) false h2 = .ok h3 → h3.box a = h2.box a →
        invokeFinish p a h2 = .ok (lastRef a 1 h3) := by
      intro h3 g1 g2
      rw [e1] at g2
      have : header a h3 = .ok a := by
        simp [header, readTuple, Heap.read, g2, bind, Except.bind, pure, Except.pure]
      simp only [invokeFinish, e3, bind, Except.bind, e4, gt_iff_lt, if_true, hload, arrayUpdateRef, g1,
        if_neg ha0, tupleUpdateRef, this, free_one g2]
    by_cases hn0 : n = 0
    · obtain ⟨g1, b, g2, gw, _, g3, g4⟩ := hsame hn0
      rw [g4] at e2
      have := lower e2 (by simp only; omega) gw
      refine ⟨_, hfin _ this (by rw [box_set, if_neg hB.ne]), ?_, ?_, fun q hqa hqx => ?_⟩
      · rw [lastRef_box, if_pos rfl]
      · rw [lastRef_box, if_neg hB.ne.symm, box_set, if_pos rfl, g3]
        simp
      · rw [lastRef_box, if_neg hqa, box_set, if_neg hqx]
    · obtain ⟨g1, g2⟩ := hfresh hn0
      rw [g2] at e2
      have := free_one e2
      refine ⟨_, hfin _ this (by rw [lastRef_box, if_neg hB.ne]), ?_, ?_, fun q hqa hqx => ?_⟩
      · rw [lastRef_box, if_pos rfl]
      · rw [lastRef_box, if_neg hB.ne.symm, lastRef_box, if_pos rfl, g1]
      · rw [lastRef_box, if_neg hqa, lastRef_box, if_neg hqx]

/-- **C36**, uncontrolled: one call, of the function with index 0, or 1 for an adjoint, on a copy of the
arguments which is freed afterwards. -/
theorem C36_invoke_plain (as : List Act) (hal : Store.AllowedRun as Store.empty) (p args : Addr)
    (e f : Entry) (c : Callable) (ws : List ℕ) (hargs : args ≠ 0)
    (he : (Store.run as Store.empty).2.entry p = some e) (hr : 0 < e.refs) (hc : e.content = .callable c)
    (hn : c.ctlsCount = 0)
    (hf : (Store.run as Store.empty).2.entry args = some f) (hrf : 0 < f.refs) (hcf : f.content = .tuple ws) :
    ∃ rs h h1 a, Heap.run as Heap.empty = .ok (rs, h) ∧
      (∀ prog res, callableInvoke prog p args res h =
        (do
          let h2 ← prog c.funcTable (if c.isAdj then 1 else 0) c.capTuple a res h1
          invokeFinish p a h2)) ∧
      h.box a = none ∧ h1.box a = some ⟨1, 1, some (.tuple a ws)⟩ ∧
      (∀ q, q ≠ a → h1.box q = h.box q) ∧
      ∀ h2 c', h2.box a = h1.box a → readCallable p h2 = .ok c' → c'.ctlsCount = 0 →
        ∃ h3, invokeFinish p a h2 = .ok h3 ∧ h3.box a = none ∧ ∀ q, q ≠ a → h3.box q = h2.box q := by
  obtain ⟨h, hrun, ha⟩ := agrees_empty.run as hal
  generalize (Store.run as Store.empty).2 = st at *
  obtain ⟨h1, k1, ha1⟩ := tupleCopy_eq ha hf hrf hcf
  have hA : h1.box st.next = some ⟨1, 1, some (.tuple st.next ws)⟩ := by
    rw [ha1.live (e := ⟨1, 0, .tuple ws⟩) (by rw [create_entry, if_pos rfl]) Nat.one_pos]; rfl
  have ha0 : st.next ≠ 0 := by have := ha.pos; omega
  refine ⟨_, h, h1, st.next, hrun, fun prog res => ?_, ?_, hA, fun q hq => ?_, fun h2 c' e1 e2 e3 => ?_⟩
  · simp only [callableInvoke, ha.readCallable_eq he hr hc, hn, invokePrepare, if_neg hargs, k1, bind,
      Except.bind, gt_iff_lt, lt_self_iff_false, if_false, pure, Except.pure]
    cases c.isAdj <;> rfl
  · rw [ha.box, ha.new _ (le_refl _)]; rfl
  · rw [ha.box, ha1.box, create_entry, if_neg hq]
  · rw [hA] at e1
    have : header st.next h2 = .ok st.next := by
      simp [header, readTuple, Heap.read, e1, bind, Except.bind, pure, Except.pure]
    refine ⟨lastRef st.next 1 h2, ?_, by rw [lastRef_box, if_pos rfl], fun q hq => by
      rw [lastRef_box, if_neg hq]⟩
    simp only [invokeFinish, e2, bind, Except.bind, e3, gt_iff_lt, lt_self_iff_false, if_false, pure,
      Except.pure, if_neg ha0, tupleUpdateRef, this, free_one e1]

/-- Null arguments are passed on as they are. -/
theorem C36_invoke_null (h : Heap) (p res : Addr) (c : Callable) (hc : readCallable p h = .ok c)
    (hn : c.ctlsCount = 0) (prog : ℕ → ℕ → Callee) :
    callableInvoke prog p 0 res h =
      (do
        let h2 ← prog c.funcTable (if c.isAdj then 1 else 0) c.capTuple 0 res h
        invokeFinish p 0 h2) := by
  simp only [callableInvoke, hc, hn, invokePrepare, if_true, bind, Except.bind, gt_iff_lt, lt_self_iff_false,
    if_false]
  cases c.isAdj <;> rfl

/-- A case meeting the hypotheses: a callable made controlled twice, with two one-element control lists and
one innermost argument. -/
example : let st := (Store.run [.newCallable 7 0 0, .makeControlled 1, .makeAdjoint 1, .makeControlled 1,
      .newArray 1 1, .storeElement 2 0 [5], .newArray 1 1, .storeElement 3 0 [6], .newTuple 2, .storeWord 4 0 3,
      .storeWord 4 1 99, .newTuple 2, .storeWord 5 0 2, .storeWord 5 1 4] Store.empty).2
    st.entry 1 = some ⟨1, 0, .callable ⟨7, 0, 0, true, 2⟩⟩ ∧ Nested st 1 2 5 2 [[5], [6]] [99] := by
  intro st
  have e2 : st.entry 2 = some ⟨1, 0, .array 1 [5]⟩ := rfl
  have e3 : st.entry 3 = some ⟨1, 0, .array 1 [6]⟩ := rfl
  have e4 : st.entry 4 = some ⟨1, 0, .tuple [3, 99]⟩ := rfl
  have e5 : st.entry 5 = some ⟨1, 0, .tuple [2, 4]⟩ := rfl
  exact ⟨rfl, .more e5 Nat.one_pos rfl e2 Nat.one_pos rfl (.last e4 Nat.one_pos rfl e3 Nat.one_pos rfl)⟩

end Qir.Std
