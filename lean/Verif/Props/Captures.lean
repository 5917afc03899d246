import Verif.Proof.Heap
import Verif.Props.Heap

/-!
# C50: the counts of captured values

The two functions that `capture_update_reference_count` and `capture_update_alias_count` find in the memory
management table of a callable are generated by the compiler of the program.  Below they are what the QIR
specification asks of them: update the count of every captured object and then that of the capture tuple.
-/

namespace Qir.Std
open Spec Heap

/-- The requests by which a client changes the counts of the objects `caps` and of the tuple `t` that holds
them: references, or aliases if `isAlias`. -/
def updates (isAlias : Bool) (caps : List (Kind × Addr)) (t : Addr) (u : ℤ) : List Act :=
  (caps ++ [(Kind.tuple, t)]).map fun c => if isAlias then .alias c.1 c.2 u else .ref c.1 c.2 u

/-- The compiled function for a capture tuple that holds objects at the given places. -/
def compiled (isAlias : Bool) : List (ℕ × Kind) → Addr → ℤ → Heap → Except Fault Heap
  | [], t, u, h => do
    let (_, h) ← h.act (if isAlias then .alias .tuple t u else .ref .tuple t u)
    return h
  | (i, k) :: l, t, u, h => do
    let w ← tupleLoad t i h
    let (_, h) ← h.act (if isAlias then .alias k w u else .ref k w u)
    compiled isAlias l t u h

/-- The objects the capture tuple with contents `ws` holds at the given places. -/
def captured (ws : List ℕ) (l : List (ℕ × Kind)) : List (Kind × Addr) := l.map fun x => (x.2, ws.getD x.1 0)

/-- A request of `updates` leaves contents alone and is made of objects in use. -/
theorem updates_entry {st : Store} {isAlias : Bool} {k : Kind} {w t : Addr} {u : ℤ} {e' : Entry}
    (hal : st.Allowed (if isAlias then .alias k w u else .ref k w u))
    (he : (st.act (if isAlias then .alias k w u else .ref k w u)).2.entry t = some e') (hr : 0 < e'.refs) :
    ∃ e, st.entry t = some e ∧ 0 < e.refs ∧ e.content = e'.content := by
  cases isAlias
  · obtain ⟨f, h1, -, h2, -⟩ := hal
    simp only [Bool.false_eq_true, if_false, Store.act, Store.change] at he
    split_ifs at he with h3
    · subst h3
      rw [h1] at he
      cases he
      exact ⟨f, h1, h2, rfl⟩
    · exact ⟨e', he, hr, rfl⟩
  · simp only [if_true, Store.act, Store.change] at he
    split_ifs at he with h3
    · subst h3
      cases h4 : st.entry t with
      | none => simp [h4] at he
      | some f =>
        rw [h4] at he
        cases he
        exact ⟨f, rfl, hr, rfl⟩
    · exact ⟨e', he, hr, rfl⟩

/-- The tuple is in use from the beginning if it is at the end. -/
theorem updates_live {isAlias : Bool} {t : Addr} {u : ℤ} {ws : List ℕ} :
    ∀ {caps : List (Kind × Addr)} {st : Store} {e : Entry}, Store.AllowedRun (updates isAlias caps t u) st →
      st.entry t = some e → e.content = .tuple ws → 0 < e.refs
  | [], st, e, hal, he, hc => by
    have h1 := hal.1
    cases isAlias
    · obtain ⟨f, h2, -, h3, -⟩ := h1
      rw [he] at h2
      cases h2
      exact h3
    · obtain ⟨f, h2, -, -, -, -, h3 | h3⟩ := h1
      · rw [he] at h2
        cases h2
        exact h3
      · exact absurd rfl h3.1
  | (k, w) :: caps, st, e, hal, he, hc => by
    have h1 := hal.1
    dsimp only at h1
    have h2 : ∃ e', (st.act (if isAlias then .alias k w u else .ref k w u)).2.entry t = some e' ∧
        e'.content = .tuple ws := by
      cases isAlias <;> simp only [Bool.false_eq_true, if_false, if_true, Store.act, Store.change]
      all_goals
        split_ifs with h3
        · rw [he]; exact ⟨_, rfl, hc⟩
        · exact ⟨e, he, hc⟩
    obtain ⟨e', h3, h4⟩ := h2
    obtain ⟨f, h5, h6, -⟩ := updates_entry h1 h3 (updates_live hal.2 h3 h4)
    rw [he] at h5
    cases h5
    exact h6

/-- The compiled function makes the requests. -/
theorem compiled_run {isAlias : Bool} {t : Addr} {u : ℤ} {ws : List ℕ} :
    ∀ {l : List (ℕ × Kind)} {h : Heap} {st : Store} {e : Entry}, Agrees h st →
      st.entry t = some e → e.content = .tuple ws → (∀ x ∈ l, x.1 < ws.length) →
      Store.AllowedRun (updates isAlias (captured ws l) t u) st →
      ∃ h', compiled isAlias l t u h = .ok h' ∧
        Heap.run (updates isAlias (captured ws l) t u) h =
          .ok ((Store.run (updates isAlias (captured ws l) t u) st).1, h') ∧
        Agrees h' (Store.run (updates isAlias (captured ws l) t u) st).2
  | [], h, st, e, ha, he, hc, hl, hal => by
    obtain ⟨h1, h2, h3⟩ := ha.act _ hal.1
    dsimp only [captured, List.map_nil, List.nil_append] at h2 h3
    refine ⟨h1, ?_, ?_, h3⟩
    · simp only [compiled, h2, bind, Except.bind, pure, Except.pure]
    · simp only [updates, captured, List.map_nil, List.nil_append, List.map_cons, Heap.run, Store.run, h2, bind,
        Except.bind, pure, Except.pure]
  | (i, k) :: l, h, st, e, ha, he, hc, hl, hal => by
    have hr : 0 < e.refs := updates_live hal he hc
    have h1 : tupleLoad t i h = .ok (ws.getD i 0) := by
      have hi : i < ws.length := hl (i, k) (List.mem_cons_self ..)
      simp only [tupleLoad, ha.readTuple_eq he hr hc, bind, Except.bind, List.getElem?_eq_getElem hi, pure,
        Except.pure, List.getD_eq_getElem?_getD, Option.getD_some]
    obtain ⟨g, h2, h3⟩ := ha.act _ hal.1
    dsimp only at h2 h3
    have h4 : ∃ e', (st.act (if isAlias then .alias k (ws.getD i 0) u else .ref k (ws.getD i 0) u)).2.entry t =
        some e' ∧ e'.content = .tuple ws := by
      cases isAlias <;> simp only [Bool.false_eq_true, if_false, if_true, Store.act, Store.change]
      all_goals
        split_ifs with h3
        · rw [he]; exact ⟨_, rfl, hc⟩
        · exact ⟨e, he, hc⟩
    obtain ⟨e', h5, h6⟩ := h4
    obtain ⟨g', h7, h8, h9⟩ := compiled_run (l := l) h3 h5 h6 (fun x hx => hl x (List.mem_cons_of_mem _ hx)) hal.2
    refine ⟨g', ?_, ?_, h9⟩
    · simp only [compiled, h1, h2, h7, bind, Except.bind]
    · simp only [captured, updates, List.map_cons, List.cons_append] at h8 ⊢
      simp only [Heap.run, Store.run, h2, h8, bind, Except.bind, pure, Except.pure]

theorem updates_change {isAlias : Bool} {t : Addr} {u : ℤ} (q : Addr) :
    ∀ {caps : List (Kind × Addr)} {st : Store} {e : Entry}, Store.AllowedRun (updates isAlias caps t u) st →
      st.entry q = some e → ∃ e', (Store.run (updates isAlias caps t u) st).2.entry q = some e' ∧
        e'.content = e.content ∧
        (e'.refs : ℤ) = e.refs + (if isAlias then 0 else u * ((caps.map (·.2) ++ [t]).count q : ℤ)) ∧
        (e'.aliases : ℤ) = e.aliases + (if isAlias then u * ((caps.map (·.2) ++ [t]).count q : ℤ) else 0) := by
  have key : ∀ {acts : List (Kind × Addr)} {st : Store} {e : Entry},
      Store.AllowedRun (acts.map fun c => if isAlias then Act.alias c.1 c.2 u else .ref c.1 c.2 u) st →
      st.entry q = some e →
      ∃ e', (Store.run (acts.map fun c => if isAlias then Act.alias c.1 c.2 u else .ref c.1 c.2 u) st).2.entry q =
          some e' ∧ e'.content = e.content ∧
        (e'.refs : ℤ) = e.refs + (if isAlias then 0 else u * ((acts.map (·.2)).count q : ℤ)) ∧
        (e'.aliases : ℤ) = e.aliases + (if isAlias then u * ((acts.map (·.2)).count q : ℤ) else 0) := by
    intro acts
    induction acts with
    | nil =>
      intro st e _ he
      exact ⟨e, he, rfl, by simp, by simp⟩
    | cons a acts ih =>
      intro st e hal he
      have h1 := hal.1
      have h2 : ∃ e1, (st.act (if isAlias then Act.alias a.1 a.2 u else .ref a.1 a.2 u)).2.entry q = some e1 ∧
          e1.content = e.content ∧
          (e1.refs : ℤ) = e.refs + (if isAlias then 0 else if a.2 = q then u else 0) ∧
          (e1.aliases : ℤ) = e.aliases + (if isAlias then if a.2 = q then u else 0 else 0) := by
        by_cases h3 : q = a.2
        · cases isAlias
          · obtain ⟨f, k1, -, -, k2⟩ := h1
            rw [← h3, he] at k1
            cases k1
            refine ⟨{ e with refs := (e.refs + u).toNat }, ?_, rfl, ?_, by simp⟩
            · simp [Store.act, Store.change, ← h3, he]
            · simp only [Bool.false_eq_true, if_false, h3, if_true]; omega
          · obtain ⟨f, k1, -, k2, -⟩ := h1
            rw [← h3, he] at k1
            cases k1
            refine ⟨{ e with aliases := (e.aliases + u).toNat }, ?_, rfl, by simp, ?_⟩
            · simp [Store.act, Store.change, ← h3, he]
            · simp only [h3, if_true]; omega
        · refine ⟨e, ?_, rfl, ?_, ?_⟩
          · cases isAlias <;> simp [Store.act, Store.change, h3, he]
          · simp [Ne.symm h3]
          · simp [Ne.symm h3]
      obtain ⟨e1, k1, k2, k3, k4⟩ := h2
      obtain ⟨e', m1, m2, m3, m4⟩ := ih hal.2 k1
      refine ⟨e', m1, m2.trans k2, ?_, ?_⟩
      · rw [m3, k3, List.map_cons, List.count_cons]
        by_cases h3 : a.2 = q <;> cases isAlias <;> simp [h3, Int.mul_add, Int.add_assoc, Int.add_comm u]
      · rw [m4, k4, List.map_cons, List.count_cons]
        by_cases h3 : a.2 = q <;> cases isAlias <;> simp [h3, Int.mul_add, Int.add_assoc, Int.add_comm u]
  intro caps st e hal he
  have := key (acts := caps ++ [(Kind.tuple, t)]) hal he
  simpa [updates] using this

/-- **C50**.  Let `p` be a callable whose capture tuple holds the objects `caps`, with a memory management
table as compilers generate it.  Updating the reference count (`isAlias = false`) or the alias count
(`isAlias = true`) of the captures changes that count of each captured object by the requested amount, as
often as it was captured, that of the capture tuple too, the other count and all other objects not at all. -/
theorem C50_captures (as : List Act) (p : Addr) (e f : Entry) (c : Callable) (ws : List ℕ)
    (l : List (ℕ × Kind)) (mem : ℕ → ℕ → Option (Addr → ℤ → Heap → Except Fault Heap)) (isAlias : Bool) (u : ℤ)
    (he : (Store.run as Store.empty).2.entry p = some e) (hr : 0 < e.refs) (hc : e.content = .callable c)
    (hf : (Store.run as Store.empty).2.entry c.capTuple = some f) (hcf : f.content = .tuple ws)
    (hl : ∀ x ∈ l, x.1 < ws.length) (hm : c.memTable ≠ 0)
    (h0 : mem c.memTable 0 = some (compiled false l)) (h1 : mem c.memTable 1 = some (compiled true l))
    (hal : Store.AllowedRun as Store.empty)
    (hup : Store.AllowedRun (updates isAlias (captured ws l) c.capTuple u) (Store.run as Store.empty).2) :
    ∃ rs h rs' h', Heap.run as Heap.empty = .ok (rs, h) ∧
      captureUpdate mem (if isAlias then 1 else 0) p u h = .ok h' ∧
      Heap.run (updates isAlias (captured ws l) c.capTuple u) h = .ok (rs', h') ∧
      ∀ q g, (Store.run as Store.empty).2.entry q = some g →
        ∃ g', (Store.run (updates isAlias (captured ws l) c.capTuple u) (Store.run as Store.empty).2).2.entry q =
            some g' ∧ g'.content = g.content ∧
          (g'.refs : ℤ) = g.refs +
            (if isAlias then 0 else u * (((captured ws l).map (·.2) ++ [c.capTuple]).count q : ℤ)) ∧
          (g'.aliases : ℤ) = g.aliases +
            (if isAlias then u * (((captured ws l).map (·.2) ++ [c.capTuple]).count q : ℤ) else 0) ∧
          (0 < g'.refs → Shows h' q g'.content) ∧
          h'.dropped.count q = (if g'.refs = 0 then 1 else 0) ∧
          h'.freed.count q = (if g'.refs = 0 ∧ g'.aliases = 0 then 1 else 0) := by
  obtain ⟨h, hrun, ha⟩ := agrees_empty.run as hal
  obtain ⟨h', k1, k2, k3⟩ := compiled_run ha hf hcf hl hup
  refine ⟨_, h, _, h', hrun, ?_, k2, fun q g hg => ?_⟩
  · cases isAlias <;>
      simp only [captureUpdate, ha.readCallable_eq he hr hc, bind, Except.bind, hm, if_false, if_true, h0, h1, k1,
        Bool.false_eq_true]
  · obtain ⟨g', m1, m2, m3, m4⟩ := updates_change q hup hg
    refine ⟨g', m1, m2, m3, m4, k3.shows m1, ?_, ?_⟩
    · rw [k3.dropped, m1]; rfl
    · rw [k3.freed, m1]; rfl

/-- **C50**, nothing to manage: with no table, or no entry for the count in question, nothing happens. -/
theorem C50_no_table (h : Heap) (p : Addr) (c : Callable) (hc : readCallable p h = .ok c)
    (mem : ℕ → ℕ → Option (Addr → ℤ → Heap → Except Fault Heap)) (isAlias : Bool) (u : ℤ)
    (hm : c.memTable = 0 ∨ mem c.memTable (if isAlias then 1 else 0) = none) :
    captureUpdate mem (if isAlias then 1 else 0) p u h = .ok h := by
  simp only [captureUpdate, hc, bind, Except.bind, pure, Except.pure]
  rcases hm with hm | hm
  · rw [if_pos hm]
  · rw [hm]; split_ifs <;> rfl

/-- A case meeting the hypotheses of `C50_captures`: a callable that captures an array, twice, and a string.  Two
references are added and then two taken away. -/
example : let as : List Act := [.newArray 8 1, .newString [65], .newTuple 3, .storeWord 3 0 1, .storeWord 3 1 2,
      .storeWord 3 2 1, .newCallable 7 1 3]
    let l := [(0, Kind.array), (1, .string), (2, .array)]
    let up := fun u => updates false (captured [1, 2, 1] l) 3 u
    let st := (Store.run as Store.empty).2
    Store.AllowedRun as Store.empty ∧ st.entry 4 = some ⟨1, 0, .callable ⟨7, 1, 3, false, 0⟩⟩ ∧
      st.entry 3 = some ⟨1, 0, .tuple [1, 2, 1]⟩ ∧
      Store.AllowedRun (up 2) st ∧ (((Store.run (up 2) st).2.entry 1).map (·.refs) = some 5) ∧
      Store.AllowedRun (up (-2)) (Store.run (up 2) st).2 ∧
      (((Store.run (up 2 ++ up (-2)) st).2.entry 1).map (·.refs) = some 1) := by
  intro as l up st
  refine ⟨?_, rfl, rfl, ?_, rfl, ?_, rfl⟩
  · exact ⟨trivial, trivial, trivial, ⟨_, [0, 0, 0], rfl, Nat.one_pos, rfl, by decide⟩,
      ⟨_, [1, 0, 0], rfl, Nat.one_pos, rfl, by decide⟩, ⟨_, [1, 2, 0], rfl, Nat.one_pos, rfl, by decide⟩,
      trivial, trivial⟩
  · exact ⟨⟨_, rfl, rfl, by decide, by decide⟩, ⟨_, rfl, rfl, by decide, by decide⟩,
      ⟨_, rfl, rfl, by decide, by decide⟩, ⟨_, rfl, rfl, by decide, by decide⟩, trivial⟩
  · exact ⟨⟨_, rfl, rfl, by decide, by decide⟩, ⟨_, rfl, rfl, by decide, by decide⟩,
      ⟨_, rfl, rfl, by decide, by decide⟩, ⟨_, rfl, rfl, by decide, by decide⟩, trivial⟩

end Qir.Std
