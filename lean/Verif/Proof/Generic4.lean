import Verif.Props.GenericDefs
import Verif.Proof.Generic3

/-! # Histories under an arbitrary arithmetic -/

namespace Qir
namespace Gen
open Function

variable {F : Type} {N : Num F}

/-- The simulator and the book keeping agree. -/
structure Books (L : Finset ℕ) (s : GSim F) : Prop where
  inv : Inv s
  ids : ∀ q, (s.idMap.get q).isSome = true ↔ q ∈ L

theorem Books.sound {L : Finset ℕ} {s : GSim F} (h : Books L s) : Sound L s where
  ids := h.ids
  apart := h.inv.core.inj
  distinct := h.inv.core.nodup
  placed e he l hl := by
    obtain ⟨i, hi⟩ := h.inv.core.bits e he l hl
    exact ⟨i, (h.ids i).1 (by rw [hi]; rfl), hi⟩
  room := h.inv.bound
  named op hop := ⟨(h.inv.ops op hop).1, fun i hi => (h.ids i).1 ((h.inv.ops op hop).2 i hi)⟩
  pending q hq := by
    rw [← h.ids]
    rcases hq with hq | hq | hq
    · exact h.inv.h q hq
    · exact h.inv.rx q hq
    · exact h.inv.ry q hq

theorem Books.card {L : Finset ℕ} {s : GSim F} (h : Books L s) : s.idMap.keys.length = L.card := by
  have : L = s.idMap.keys.toFinset := by
    ext q
    rw [List.mem_toFinset, IMap.mem_keys, h.ids]
  rw [this, List.toFinset_card_of_nodup (IMap.keys_nodup _)]

theorem Books.opnds {L : Finset ℕ} {s : GSim F} (h : Books L s) {cs : List ℕ} {q : ℕ}
    (hv : (cs ++ [q]).Nodup ∧ ∀ i ∈ cs ++ [q], i ∈ L) : OpndsOk s.idMap cs q :=
  ⟨hv.1, fun i hi => (h.ids i).2 (hv.2 i hi)⟩

theorem leastFree_unique {L : Finset ℕ} {k : ℕ} (h1 : k ∉ L) (h2 : ∀ j < k, j ∈ L) : leastFree L = k := by
  unfold leastFree
  rw [Nat.find_eq_iff]
  exact ⟨h1, fun j hj hn => hn (h2 j hj)⟩

theorem shown_eq (fmt : Cx F → String) (l : List (ℕ × Cx F)) : dumpText fmt l = shown fmt l := by
  unfold dumpText shown
  simp only
  have : ∀ (l : List (ℕ × Cx F)) (t : String),
      l.foldl (fun output e => output ++ ("|" ++ toString e.1 ++ "⟩: " ++ fmt e.2 ++ ", ")) t =
        t ++ String.join (l.map fun e => "|" ++ toString e.1 ++ "⟩: " ++ fmt e.2 ++ ", ") := by
    intro l
    induction l with
    | nil => intro t; simp
    | cons e l ih => intro t; rw [List.foldl_cons, ih, List.map_cons, String.join_cons, String.append_assoc]
  rw [this, String.append_assoc]
  rfl

theorem quiet_goes {L : Finset ℕ} {s : GSim F} (hb : Books L s) {r : Except Panic (GSim F)} (h : Goes (Stays s) r) :
    ∃ s', quiet r = .ok (.none, s') ∧ Books L s' ∧ s'.rng = s.rng := by
  obtain ⟨s', h1, hs⟩ := h
  exact ⟨s', by simp only [quiet, h1, ok_bind]; rfl, ⟨hs.inv, fun q => by rw [hs.live]; exact hb.ids q⟩, hs.rng⟩

theorem Seen.books {L : Finset ℕ} {s s' : GSim F} (hb : Books L s) {ids : List ℕ} (h : Seen ids s s') : Books L s' :=
  ⟨h.inv, fun q => by rw [h.idMap]; exact hb.ids q⟩

theorem call_goes {L : Finset ℕ} {s : GSim F} (hb : Books L s) (c : GCall F) (hv : Allowed L c) :
    ∃ o s', call N c s = .ok (o, s') ∧ Answer N L (s.rng 0) c o ∧ Books (liveNext L c) s' ∧
      s'.rng = fun n => s.rng (n + drawn L c) := by
  have alloc : ∀ {ids : List ℕ}, (∀ i ∈ ids, i ∈ L) → Alloc s.idMap ids := fun h i hi => (hb.ids i).2 (h i hi)
  cases c with
  | gate g q =>
    obtain ⟨s', h1, h2, h3⟩ := quiet_goes hb (gateCall_goes (N := N) hb.inv ((hb.ids q).2 hv) g)
    exact ⟨_, s', h1, rfl, h2, h3⟩
  | ctrl g cs q =>
    obtain ⟨s', h1, h2, h3⟩ := quiet_goes hb (ctrlCall_goes (N := N) hb.inv (hb.opnds hv) g)
    exact ⟨_, s', h1, rfl, h2, h3⟩
  | phase cs φ q =>
    obtain ⟨s', h1, h2, h3⟩ := quiet_goes hb
      ((mcphase_goes (N := N) hb.inv φ (hb.opnds hv)).mono fun _ h => h.stays)
    exact ⟨_, s', h1, rfl, h2, h3⟩
  | exp cs ps θ ts =>
    obtain ⟨s', h1, h2, h3⟩ := quiet_goes hb
      ((mcexp_goes (N := N) hb.inv θ hv.1 (alloc hv.2.1) hv.2.2).mono fun _ h => h.stays)
    exact ⟨_, s', h1, rfl, h2, h3⟩
  | swap a b =>
    obtain ⟨s', h1, h2, h3⟩ := quiet_goes hb
      (swapQubitIds_goes (N := N) hb.inv ((hb.ids a).2 hv.1) ((hb.ids b).2 hv.2))
    exact ⟨_, s', h1, rfl, h2, h3⟩
  | allocate =>
    obtain ⟨h1, h2, h3, h4, h5, _⟩ := allocate_inv hb.inv
    have hf : leastFree L = (allocate s).1 := by
      apply leastFree_unique
      · rw [← hb.ids, h2]; simp
      · intro j hj; exact (hb.ids j).1 (h3 j hj)
    refine ⟨_, _, rfl, by rw [Answer, hf], ⟨h1, fun q => ?_⟩, h5⟩
    rw [h4, liveNext, Finset.mem_insert, hf, hb.ids]
  | release q =>
    have ha := (hb.ids q).2 hv
    have hlen : s.idMap.iter.length = L.card := by
      rw [← hb.card, IMap.keys, List.length_map]
    have hids : ∀ s' : GSim F, s'.idMap = s.idMap.remove q → ∀ r, (s'.idMap.get r).isSome = true ↔ r ∈ L.erase q := by
      intro s' h r
      rw [h, IMap.get_remove, Finset.mem_erase]
      by_cases hr : r = q
      · simp [hr]
      · simp [hr, hb.ids]
    by_cases hc : L.card = 1
    · obtain ⟨s', h1, h2, h3, h4, _⟩ := release_last_goes (N := N) hb.inv (id := q) (hlen.trans hc)
      refine ⟨.none, s', by simp only [call, quiet, h1, ok_bind, pure_ok], rfl, ⟨h2, hids s' h3⟩, ?_⟩
      rw [h4, drawn, if_pos hc]
      rfl
    · obtain ⟨s', h1, h2, h3, h4⟩ := release_many_goes (N := N) hb.inv ha (by rw [hlen]; exact hc)
      refine ⟨.none, s', by simp only [call, quiet, h1, ok_bind, pure_ok], rfl, ⟨h2, hids s' h3⟩, ?_⟩
      rw [h4, drawn, if_neg hc]
  | measure q =>
    obtain ⟨loc, hloc⟩ := Option.isSome_iff_exists.1 ((hb.ids q).2 hv)
    obtain ⟨p, s', h1, h2, h3, _⟩ := measure_goes (N := N) hb.inv hloc
    exact ⟨_, s', by simp only [call, h1, ok_bind]; rfl, ⟨p, rfl⟩, h2.books hb, h3⟩
  | jointMeasure qs =>
    obtain ⟨p, s', _, h1, h2, h3, _⟩ := jointMeasure_goes (N := N) hb.inv hv.1 (alloc hv.2)
    exact ⟨_, s', by simp only [call, h1, ok_bind]; rfl, ⟨p, rfl⟩, h2.books hb, h3⟩
  | jointProb qs =>
    obtain ⟨p, s', h1, h2, h3⟩ := jointProbability_goes (N := N) hb.inv hv.1 (alloc hv.2)
    exact ⟨_, s', by simp only [call, h1, ok_bind]; rfl, ⟨p, rfl⟩, h2.books hb, h3⟩
  | isZero q =>
    obtain ⟨p, s', h1, h2, h3⟩ := jointProbability_goes (N := N) hb.inv (ids := [q]) (by simp) (alloc (by
      intro i hi; simp only [List.mem_singleton] at hi; subst hi; exact hv))
    exact ⟨_, s', by simp only [call, qubitIsZero, h1, ok_bind]; rfl, ⟨p, rfl⟩, h2.books hb, h3⟩
  | collapse v q =>
    obtain ⟨p, s', h1, h2, h3⟩ := forceCollapse_goes (N := N) hb.inv v ((hb.ids q).2 hv)
    exact ⟨_, s', by simp only [call, h1, ok_bind]; rfl, ⟨p, rfl⟩, h2.books hb, h3⟩
  | getState =>
    obtain ⟨l, s', h1, h2, h3⟩ := getState_goes (N := N) hb.inv
    rw [hb.card] at h1 h3
    exact ⟨_, s', by simp only [call, h1, ok_bind]; rfl, ⟨l, rfl, h3⟩, ⟨h2.inv, fun q => by rw [h2.live]; exact hb.ids q⟩,
      h2.rng⟩
  | dump fmt =>
    obtain ⟨l, s', h1, h2, h3⟩ := dump_goes (N := N) fmt hb.inv
    rw [hb.card] at h3
    exact ⟨_, s', by simp only [call, h1, ok_bind]; rfl, ⟨l, by rw [shown_eq], h3⟩,
      ⟨h2.inv, fun q => by rw [h2.live]; exact hb.ids q⟩, h2.rng⟩

theorem run_goes (cs : List (GCall F)) : ∀ {L : Finset ℕ} {s : GSim F}, Books L s → Valid L cs →
    ∃ os s', runCalls N cs s = .ok (os, s') ∧ Answers N L s.rng cs os ∧ Books (liveAfter L cs) s' ∧
      s'.rng = fun n => s.rng (n + drawnBy L cs) := by
  induction cs with
  | nil => intro L s hb _; exact ⟨[], s, rfl, rfl, hb, rfl⟩
  | cons c cs ih =>
    intro L s hb hv
    obtain ⟨o, s1, h1, ha, hb1, hr1⟩ := call_goes (N := N) hb c hv.1
    obtain ⟨os, s2, h2, ha2, hb2, hr2⟩ := ih hb1 hv.2
    refine ⟨o :: os, s2, by simp only [runCalls, h1, ok_bind, h2]; rfl, ⟨o, os, rfl, ha, ?_⟩, hb2, ?_⟩
    · rw [hr1] at ha2; exact ha2
    · rw [hr2, hr1]
      funext n
      simp only [drawnBy]
      congr 1
      omega

theorem books_new (N : Num F) (rng : ℕ → F) : Books ∅ (new N rng) := by
  refine ⟨Fresh.inv (N := N) ⟨rfl, rfl, rfl, rfl, rfl⟩ ?_, ?_⟩
  · intro i j l h; rw [show (new N rng).idMap.get i = none from IMap.get_empty i] at h; cases h
  · intro q; rw [show (new N rng).idMap.get q = none from IMap.get_empty q]; simp

theorem run_new (N : Num F) (rng : ℕ → F) (cs : List (GCall F)) (hv : Valid ∅ cs) :
    ∃ os s, runCalls N cs (new N rng) = .ok (os, s) ∧ Answers N ∅ rng cs os ∧ Sound (liveAfter ∅ cs) s ∧
      s.rng = fun n => rng (n + drawnBy ∅ cs) := by
  obtain ⟨os, s, h1, h2, h3, h4⟩ := run_goes (N := N) cs (books_new N rng) hv
  exact ⟨os, s, h1, h2, h3.sound, h4⟩

theorem runCalls_append (cs ds : List (GCall F)) (s : GSim F) : runCalls N (cs ++ ds) s = do
    let (os, s) ← runCalls N cs s
    let (os', s) ← runCalls N ds s
    return (os ++ os', s) := by
  induction cs generalizing s with
  | nil =>
    simp only [List.nil_append, runCalls, ok_bind]
    cases runCalls N ds s <;> rfl
  | cons c cs ih =>
    simp only [List.cons_append, runCalls]
    cases call N c s with
    | error e => rfl
    | ok r =>
      simp only [ok_bind, ih]
      cases runCalls N cs r.2 with
      | error e => rfl
      | ok r' =>
        simp only [ok_bind, pure_ok]
        cases runCalls N ds r'.2 <;> rfl

theorem valid_append (cs ds : List (GCall F)) (L : Finset ℕ) :
    Valid L (cs ++ ds) ↔ Valid L cs ∧ Valid (liveAfter L cs) ds := by
  induction cs generalizing L with
  | nil => simp [Valid, liveAfter]
  | cons c cs ih =>
    simp only [List.cons_append, Valid, ih, and_assoc]
    rfl

theorem release_all (N : Num F) (rng : ℕ → F) (cs : List (GCall F)) (q : ℕ) (hv : Valid ∅ cs)
    (hl : liveAfter ∅ cs = {q}) :
    ∃ os s, runCalls N (cs ++ [.release q]) (new N rng) = .ok (os, s) ∧ AsNew N s := by
  obtain ⟨os, s, h1, h2, h3, h4⟩ := run_goes (N := N) cs (books_new N rng) hv
  rw [hl] at h3
  have hlen : s.idMap.iter.length = 1 := by
    have := h3.card
    rw [IMap.keys, List.length_map] at this
    rw [this]; rfl
  obtain ⟨s', h5, h6, h7, h8, hf⟩ := release_last_goes (N := N) h3.inv (id := q) hlen
  refine ⟨os ++ [.none], s', ?_, hf.state, ?_, hf.ops, hf.h, hf.rx, hf.ry⟩
  · rw [runCalls_append, h1, ok_bind]
    simp only [runCalls, call, quiet, h5, ok_bind]
    rfl
  · intro r
    rw [h7, IMap.get_remove]
    split
    · rfl
    · rename_i hr
      have := (h3.ids r).not.2 (by simpa using hr)
      simpa using this

/-! ### Not-a-numbers -/

theorem IsNaN.nearlyZero {nan : F} (h : IsNaN N nan) : N.nearlyZero nan = true := by
  rw [Num.nearlyZero, h.max, h.min, h.tiny]

theorem shuffle_one (N : Num F) (e : ℕ × Cx F) : N.shuffle [e] = [e] := List.perm_singleton.1 (N.shuffle_perm _)

theorem IsNaN.mul_cis {nan : F} (h : IsNaN N nan) (z : Cx F) : N.mulC z (N.cis nan) = ⟨nan, nan⟩ := by
  simp only [Num.mulC, Num.cis, h.cos, h.sin, h.mul', h.sub, h.add]

theorem IsNaN.rz {nan : F} (h : IsNaN N nan) (k : ℕ) (z : Cx F) (t : ℕ) :
    rzTransform N (k, z) nan t = (k, ⟨nan, nan⟩) := by
  simp only [rzTransform, h.div, h.mul, h.mul_cis]

/-- A Hadamard gate on two not-a-numbers leaves nothing. -/
theorem IsNaN.mch {nan : F} (h : IsNaN N nan) :
    (N.shuffle (collectMap [(0, ⟨nan, nan⟩), (1, ⟨nan, nan⟩)])).flatMap
      (mchEntry N (N.shuffle (collectMap [(0, ⟨nan, nan⟩), (1, ⟨nan, nan⟩)])) [] 0) = [] := by
  have hp := N.shuffle_perm [(0, ⟨nan, nan⟩), (1, ⟨nan, nan⟩)]
  rw [show collectMap [(0, (⟨nan, nan⟩ : Cx F)), (1, ⟨nan, nan⟩)] = [(0, ⟨nan, nan⟩), (1, ⟨nan, nan⟩)] from rfl]
  have hz : N.nearlyZeroC ⟨nan, nan⟩ = true := by simp [Num.nearlyZeroC, h.nearlyZero]
  have hl : ∀ k, k = 0 ∨ k = 1 →
      lookupMap (N.shuffle [(0, ⟨nan, nan⟩), (1, ⟨nan, nan⟩)]) k = some ⟨nan, nan⟩ := by
    intro k hk
    unfold lookupMap
    cases hf : (N.shuffle [(0, (⟨nan, nan⟩ : Cx F)), (1, ⟨nan, nan⟩)]).find? (fun p => p.1 == k) with
    | none =>
      have := List.find?_eq_none.1 hf (k, ⟨nan, nan⟩) (hp.mem_iff.2 (by rcases hk with rfl | rfl <;> simp))
      simp at this
    | some p =>
      have := hp.mem_iff.1 (List.mem_of_find?_eq_some hf)
      simp only [List.mem_cons, List.not_mem_nil, or_false] at this
      rcases this with rfl | rfl <;> rfl
  rw [List.flatMap_eq_nil_iff]
  intro e he
  have := hp.mem_iff.1 he
  simp only [List.mem_cons, List.not_mem_nil, or_false] at this
  rcases this with rfl | rfl
  · have := hl ((0 : ℕ) ^^^ setBit 0 0 true) (.inr rfl)
    simp only [mchEntry, this]
    simp [Num.addC, Num.subC, h.add, h.sub, hz]
  · have := hl ((1 : ℕ) ^^^ setBit 0 0 true) (.inl rfl)
    simp only [mchEntry, this]
    simp

/-- Qubit 0 alone, at location 0. -/
def oneQubit : IMap ℕ := IMap.insert IMap.empty 0 0

/-- One qubit, nothing queued but perhaps a Hadamard gate. -/
def one (st : List (ℕ × Cx F)) (rng : ℕ → F) (f : ℕ) (ops : List (List ℕ × ℕ × GOp F)) : GSim F :=
  ⟨st, oneQubit, rng, f, IMap.empty, IMap.empty, ops⟩

theorem one_h (st : List (ℕ × Cx F)) (rng : ℕ → F) (f : ℕ) (ops : List (List ℕ × ℕ × GOp F)) :
    h N 0 (one st rng f ops) = .ok (one st rng (setBit f 0 (!f.testBit 0)) ops) := rfl

theorem one_flush {st : List (ℕ × Cx F)} {rng : ℕ → F} {f : ℕ} {ops : List (List ℕ × ℕ × GOp F)} (hf : f.testBit 0 = true)
    {rops : List (List ℕ × ℕ × GOp F)} (hr : resolveOps oneQubit ops = .ok rops) {st' : List (ℕ × Cx F)}
    (hs : (N.shuffle (collectMap (st.map (applyOps N rops)))).flatMap
      (mchEntry N (N.shuffle (collectMap (st.map (applyOps N rops)))) [] 0) = st') :
    flushQueue N [0] .HRxRy (one st rng f ops) = .ok (one st' rng (setBit f 0 false) []) := by
  have h1 : takeOps (one st rng f ops) = .ok (rops, one st rng f []) := by
    unfold takeOps
    rw [show (one st rng f ops).opQ = ops from rfl, show (one st rng f ops).idMap = oneQubit from rfl, hr]
    rfl
  have h2 : Sim.resolveAndCheck oneQubit 0 [] = .ok (0, []) := rfl
  have h5 : applyMch N [] 0 (one st rng f ops) = .ok (one st' rng f []) := by
    unfold applyMch
    rw [show (one st rng f ops).idMap = oneQubit from rfl, h2]
    simp only [ok_bind, h1]
    rw [← hs]
    rfl
  have h6 : flushH N 0 (one st rng f ops) = .ok (one st' rng (setBit f 0 false) []) := by
    unfold flushH
    rw [show (one st rng f ops).hFlag = f from rfl, if_pos hf, h5]; rfl
  rw [flushQueue, flushLoop, flushOne, h6]; rfl

theorem nan_run {nan : F} (h : IsNaN N nan) (rng : ℕ → F) :
    ∃ s, runCalls N [.allocate, .gate .h 0, .gate (.rz nan) 0, .gate .h 0, .getState] (new N rng) =
      .ok ([.id 0, .none, .none, .none, .state [] 1], s) ∧ s.state = [] := by
  obtain ⟨st, hst⟩ : ∃ st : List (ℕ × Cx F), st =
    [(0, N.scale N.oneC N.fracSqrt2), (1, N.scale (N.scale N.oneC N.fracSqrt2) N.one)] := ⟨_, rfl⟩
  have b1 : setBit 0 0 (!(0 : ℕ).testBit 0) = 1 := rfl
  have b0 : setBit 1 0 false = 0 := rfl
  have h5 : allocate (new N rng) = (0, one [(0, N.oneC)] rng 0 []) := by
    have : (new N rng).idMap.values.mergeSort (fun a b => decide (a ≤ b)) = [] := List.mergeSort_nil
    simp only [allocate, this]
    rfl
  have hh : ∀ st ops, call N (.gate .h 0) (one st rng 0 ops) = .ok (.none, one st rng 1 ops) := by
    intro st ops
    rw [call, gateCall, one_h, b1]; rfl
  have h2 : call N (.gate (.rz nan) 0) (one [(0, N.oneC)] rng 1 []) = .ok (.none, one st rng 0 [([], 0, .Rz nan)]) := by
    have h7 : flushQueue N [0] .HRxRy (one [(0, N.oneC)] rng 1 []) = .ok (one st rng 0 []) := by
      rw [show one st rng 0 [] = one st rng (setBit 1 0 false) [] from by rw [b0]]
      refine one_flush (rops := []) rfl rfl ?_
      rw [show collectMap ([(0, N.oneC)].map (applyOps N [])) = [(0, N.oneC)] from rfl, shuffle_one, hst]
      simp [mchEntry, lookupMap, setBit]
    have h8 : maybeFlush N [0] .HRxRy (one [(0, N.oneC)] rng 1 []) = .ok (one st rng 0 []) := by
      unfold maybeFlush
      rw [if_pos (by simp [one, hasQueued]), h7]
    rw [call, gateCall, diagGate, h8, ok_bind]
    rfl
  have h4 : call N .getState (one st rng 1 [([], 0, .Rz nan)]) = .ok (.state [] 1, one [] rng 0 []) := by
    have h7 : flushQueue N [0] .HRxRy (one st rng 1 [([], 0, .Rz nan)]) = .ok (one [] rng 0 []) := by
      rw [← b0]
      refine one_flush (rops := [([], 0, .Rz nan)]) rfl rfl ?_
      have h6 : st.map (applyOps N [([], 0, .Rz nan)]) = [(0, ⟨nan, nan⟩), (1, ⟨nan, nan⟩)] := by
        rw [hst]
        show [rzTransform N _ nan 0, rzTransform N _ nan 0] = _
        rw [h.rz, h.rz]
      rw [h6]; exact h.mch
    have h8 : (one st rng 1 [([], 0, .Rz nan)]).idMap.iter.map Prod.fst = [0] := rfl
    simp only [call, getState, h8, h7, ok_bind]
    have h9 : sortState ([] : List (ℕ × Cx F)) = [] := List.mergeSort_nil
    have h10 : relocate N 0 [0] (one [] rng 0 []) = .ok (one [] rng 0 []) := rfl
    rw [h10]
    simp only [ok_bind, pure_ok]
    rw [show (one ([] : List (ℕ × Cx F)) rng 0 []).state = [] from rfl, h9]
    rfl
  refine ⟨one [] rng 0 [], ?_, rfl⟩
  simp only [runCalls, h2, hh, h4, ok_bind, show call N .allocate (new N rng) =
    .ok (.id (allocate (new N rng)).1, (allocate (new N rng)).2) from rfl, h5]
  rfl

end Gen
end Qir
