import Verif.Proof.Generic2

/-! # Qubit identifiers, measurements and dumps under an arbitrary arithmetic -/

namespace Qir
namespace Gen
open Function
open Qir.Sim (resolveId resolveIds indexId resolveAndCheck checkForDuplicates firstFree locMask oddParity findByLoc
  ExpMasks expMasks expCheckDup)

variable {F : Type} {N : Num F}

/-! ### Measurements -/

/-- After a look at the parity of some qubits: nothing is queued on them and no operation at all. -/
structure Seen (ids : List ℕ) (s s' : GSim F) : Prop where
  inv : Inv s'
  idMap : s'.idMap = s.idMap
  ops : s'.opQ = []
  quiet : ∀ q ∈ ids, hasQueued s' q = false

theorem check_goes {s : GSim F} (h : Inv s) (locs : List ℕ) :
    ∃ p st, checkJointProbability N locs s = .ok (p, { s with state := st, opQ := [] }) ∧ GCore s.idMap st := by
  obtain ⟨rops, ht, hc⟩ := takeOps_ok N h
  exact ⟨_, _, by simp only [checkJointProbability, ht, ok_bind]; rfl, hc⟩

theorem Inv.reseed {s : GSim F} (h : Inv s) (r : ℕ → F) : Inv { s with rng := r } :=
  ⟨h.core, h.ops, h.bound, h.h, h.rx, h.ry⟩

theorem Seen.mk' {ids : List ℕ} {s s1 : GSim F} (hd : Down s s1) (hq : ∀ q ∈ ids, hasQueued s1 q = false)
    {st : List (ℕ × Cx F)} (hc : GCore s1.idMap st) (r : ℕ → F) :
    Seen ids s { s1 with state := st, opQ := [], rng := r } :=
  ⟨⟨hc, by simp, by simp, hd.inv.h, hd.inv.rx, hd.inv.ry⟩, hd.idMap, rfl, hq⟩

theorem core_collapse {m : IMap ℕ} {st : List (ℕ × Cx F)} (h : GCore m st) (mask : ℕ) (val : Bool) (c : F) :
    GCore m (st.filterMap (fun e => if oddParity e.1 mask = val then some (e.1, N.scale e.2 c) else none)) := by
  apply h.filterKey
  intro e e' he
  split at he
  · cases he; rfl
  · cases he

theorem collapse_seen {ids : List ℕ} {s s' : GSim F} (h : Seen ids s s') (locs : List ℕ) (val : Bool) (c : F) :
    Seen ids s (jointCollapse N locs val c s') :=
  ⟨⟨core_collapse h.inv.core _ _ _, h.inv.ops, h.inv.bound, h.inv.h, h.inv.rx, h.inv.ry⟩, h.idMap, h.ops, h.quiet⟩

theorem collapse_bits {s : GSim F} {locs : List ℕ} {val : Bool} {c : F} {e : ℕ × Cx F}
    (h : e ∈ (jointCollapse N locs val c s).state) : oddParity e.1 (locMask locs) = val := by
  obtain ⟨e', _, he⟩ := List.mem_filterMap.1 h
  split at he
  · rename_i hp; cases he; exact hp
  · cases he

theorem jointProbability_goes {s : GSim F} (h : Inv s) {ids : List ℕ} (hn : ids.Nodup) (ha : Alloc s.idMap ids) :
    ∃ p s', jointProbability N ids s = .ok (p, s') ∧ Seen ids s s' ∧ s'.rng = s.rng := by
  obtain ⟨s1, h1, hd, hq⟩ := maybeFlush_goes (N := N) ids h
  obtain ⟨locs, hl⟩ := resolveIds_ok ha
  obtain ⟨p, st, h2, hc⟩ := check_goes (N := N) hd.inv locs
  refine ⟨p, _, ?_, Seen.mk' hd hq hc s1.rng, hd.rng⟩
  simp only [jointProbability, h1, ok_bind, checkForDuplicates, if_pos hn, hd.idMap, hl, h2]

theorem qubitIsZero_goes {s : GSim F} (h : Inv s) {id : ℕ} (ha : (s.idMap.get id).isSome) :
    ∃ b s', qubitIsZero N id s = .ok (b, s') ∧ Seen [id] s s' ∧ s'.rng = s.rng := by
  obtain ⟨p, s1, h1, hs⟩ := jointProbability_goes (N := N) h (ids := [id]) (by simp) (by
    intro i hi; simp only [List.mem_singleton] at hi; subst hi; exact ha)
  exact ⟨_, s1, by simp only [qubitIsZero, h1, ok_bind]; rfl, hs⟩

/-- The outcome is the comparison of the next sample with the weight; only entries with that parity stay. -/
theorem jointMeasure_goes {s : GSim F} (h : Inv s) {ids : List ℕ} (hn : ids.Nodup) (ha : Alloc s.idMap ids) :
    ∃ p s' locs, jointMeasure N ids s = .ok (N.lt (s.rng 0) p, s') ∧ Seen ids s s' ∧
      s'.rng = (fun n => s.rng (n + 1)) ∧ resolveIds s.idMap ids = .ok locs ∧
      ∀ e ∈ s'.state, oddParity e.1 (locMask locs) = N.lt (s.rng 0) p := by
  obtain ⟨s1, h1, hd, hq⟩ := maybeFlush_goes (N := N) ids h
  obtain ⟨locs, hl⟩ := resolveIds_ok ha
  obtain ⟨p, st, h2, hc⟩ := check_goes (N := N) (hd.inv.reseed fun n => s1.rng (n + 1)) locs
  have hs := Seen.mk' (ids := ids) hd hq hc (fun n => s1.rng (n + 1))
  refine ⟨p, _, locs, ?_, collapse_seen (N := N) hs locs (N.lt (s.rng 0) p) p, ?_, hl, fun e he => collapse_bits he⟩
  · have hl1 : resolveIds s1.idMap ids = .ok locs := by rw [hd.idMap]; exact hl
    have hr0 : s1.rng 0 = s.rng 0 := by rw [hd.rng]
    simp only [jointMeasure, h1, ok_bind, checkForDuplicates, if_pos hn, hl1, nextSample, h2, hr0, pure_ok]
  · show (fun n => s1.rng (n + 1)) = _
    rw [hd.rng]

theorem measure_goes {s : GSim F} (h : Inv s) {id loc : ℕ} (hloc : s.idMap.get id = some loc) :
    ∃ p s', measure N id s = .ok (N.lt (s.rng 0) p, s') ∧ Seen [id] s s' ∧
      s'.rng = (fun n => s.rng (n + 1)) ∧ ∀ e ∈ s'.state, e.1.testBit loc = N.lt (s.rng 0) p := by
  obtain ⟨s1, h1, hd, hq⟩ := maybeFlush_goes (N := N) [id] h
  obtain ⟨p, st, h2, hc⟩ := check_goes (N := N) (hd.inv.reseed fun n => s1.rng (n + 1)) [loc]
  have hs := Seen.mk' (ids := [id]) hd hq hc (fun n => s1.rng (n + 1))
  refine ⟨p, _, ?_, collapse_seen (N := N) hs [loc] (N.lt (s.rng 0) p) p, ?_, ?_⟩
  · have hl1 : s1.idMap.get id = some loc := by rw [hd.idMap]; exact hloc
    have hr0 : s1.rng 0 = s.rng 0 := by rw [hd.rng]
    simp only [measure, h1, ok_bind, resolveId, hl1, nextSample, h2, hr0, pure_ok]
  · show (fun n => s1.rng (n + 1)) = _
    rw [hd.rng]
  · intro e he
    have h3 := collapse_bits he
    rw [oddParity_eq h.core.inj (ids := [id]) (.cons hloc .nil) (by simp), parity_singleton, idBits_of hloc] at h3
    exact h3

theorem forceCollapse_goes {s : GSim F} (h : Inv s) {id : ℕ} (v : Bool) (ha : (s.idMap.get id).isSome) :
    ∃ p s', forceCollapse N v id s = .ok (p, s') ∧ Seen [id] s s' ∧ s'.rng = s.rng := by
  obtain ⟨loc, hloc⟩ := Option.isSome_iff_exists.1 ha
  obtain ⟨s1, h1, hd, hq⟩ := maybeFlush_goes (N := N) [id] h
  obtain ⟨p, st, h2, hc⟩ := check_goes (N := N) hd.inv [loc]
  have hs := Seen.mk' (ids := [id]) hd hq hc s1.rng
  have hl1 : s1.idMap.get id = some loc := by rw [hd.idMap]; exact hloc
  refine ⟨_, _, by simp only [forceCollapse, h1, ok_bind, resolveId, hl1, h2, pure_ok]; rfl, ?_, ?_⟩
  · split
    · exact collapse_seen hs _ _ _
    · exact hs
  · split
    · exact hd.rng
    · exact hd.rng

/-! ### Release -/

theorem release_many_goes {s : GSim F} (h : Inv s) {id : ℕ} (ha : (s.idMap.get id).isSome)
    (hlen : s.idMap.iter.length ≠ 1) :
    ∃ s', release N id s = .ok s' ∧ Inv s' ∧ s'.idMap = s.idMap.remove id ∧ s'.rng = fun n => s.rng (n + 1) := by
  obtain ⟨loc, hloc⟩ := Option.isSome_iff_exists.1 ha
  obtain ⟨p, s1, h1, hm, hrng, hbit⟩ := measure_goes (N := N) h hloc
  generalize N.lt (s.rng 0) p = res at h1 hbit
  have hloc1 : s1.idMap.get id = some loc := by rw [hm.idMap]; exact hloc
  obtain ⟨st, hst, hcore, hz⟩ : ∃ st, releaseState N id s = .ok { s1 with state := st } ∧
      GCore s1.idMap st ∧ ∀ e ∈ st, e.1.testBit loc = false := by
    unfold releaseState
    rw [if_neg hlen]
    simp only [h1, ok_bind, indexId, hloc1]
    cases res
    · exact ⟨s1.state, by simp, hm.inv.core, hbit⟩
    · refine ⟨_, rfl, ?_, ?_⟩
      · refine ⟨hm.inv.core.inj, ?_, ?_⟩
        · rw [List.map_map]
          apply List.Nodup.map_on
          · intro a ha b hb hab
            have h1 := hbit a ha
            have h2 := hbit b hb
            simp only [comp_apply, h1, h2, if_true] at hab
            have hkey : a.1 = b.1 := by
              apply Nat.eq_of_testBit_eq
              intro l
              by_cases hl : l = loc
              · subst hl; rw [h1, h2]
              · have := congrArg (fun n => n.testBit l) hab
                simp only [testBit_setBit, if_neg hl] at this
                exact this
            exact List.inj_on_of_nodup_map hm.inv.core.nodup ha hb hkey
          · exact hm.inv.core.nodup.of_map
        · intro e hee
          obtain ⟨e', he', rfl⟩ := List.mem_map.1 hee
          simp only [hbit e' he', if_true]
          intro l hl
          rw [testBit_setBit] at hl
          split at hl
          · cases hl
          · exact hm.inv.core.bits e' he' l hl
      · intro e hee
        obtain ⟨e', he', rfl⟩ := List.mem_map.1 hee
        simp only [hbit e' he', if_true]
        rw [testBit_setBit, if_pos rfl]
  have hq := hm.quiet id (by simp)
  rw [hasQueued_eq] at hq
  simp only [Bool.or_eq_false_iff] at hq
  have hkeep : ∀ q, (s1.idMap.get q).isSome = true → q ≠ id → ((s1.idMap.remove id).get q).isSome = true := by
    intro q h1 h2
    rw [IMap.get_remove, if_neg h2]; exact h1
  refine ⟨{ s1 with state := st, idMap := s1.idMap.remove id }, ?_, ⟨⟨?_, hcore.nodup, ?_⟩, ?_, ?_, ?_, ?_, ?_⟩,
    by rw [← hm.idMap], hrng⟩
  · unfold release
    simp only [hst, ok_bind]
    rfl
  · intro i j l hi hj
    simp only [IMap.get_remove] at hi hj
    split at hi
    · cases hi
    · split at hj
      · cases hj
      · exact hcore.inj i j l hi hj
  · intro e hee l hl
    obtain ⟨i, hi⟩ := hcore.bits e hee l hl
    refine ⟨i, ?_⟩
    simp only [IMap.get_remove]
    rw [if_neg]
    · exact hi
    · rintro rfl
      rw [hloc1] at hi
      cases hi
      rw [hz e hee] at hl
      cases hl
  · intro op hop
    have : op ∈ s1.opQ := hop
    rw [hm.ops] at this; simp at this
  · exact hm.inv.bound
  · intro q hqq
    exact hkeep q (hm.inv.h q hqq) (by rintro rfl; rw [show s1.hFlag.testBit q = true from hqq] at hq; cases hq.1.1)
  · intro q hqq
    exact hkeep q (hm.inv.rx q hqq) (by
      rintro rfl; rw [show (s1.rxQ.get q).isSome = true from hqq] at hq; cases hq.1.2)
  · intro q hqq
    exact hkeep q (hm.inv.ry q hqq) (by
      rintro rfl; rw [show (s1.ryQ.get q).isSome = true from hqq] at hq; cases hq.2)

/-- Nothing queued, one entry with amplitude one. -/
structure Fresh (N : Num F) (s : GSim F) : Prop where
  state : s.state = [(0, N.oneC)]
  ops : s.opQ = []
  h : s.hFlag = 0
  rx : s.rxQ = IMap.empty
  ry : s.ryQ = IMap.empty

theorem Fresh.inv {s : GSim F} (h : Fresh N s) (hi : Inj s.idMap) : Inv s := by
  refine ⟨⟨hi, ?_, ?_⟩, ?_, ?_, ?_, ?_, ?_⟩
  · rw [h.state]; simp
  · intro e he l hl
    rw [h.state, List.mem_singleton] at he
    subst he; simp at hl
  · rw [h.ops]; simp
  · rw [h.ops]; simp
  · intro q hq; rw [h.h] at hq; simp at hq
  · intro q hq; rw [h.rx, IMap.get_empty] at hq; cases hq
  · intro q hq; rw [h.ry, IMap.get_empty] at hq; cases hq

theorem release_last_goes {s : GSim F} (hi : Inv s) {id : ℕ} (hlen : s.idMap.iter.length = 1) :
    ∃ s', release N id s = .ok s' ∧ Inv s' ∧ s'.idMap = s.idMap.remove id ∧ s'.rng = s.rng ∧ Fresh N s' := by
  have hf : Fresh N { s with
      opQ := [], hFlag := 0, rxQ := IMap.empty, ryQ := IMap.empty, state := [(0, N.oneC)],
      idMap := s.idMap.remove id } := ⟨rfl, rfl, rfl, rfl, rfl⟩
  refine ⟨_, ?_, hf.inv ?_, rfl, rfl, hf⟩
  · unfold release releaseState
    rw [if_pos hlen]
    rfl
  · intro i j l h1 h2
    simp only [IMap.get_remove] at h1 h2
    split at h1
    · cases h1
    · split at h2
      · cases h2
      · exact hi.core.inj i j l h1 h2

/-! ### Allocation and exchange of identifiers -/

theorem allocate_inv {s : GSim F} (hi : Inv s) : Inv (allocate s).2 ∧
    s.idMap.get (allocate s).1 = none ∧ (∀ j < (allocate s).1, (s.idMap.get j).isSome = true) ∧
    (∀ j, ((allocate s).2.idMap.get j).isSome = true ↔ j = (allocate s).1 ∨ (s.idMap.get j).isSome = true) ∧
    (allocate s).2.rng = s.rng ∧ (allocate s).2.state = s.state := by
  obtain ⟨hk, hk'⟩ := newKey_spec s.idMap
  have hmono : ∀ j, (s.idMap.get j).isSome = true → ((allocate s).2.idMap.get j).isSome = true := by
    intro j hj
    simp only [allocate, IMap.get_insert]
    split
    · rfl
    · exact hj
  refine ⟨⟨⟨?_, hi.core.nodup, ?_⟩, ?_, hi.bound, ?_, ?_, ?_⟩, hk, hk', ?_, rfl, rfl⟩
  · intro i j l h1 h2
    simp only [allocate, IMap.get_insert] at h1 h2
    split at h1 <;> split at h2
    · rename_i a b; rw [a, b]
    · cases h1; exact absurd h2 (newVal_fresh hi.core.inj j)
    · cases h2; exact absurd h1 (newVal_fresh hi.core.inj i)
    · exact hi.core.inj i j l h1 h2
  · intro e he l hl
    obtain ⟨i, hil⟩ := hi.core.bits e he l hl
    refine ⟨i, ?_⟩
    simp only [allocate, IMap.get_insert]
    rw [if_neg]
    · exact hil
    · rintro rfl; rw [hk] at hil; cases hil
  · intro op hop
    exact opndsOk_mono (hi.ops op hop) hmono
  · intro q hq; exact hmono q (hi.h q hq)
  · intro q hq; exact hmono q (hi.rx q hq)
  · intro q hq; exact hmono q (hi.ry q hq)
  · intro j
    simp only [allocate, IMap.get_insert]
    split
    · rename_i hj; simp [hj]
    · rename_i hj; simp [hj]

theorem get_swapEntries (q : IMap F) (a b r : ℕ) : (swapEntries q a b).get r = q.get (Equiv.swap a b r) := by
  unfold swapEntries
  by_cases hra : r = a
  · subst hra
    rw [Equiv.swap_apply_left]
    cases h2 : q.get b <;> simp [IMap.get_insert, IMap.get_remove]
  · by_cases hrb : r = b
    · subst hrb
      rw [Equiv.swap_apply_right]
      cases h1 : q.get a <;> cases h2 : q.get r <;>
        simp [IMap.get_insert, IMap.get_remove, hra]
    · rw [Equiv.swap_apply_of_ne_of_ne hra hrb]
      cases h1 : q.get a <;> cases h2 : q.get b <;>
        simp [IMap.get_insert, IMap.get_remove, hra, hrb]

theorem swapQubitIds_goes {s : GSim F} (hi : Inv s) {a b : ℕ} (ha : (s.idMap.get a).isSome)
    (hb : (s.idMap.get b).isSome) : Goes (Stays s) (swapQubitIds N a b s) := by
  obtain ⟨s1, h1, hd, ho⟩ := flushOps_goes (N := N) hi
  obtain ⟨la, hla⟩ := Option.isSome_iff_exists.1 ha
  obtain ⟨lb, hlb⟩ := Option.isSome_iff_exists.1 hb
  rw [← hd.idMap] at hla hlb
  have hget : ∀ r, ((s1.idMap.modify a (fun _ => lb)).modify b (fun _ => la)).get r =
      s1.idMap.get (Equiv.swap a b r) := by
    intro r
    by_cases hrb : r = b
    · subst hrb
      rw [IMap.get_modify_same, IMap.get_modify, Equiv.swap_apply_right]
      by_cases hra : r = a
      · subst hra; simp [hla]
      · rw [if_neg hra, hlb, hla]; rfl
    · rw [IMap.get_modify, if_neg hrb, IMap.get_modify]
      by_cases hra : r = a
      · subst hra; rw [if_pos rfl, Equiv.swap_apply_left, hla, hlb]; rfl
      · rw [if_neg hra, Equiv.swap_apply_of_ne_of_ne hra hrb]
  have hsome : ∀ r, (s1.idMap.get (Equiv.swap a b r)).isSome = (s1.idMap.get r).isSome := by
    intro r
    by_cases hra : r = a
    · subst hra; rw [Equiv.swap_apply_left, hla, hlb]; rfl
    · by_cases hrb : r = b
      · subst hrb; rw [Equiv.swap_apply_right, hla, hlb]; rfl
      · rw [Equiv.swap_apply_of_ne_of_ne hra hrb]
  refine ⟨{ s1 with
    hFlag := setBit (setBit s1.hFlag a (s1.hFlag.testBit b)) b (s1.hFlag.testBit a)
    rxQ := swapEntries s1.rxQ a b
    ryQ := swapEntries s1.ryQ a b
    idMap := (s1.idMap.modify a (fun _ => lb)).modify b (fun _ => la) }, ?_,
    ⟨⟨⟨?_, hd.inv.core.nodup, ?_⟩, ?_, hd.inv.bound, ?_, ?_, ?_⟩, ?_, hd.rng⟩⟩
  · unfold swapQubitIds
    simp only [h1, ok_bind, resolveId, hla, hlb]
    rfl
  · intro i j l h1 h2
    simp only [hget] at h1 h2
    exact (Equiv.swap a b).injective (hd.inv.core.inj _ _ l h1 h2)
  · intro e he l hl
    obtain ⟨i, hi⟩ := hd.inv.core.bits e he l hl
    refine ⟨Equiv.swap a b i, ?_⟩
    simp only [hget]
    simpa using hi
  · intro op hop
    have : op ∈ s1.opQ := hop
    rw [ho] at this; simp at this
  · intro q hq
    simp only [testBit_swapFlag] at hq
    simp only [hget]
    exact hd.inv.h _ hq
  · intro q hq
    simp only [get_swapEntries] at hq
    simp only [hget]
    exact hd.inv.rx _ hq
  · intro q hq
    simp only [get_swapEntries] at hq
    simp only [hget]
    exact hd.inv.ry _ hq
  · intro i
    simp only [hget, hsome]
    rw [hd.idMap]

/-! ### Dumps -/

/-- Nothing is queued at all. -/
structure GQuiet (s : GSim F) : Prop where
  ops : s.opQ = []
  none : ∀ q, hasQueued s q = false

theorem GQuiet.flushLoop {s : GSim F} (h : GQuiet s) (level : FlushLevel) (ids : List ℕ) :
    flushLoop N level ids s = .ok s := by
  induction ids with
  | nil => rfl
  | cons q ids ih =>
    have hq := h.none q
    rw [hasQueued_eq] at hq
    simp only [Bool.or_eq_false_iff, Option.isSome_eq_false_iff, Option.isNone_iff_eq_none] at hq
    have h1 : flushOne N level q s = .ok s := by
      unfold flushOne flushH
      simp only [hq.1.1, Bool.false_eq_true, if_false, ok_bind]
      cases level
      · rfl
      · simp [flushRx, hq.1.2]
      · simp [flushRx, flushRy, hq.1.2, hq.2]
    simp only [Gen.flushLoop, h1, ok_bind, ih]

theorem GQuiet.flushQueue {s : GSim F} (h : GQuiet s) (level : FlushLevel) (ids : List ℕ) :
    flushQueue N ids level s = .ok s := by
  unfold Gen.flushQueue
  rw [h.flushLoop, ok_bind]
  unfold flushOps
  rw [h.ops]; rfl

theorem testBit_swapKey {a b : ℕ} (hab : a ≠ b) (e : ℕ × Cx F) (l : ℕ) :
    (swapKey a b e).1.testBit l = e.1.testBit (Equiv.swap a b l) := by
  have h := Qir.testBit_swapKey hab (e.1, (0 : ℂ)) l
  rw [← h]
  unfold swapKey Sim.swapKey
  split <;> simp_all

/-- Exchanging two locations, in the state and in the identifier map. -/
theorem relabel_core {m m' : IMap ℕ} {st : List (ℕ × Cx F)} (h : GCore m st) {a b : ℕ} (hab : a ≠ b)
    (hm : ∀ i, m'.get i = (m.get i).map (Equiv.swap a b)) : GCore m' (st.map (swapKey a b)) := by
  refine ⟨?_, ?_, ?_⟩
  · intro i j l hi hj
    rw [hm, Option.map_eq_some_iff] at hi hj
    obtain ⟨l1, h1, h2⟩ := hi
    obtain ⟨l2, h3, h4⟩ := hj
    have : l1 = l2 := (Equiv.swap a b).injective (h2.trans h4.symm)
    subst this
    exact h.inj i j l1 h1 h3
  · rw [List.map_map]
    apply List.Nodup.map_on _ h.nodup.of_map
    intro e he e' he' hee
    apply List.inj_on_of_nodup_map h.nodup he he'
    apply Nat.eq_of_testBit_eq
    intro l
    have := congrArg (fun n => n.testBit (Equiv.swap a b l)) hee
    simp only [comp_apply, testBit_swapKey hab, Equiv.swap_apply_self] at this
    exact this
  · intro e he l hl
    obtain ⟨e', he', rfl⟩ := List.mem_map.1 he
    rw [testBit_swapKey hab] at hl
    obtain ⟨i, hi⟩ := h.bits e' he' _ hl
    exact ⟨i, by rw [hm, hi]; simp⟩

/-- What the relocation loop keeps. -/
structure GReloc (s s' : GSim F) : Prop where
  core : GCore s'.idMap s'.state
  quiet : GQuiet s'
  rng : s'.rng = s.rng
  some : ∀ i, (s'.idMap.get i).isSome = (s.idMap.get i).isSome

theorem relocateOne_goes {s : GSim F} (hc : GCore s.idMap s.state) (hq : GQuiet s)
    {index key loc : ℕ} (hk : s.idMap.get key = some loc) :
    ∃ s', relocateOne N index key s = .ok s' ∧ GReloc s s' ∧
      ∀ i, s'.idMap.get i = (s.idMap.get i).map (Equiv.swap loc index) := by
  unfold relocateOne indexId
  simp only [hk, ok_bind]
  by_cases hne : index = loc
  · subst hne
    rw [if_neg (by simp)]
    refine ⟨s, rfl, ⟨hc, hq, rfl, fun _ => rfl⟩, ?_⟩
    intro i; simp
  · rw [if_pos hne]
    have hsw : swapQubitState N loc index s = .ok { s with state := s.state.map (swapKey loc index) } := by
      unfold swapQubitState
      rw [if_neg (fun h => hne h.symm), hq.flushQueue, ok_bind]
      rfl
    simp only [hsw, ok_bind]
    have hne' : loc ≠ index := fun h => hne h.symm
    obtain ⟨m1, hm1, hget⟩ : ∃ m1, ((findByLoc s.idMap index = Option.none ∧ m1 = s.idMap) ∨
          ∃ sk, findByLoc s.idMap index = Option.some sk ∧ m1 = s.idMap.modify sk (fun _ => loc)) ∧
        ∀ i, (m1.modify key (fun _ => index)).get i = (s.idMap.get i).map (Equiv.swap loc index) := by
      cases hf : findByLoc s.idMap index with
      | none =>
        refine ⟨s.idMap, .inl ⟨rfl, rfl⟩, ?_⟩
        intro i
        rw [IMap.get_modify]
        by_cases hi : i = key
        · subst hi; rw [if_pos rfl, hk]; simp
        · rw [if_neg hi]
          cases hg : s.idMap.get i with
          | none => rfl
          | some l =>
            have h1 : l ≠ loc := by rintro rfl; exact hi (hc.inj _ _ _ hg hk)
            have h2 : l ≠ index := by rintro rfl; exact findByLoc_none hf i hg
            rw [Option.map_some, Equiv.swap_apply_of_ne_of_ne h1 h2]
      | some sk =>
        have hsk := findByLoc_some hf
        refine ⟨s.idMap.modify sk (fun _ => loc), .inr ⟨sk, rfl, rfl⟩, ?_⟩
        intro i
        have hskk : sk ≠ key := by
          rintro rfl; rw [hsk] at hk; cases hk; exact hne rfl
        rw [IMap.get_modify]
        by_cases hi : i = key
        · subst hi
          rw [if_pos rfl, IMap.get_modify, if_neg (Ne.symm hskk), hk]; simp
        · rw [if_neg hi, IMap.get_modify]
          by_cases his : i = sk
          · subst his; rw [if_pos rfl, hsk]; simp
          · rw [if_neg his]
            cases hg : s.idMap.get i with
            | none => rfl
            | some l =>
              have h1 : l ≠ loc := by rintro rfl; exact hi (hc.inj _ _ _ hg hk)
              have h2 : l ≠ index := by rintro rfl; exact his (hc.inj _ _ _ hg hsk)
              rw [Option.map_some, Equiv.swap_apply_of_ne_of_ne h1 h2]
    refine ⟨{ s with state := s.state.map (swapKey loc index), idMap := m1.modify key (fun _ => index) },
      ?_, ⟨relabel_core hc hne' hget, ⟨hq.ops, hq.none⟩, rfl, ?_⟩, hget⟩
    · rcases hm1 with ⟨hf, rfl⟩ | ⟨sk, hf, rfl⟩ <;> simp only [hf, pure_ok]
    · intro i
      simp only [hget]
      cases s.idMap.get i <;> rfl

theorem GReloc.trans {s s1 s2 : GSim F} (h : GReloc s s1) (h' : GReloc s1 s2) : GReloc s s2 :=
  ⟨h'.core, h'.quiet, h'.rng.trans h.rng, fun i => (h'.some i).trans (h.some i)⟩

theorem relocate_goes (rest : List ℕ) :
    ∀ (done : List ℕ) (s : GSim F), GCore s.idMap s.state → GQuiet s →
      (done ++ rest).Nodup → Alloc s.idMap (done ++ rest) →
      (∀ j (hj : j < done.length), s.idMap.get done[j] = some j) →
      ∃ s', relocate N done.length rest s = .ok s' ∧ GReloc s s' ∧
        ∀ j (hj : j < (done ++ rest).length), s'.idMap.get (done ++ rest)[j] = some j := by
  induction rest with
  | nil =>
    intro done s hc hq _ _ hd
    refine ⟨s, rfl, ⟨hc, hq, rfl, fun _ => rfl⟩, ?_⟩
    intro j hj
    simp only [List.append_nil] at hj ⊢
    exact hd j hj
  | cons key rest ih =>
    intro done s hc hq hn ha hd
    obtain ⟨loc, hloc⟩ := Option.isSome_iff_exists.1 (ha key (by simp))
    obtain ⟨s1, h1, hr1, hg1⟩ := relocateOne_goes (N := N) hc hq (index := done.length) hloc
    have hlist : done ++ key :: rest = (done ++ [key]) ++ rest := by simp
    have hlt : ∀ j (hj : j < done.length), loc ≠ j := by
      rintro j hj rfl
      have := hc.inj _ _ _ hloc (hd loc hj)
      rw [List.nodup_append] at hn
      exact hn.2.2 _ (List.getElem_mem hj) key (by simp) this.symm
    obtain ⟨s2, h2, hr2, hg2⟩ := ih (done ++ [key]) s1 hr1.core hr1.quiet (by rw [← hlist]; exact hn)
      (by
        rw [← hlist]
        intro i hi; rw [hr1.some]; exact ha i hi)
      (by
        intro j hj
        rw [hg1]
        simp only [List.length_append, List.length_singleton] at hj
        by_cases hjd : j < done.length
        · rw [List.getElem_append_left hjd, hd j hjd, Option.map_some,
            Equiv.swap_apply_of_ne_of_ne (Ne.symm (hlt j hjd)) (by omega)]
        · have : j = done.length := by omega
          subst this
          simp [hloc])
    refine ⟨s2, ?_, hr1.trans hr2, ?_⟩
    · simp only [relocate, h1, ok_bind]
      simpa using h2
    · intro j hj
      have := hg2 j (by rw [← hlist]; exact hj)
      simpa only [hlist] using this

theorem sortState_perm (l : List (ℕ × Cx F)) : (sortState l).Perm l := List.mergeSort_perm _ _

theorem sortState_sorted {l : List (ℕ × Cx F)} (h : (l.map Prod.fst).Nodup) :
    (sortState l).Pairwise (fun a b => a.1 < b.1) := by
  have h1 : (sortState l).Pairwise (fun a b => decide (a.1 ≤ b.1) = true) :=
    List.pairwise_mergeSort (by intro a b c; simp only [decide_eq_true_eq]; omega)
      (by intro a b; simp only [Bool.or_eq_true, decide_eq_true_eq]; omega) _
  have h2 : ((sortState l).map Prod.fst).Nodup := (sortState_perm l).map _ |>.nodup_iff.2 h
  rw [List.nodup_iff_pairwise_ne, List.pairwise_map] at h2
  exact (h1.and h2).imp (by
    rintro a b ⟨h3, h4⟩
    simp only [decide_eq_true_eq] at h3
    omega)

theorem GQuiet.inv {s : GSim F} (h : GQuiet s) (hc : GCore s.idMap s.state) : Inv s := by
  have hn := h.none
  simp only [hasQueued_eq, Bool.or_eq_false_iff] at hn
  refine ⟨hc, by rw [h.ops]; simp, by rw [h.ops]; simp, ?_, ?_, ?_⟩
  · intro q hq; rw [(hn q).1.1] at hq; cases hq
  · intro q hq; rw [(hn q).1.2] at hq; cases hq
  · intro q hq; rw [(hn q).2] at hq; cases hq

/-- The common part of `get_state` and `dump`. -/
theorem arrange_goes {s : GSim F} (hi : Inv s) : ∃ s1 s2,
    flushQueue N (s.idMap.iter.map Prod.fst) .HRxRy s = .ok s1 ∧
      relocate N 0 (s.idMap.iter.map Prod.fst) s1 = .ok s2 ∧ GReloc s s2 ∧
      ∀ k, BitsIn s2.idMap k ↔ k < 2 ^ s.idMap.keys.length := by
  obtain ⟨s1, h1, hd, ho, hq⟩ := flushQueue_goes (N := N) .HRxRy (s.idMap.iter.map Prod.fst) hi
  have hquiet : GQuiet s1 := by
    refine ⟨ho, fun q => ?_⟩
    by_cases hm : q ∈ s.idMap.keys
    · exact hq rfl q hm
    · by_contra hc
      rw [Bool.not_eq_false, hasQueued_eq] at hc
      simp only [Bool.or_eq_true] at hc
      apply hm
      rw [IMap.mem_keys, ← hd.idMap]
      rcases hc with (hc | hc) | hc
      · exact hd.inv.h q hc
      · exact hd.inv.rx q hc
      · exact hd.inv.ry q hc
  have hal : Alloc s1.idMap ([] ++ s.idMap.keys) := by
    intro i hm
    rw [hd.idMap, ← IMap.mem_keys]; simpa using hm
  obtain ⟨s2, h2, hr, hg⟩ := relocate_goes (N := N) s.idMap.keys [] s1 hd.inv.core hquiet
    (by simpa using IMap.keys_nodup s.idMap) hal (by simp)
  refine ⟨s1, s2, h1, h2, ⟨hr.core, hr.quiet, hr.rng.trans hd.rng, fun i => by rw [hr.some, hd.idMap]⟩, fun k => ?_⟩
  refine bitsIn_iff (IMap.keys_nodup s.idMap) (fun q => ?_) (fun j hj => ?_) k
  · rw [hr.some, hd.idMap, IMap.mem_keys]
  · exact hg j hj

/-- A list of indices in strictly increasing order, all below `2 ^ n`. -/
def Listed (n : ℕ) (l : List (ℕ × Cx F)) : Prop := l.Pairwise (fun a b => a.1 < b.1) ∧ ∀ e ∈ l, e.1 < 2 ^ n

theorem getState_goes {s : GSim F} (hi : Inv s) : ∃ l s', getState N s = .ok ((l, s.idMap.keys.length), s') ∧
    Stays s s' ∧ Listed s.idMap.keys.length l := by
  obtain ⟨s1, s2, h1, h2, hr, hb⟩ := arrange_goes (N := N) hi
  refine ⟨_, s2, by simp only [getState, h1, ok_bind, h2]; rfl, ⟨hr.quiet.inv hr.core, hr.some, hr.rng⟩,
    sortState_sorted hr.core.nodup, ?_⟩
  intro e he
  exact (hb e.1).1 (hr.core.bits e ((sortState_perm _).mem_iff.1 he))

theorem dump_goes (fmt : Cx F → String) {s : GSim F} (hi : Inv s) : ∃ l s',
    dump N fmt s = .ok (dumpText fmt l, s') ∧ Stays s s' ∧ Listed s.idMap.keys.length l := by
  obtain ⟨s1, s2, h1, h2, hr, hb⟩ := arrange_goes (N := N) hi
  refine ⟨sortState s2.state, { s2 with state := sortState s2.state }, by simp only [dump, h1, ok_bind, h2]; rfl,
    ⟨GQuiet.inv ⟨hr.quiet.ops, hr.quiet.none⟩ (hr.core.perm (sortState_perm _)), hr.some, hr.rng⟩,
    sortState_sorted hr.core.nodup, ?_⟩
  intro e he
  exact (hb e.1).1 (hr.core.bits e ((sortState_perm _).mem_iff.1 he))

end Gen
end Qir
