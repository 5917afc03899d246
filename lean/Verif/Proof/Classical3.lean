import Verif.Proof.Classical2

/-! # Histories and the basis states they can bring about, under an arbitrary arithmetic -/

namespace Qir
namespace Gen
open Function
open Qir.Sim (resolveId resolveIds indexId resolveAndCheck checkForDuplicates firstFree locMask oddParity findByLoc
  ExpMasks expMasks expCheckDup)

variable {F : Type} {N : Num F}

/-! ### Measurements -/

theorem parity_odd (qs : List ℕ) (b : ℕ → Bool) : Spec.parity qs b = odd qs b := by
  unfold odd
  induction qs with
  | nil => rfl
  | cons q qs ih =>
    have : Spec.parity (q :: qs) b = xor (b q) (Spec.parity qs b) := rfl
    rw [this, ih, List.countP_cons]
    cases b q
    · simp
    · simp only [Bool.true_bne, if_true]
      by_cases h : (List.countP (fun q => b q) qs) % 2 = 1
      · simp [h]; omega
      · simp [h]; omega

theorem odd_congr {qs : List ℕ} {f g : ℕ → Bool} (h : ∀ q ∈ qs, f q = g q) : odd qs f = odd qs g := by
  unfold odd
  rw [List.countP_congr (fun q hq => by rw [h q hq])]

theorem check_eff {s s' : GSim F} (hi : Inv s) {locs : List ℕ} {p : F}
    (h : checkJointProbability N locs s = .ok (p, s')) :
    s'.idMap = s.idMap ∧ s'.opQ = [] ∧ (∀ q, hasQueued s' q = hasQueued s q) ∧ ∀ b, Eff s' b → Eff s b := by
  unfold checkJointProbability at h
  simp only at h
  obtain ⟨⟨rops, s0⟩, h1, h2⟩ := bind_ok h
  obtain ⟨hr, hs⟩ := takeOps_inv h1
  simp only at hr hs
  subst hs
  cases h2
  refine ⟨rfl, rfl, fun _ => rfl, fun b hb => ?_⟩
  obtain ⟨e, he, rfl⟩ := (eff_empty rfl).1 hb
  exact eff_taken hi hr he

theorem collapse_eff {s : GSim F} (ho : s.opQ = []) {locs : List ℕ} {val : Bool} {c : F} {b : ℕ → Bool}
    (hb : Eff (jointCollapse N locs val c s) b) :
    Eff s b ∧ ∃ k, b = idBits s.idMap k ∧ oddParity k (locMask locs) = val := by
  obtain ⟨e, he, rfl⟩ := (eff_empty (s := jointCollapse N locs val c s) ho).1 hb
  obtain ⟨e0, he0, h⟩ := List.mem_filterMap.1 he
  split at h
  · rename_i hp
    cases h
    exact ⟨(eff_empty ho).2 ⟨e0, he0, rfl⟩, e0.1, rfl, hp⟩
  · cases h

/-- What a look at the parity of some qubits leaves: no new basis states, and only those with the parity. -/
theorem collapse_poss {s1 s2 : GSim F} (hi : Inv s1) {ids locs : List ℕ}
    (hl : List.Forall₂ (fun i l => s1.idMap.get i = some l) ids locs) (hn : ids.Nodup)
    (hq : ∀ q ∈ ids, hasQueued s1 q = false) {p : F} (h : checkJointProbability N locs s1 = .ok (p, s2)) (val : Bool)
    (c : F) {f : ℕ → Bool} (hf : Poss (jointCollapse N locs val c s2) f) : Poss s1 f ∧ odd ids f = val := by
  obtain ⟨hid, ho, hqq, he⟩ := check_eff hi h
  obtain ⟨b, hb, hfb⟩ := hf
  have hfb' : ∀ q, hasQueued s1 q = false → f q = b q := fun q h => hfb q (by
    show hasQueued s2 q = false
    rw [hqq]; exact h)
  obtain ⟨hb1, k, rfl, hp⟩ := collapse_eff ho hb
  refine ⟨⟨_, he _ hb1, hfb'⟩, ?_⟩
  rw [odd_congr (fun q hm => hfb' q (hq q hm)), ← parity_odd, hid, ← oddParity_eq hi.core.inj hl hn]
  exact hp

theorem Inv.of_rng {s : GSim F} (h : Inv s) (r : ℕ → F) : Inv { s with rng := r } := h.reseed r

theorem measure_poss {s s' : GSim F} (hi : Inv s) {id : ℕ} {res : Bool} (h : measure N id s = .ok (res, s'))
    {f : ℕ → Bool} (hf : Poss s' f) : Poss s f ∧ f id = res := by
  unfold measure at h
  obtain ⟨s1, h1, h⟩ := bind_ok h
  obtain ⟨loc, h2, h⟩ := bind_ok h
  dsimp only [nextSample] at h
  obtain ⟨⟨p, s2⟩, h3, h⟩ := bind_ok h
  cases h
  obtain ⟨hd, hq⟩ := (maybeFlush_goes _ hi).get h1
  have hloc : s1.idMap.get id = some loc := by
    unfold resolveId at h2
    cases hg : s1.idMap.get id with
    | none => rw [hg] at h2; cases h2
    | some l => rw [hg] at h2; cases h2; rfl
  have := collapse_poss (s1 := { s1 with rng := fun n => s1.rng (n + 1) }) (hd.inv.reseed _) (ids := [id])
    (.cons hloc .nil) (by simp) hq h3 _ _ hf
  refine ⟨maybeFlush_shr hi h1 f this.1, ?_⟩
  have h2 := this.2
  rw [← parity_odd, parity_singleton] at h2
  exact h2

theorem jointMeasure_poss {s s' : GSim F} (hi : Inv s) {ids : List ℕ} (hn : ids.Nodup) {res : Bool}
    (h : jointMeasure N ids s = .ok (res, s')) {f : ℕ → Bool} (hf : Poss s' f) : Poss s f ∧ odd ids f = res := by
  unfold jointMeasure at h
  obtain ⟨s1, h1, h⟩ := bind_ok h
  obtain ⟨_, _, h⟩ := bind_ok h
  obtain ⟨locs, h2, h⟩ := bind_ok h
  dsimp only [nextSample] at h
  obtain ⟨⟨p, s2⟩, h3, h⟩ := bind_ok h
  cases h
  obtain ⟨hd, hq⟩ := (maybeFlush_goes _ hi).get h1
  have := collapse_poss (s1 := { s1 with rng := fun n => s1.rng (n + 1) }) (hd.inv.reseed _)
    (resolveIds_eq_ok.1 h2) hn hq h3 _ _ hf
  exact ⟨maybeFlush_shr hi h1 f this.1, this.2⟩

theorem jointProbability_shr {s s' : GSim F} (hi : Inv s) {ids : List ℕ} {p : F}
    (h : jointProbability N ids s = .ok (p, s')) : Shr s s' := by
  unfold jointProbability at h
  obtain ⟨s1, h1, h⟩ := bind_ok h
  obtain ⟨_, _, h⟩ := bind_ok h
  obtain ⟨locs, h2, h⟩ := bind_ok h
  obtain ⟨hd, _⟩ := (maybeFlush_goes _ hi).get h1
  obtain ⟨_, _, hq, he⟩ := check_eff hd.inv h
  exact (maybeFlush_shr hi h1).trans (shr_eff (fun q h => by rw [hq]; exact h) he)

theorem forceCollapse_poss {s s' : GSim F} (hi : Inv s) {id : ℕ} {v : Bool} {r : F}
    (h : forceCollapse N v id s = .ok (r, s')) {f : ℕ → Bool} (hf : Poss s' f) :
    Poss s f ∧ (N.nearlyZero r = false → f id = v) := by
  unfold forceCollapse at h
  obtain ⟨s1, h1, h⟩ := bind_ok h
  obtain ⟨loc, h2, h⟩ := bind_ok h
  obtain ⟨⟨p, s2⟩, h3, h⟩ := bind_ok h
  cases h
  obtain ⟨hd, hq⟩ := (maybeFlush_goes _ hi).get h1
  have hloc : s1.idMap.get id = some loc := by
    unfold resolveId at h2
    cases hg : s1.idMap.get id with
    | none => rw [hg] at h2; cases h2
    | some l => rw [hg] at h2; cases h2; rfl
  by_cases hc : ((v && !N.nearlyZero p) || (!v && !N.nearlyZero (N.sub N.one p))) = true
  · rw [if_pos hc] at hf
    have := collapse_poss hd.inv (ids := [id]) (.cons hloc .nil) (by simp) hq h3 _ _ hf
    refine ⟨maybeFlush_shr hi h1 f this.1, fun _ => ?_⟩
    have h2 := this.2
    rw [← parity_odd, parity_singleton] at h2
    exact h2
  · rw [if_neg hc] at hf
    obtain ⟨_, _, hqq, he⟩ := check_eff hd.inv h3
    refine ⟨maybeFlush_shr hi h1 f ((shr_eff (fun q h => by rw [hqq]; exact h) he) f hf), fun hz => ?_⟩
    exfalso
    apply hc
    cases v <;> simp_all

/-! ### Release, allocation, exchange -/

theorem idBits_erase {m : IMap ℕ} (hm : Inj m) {id loc : ℕ} (hl : m.get id = some loc) {k k' : ℕ}
    (hk : ∀ l, l ≠ loc → k'.testBit l = k.testBit l) :
    idBits (m.remove id) k' = fun r => if r = id then false else idBits m k r := by
  funext r
  unfold idBits
  rw [IMap.get_remove]
  by_cases hr : r = id
  · rw [if_pos hr, if_pos hr]
  · rw [if_neg hr, if_neg hr]
    cases hg : m.get r with
    | none => rfl
    | some l => exact hk l (by rintro rfl; exact hr (hm _ _ _ hg hl))

theorem release_many_steps {s s' : GSim F} (hi : Inv s) {id : ℕ} (ha : (s.idMap.get id).isSome)
    (hlen : s.idMap.iter.length ≠ 1) (h : release N id s = .ok s') :
    Steps (fun f g => g = fun r => if r = id then false else f r) s s' := by
  obtain ⟨loc, hloc⟩ := Option.isSome_iff_exists.1 ha
  obtain ⟨p, s1, h1, hm, hrng, hbit⟩ := measure_goes (N := N) hi hloc
  have hloc1 : s1.idMap.get id = some loc := by rw [hm.idMap]; exact hloc
  have hst : ∃ st, s' = { s1 with state := st, idMap := s1.idMap.remove id } ∧
      ∀ e ∈ st, ∃ e0 ∈ s1.state, ∀ l, l ≠ loc → e.1.testBit l = e0.1.testBit l := by
    unfold release at h
    obtain ⟨s2, h2, h⟩ := bind_ok h
    cases h
    unfold releaseState at h2
    rw [if_neg hlen] at h2
    simp only [h1, ok_bind, indexId, hloc1] at h2
    split at h2
    · cases h2
      refine ⟨_, rfl, fun e he => ?_⟩
      obtain ⟨e0, he0, rfl⟩ := List.mem_map.1 he
      refine ⟨e0, he0, fun l hl => ?_⟩
      split
      · rw [testBit_setBit, if_neg hl]
      · rfl
    · cases h2
      exact ⟨_, rfl, fun e he => ⟨e, he, fun _ _ => rfl⟩⟩
  obtain ⟨st, rfl, hst⟩ := hst
  rintro g ⟨b, hb, hg⟩
  obtain ⟨e, he, rfl⟩ := (eff_empty (s := { s1 with state := st, idMap := s1.idMap.remove id }) hm.ops).1 hb
  obtain ⟨e0, he0, hk⟩ := hst e he
  rw [idBits_erase hm.inv.core.inj hloc1 hk] at hg
  have hg' : ∀ q, hasQueued s1 q = false → g q = if q = id then false else idBits s1.idMap e0.1 q := hg
  have hposs : Poss s1 (fun r => if r = id then idBits s1.idMap e0.1 r else g r) := by
    refine ⟨_, (eff_empty hm.ops).2 ⟨e0, he0, rfl⟩, fun q hq => ?_⟩
    by_cases hqi : q = id
    · simp only [if_pos hqi]
    · simp only [if_neg hqi]
      rw [hg' q hq, if_neg hqi]
  refine ⟨_, (measure_poss hi h1 hposs).1, ?_⟩
  funext r
  by_cases hr : r = id
  · subst hr
    rw [hg' r (hm.quiet r (by simp)), if_pos rfl, if_pos rfl]
  · simp only [if_neg hr]

theorem Fresh.poss {s : GSim F} (h : Fresh N s) {f : ℕ → Bool} (hf : Poss s f) : f = fun _ => false := by
  obtain ⟨b, hb, hfb⟩ := hf
  obtain ⟨e, he, rfl⟩ := (eff_empty h.ops).1 hb
  rw [h.state, List.mem_singleton] at he
  subst he
  funext q
  rw [hfb q]
  · unfold idBits
    cases s.idMap.get q <;> simp
  · rw [hasQueued_eq, h.h, h.rx, h.ry, IMap.get_empty]; simp

theorem allocate_shr {s : GSim F} (hi : Inv s) : Shr s (allocate s).2 := by
  refine shr_eff (fun q (h : hasQueued s q = false) => h) ?_
  rintro b ⟨e, he, rfl⟩
  have he' : e ∈ s.state := he
  refine ⟨e, he', ?_⟩
  show after s.opQ _ = _
  congr 1
  funext q
  unfold idBits
  simp only [allocate, IMap.get_insert]
  by_cases hq : q = firstFree (s.idMap.iter.map Prod.fst)
  · rw [if_pos hq, hq, (newKey_spec s.idMap).1]
    simp only
    by_contra hc
    obtain ⟨i, hi'⟩ := hi.core.bits e he' _ (by simpa using hc)
    exact newVal_fresh hi.core.inj i hi'
  · rw [if_neg hq]

theorem swap_steps {s s' : GSim F} (hi : Inv s) {a c : ℕ} (ha : (s.idMap.get a).isSome) (hc : (s.idMap.get c).isSome)
    (h : swapQubitIds N a c s = .ok s') :
    Steps (fun f g => g a = f c ∧ g c = f a ∧ ∀ q, q ≠ a → q ≠ c → g q = f q) s s' := by
  unfold swapQubitIds at h
  obtain ⟨s1, h1, h⟩ := bind_ok h
  obtain ⟨hd, ho⟩ := (flushOps_goes hi).get h1
  obtain ⟨la, hla⟩ := Option.isSome_iff_exists.1 ha
  obtain ⟨lc, hlc⟩ := Option.isSome_iff_exists.1 hc
  rw [← hd.idMap] at hla hlc
  simp only [resolveId, hla, hlc, ok_bind] at h
  cases h
  refine Steps.after (flushOps_shr hi h1) ?_
  have hget : ∀ r, ((s1.idMap.modify a (fun _ => lc)).modify c (fun _ => la)).get r =
      s1.idMap.get (Equiv.swap a c r) := by
    intro r
    by_cases hrb : r = c
    · subst hrb
      rw [IMap.get_modify_same, IMap.get_modify, Equiv.swap_apply_right]
      by_cases hra : r = a
      · subst hra; simp [hla]
      · rw [if_neg hra, hlc, hla]; rfl
    · rw [IMap.get_modify, if_neg hrb, IMap.get_modify]
      by_cases hra : r = a
      · subst hra; rw [if_pos rfl, Equiv.swap_apply_left, hla, hlc]; rfl
      · rw [if_neg hra, Equiv.swap_apply_of_ne_of_ne hra hrb]
  rintro g ⟨b, hb, hg⟩
  obtain ⟨e, he, rfl⟩ := (eff_empty (by exact ho)).1 hb
  refine ⟨g ∘ Equiv.swap a c, ⟨_, (eff_empty ho).2 ⟨e, he, rfl⟩, fun q hq => ?_⟩, ?_, ?_, ?_⟩
  · have := hg (Equiv.swap a c q) (by
      rw [hasQueued_eq] at hq ⊢
      simp only [testBit_swapFlag, get_swapEntries, Equiv.swap_apply_self]
      exact hq)
    rw [comp_apply, this]
    unfold idBits
    simp only [hget, Equiv.swap_apply_self]
  · simp
  · simp
  · intro q h1 h2
    simp [Equiv.swap_apply_of_ne_of_ne h1 h2]

/-! ### Dumps -/

theorem relocateOne_eff {s s' : GSim F} (hc : GCore s.idMap s.state) (hq : GQuiet s) {index key loc : ℕ}
    (hk : s.idMap.get key = some loc) (h : relocateOne N index key s = .ok s') {b : ℕ → Bool} (hb : Eff s' b) :
    Eff s b := by
  obtain ⟨s2, h2, hr, hg⟩ := relocateOne_goes (N := N) hc hq (index := index) hk
  rw [h] at h2; cases h2
  obtain ⟨e, he, rfl⟩ := (eff_empty hr.quiet.ops).1 hb
  unfold relocateOne indexId at h
  simp only [hk, ok_bind] at h
  by_cases hne : index = loc
  · subst hne
    rw [if_neg (by simp)] at h
    cases h
    exact (eff_empty hq.ops).2 ⟨e, he, rfl⟩
  · rw [if_pos hne] at h
    have hne' : loc ≠ index := fun h => hne h.symm
    have hsw : swapQubitState N loc index s = .ok { s with state := s.state.map (swapKey loc index) } := by
      unfold swapQubitState
      rw [if_neg hne', hq.flushQueue, ok_bind]
      rfl
    simp only [hsw, ok_bind] at h
    have hst : s'.state = s.state.map (swapKey loc index) := by
      cases h
      simp only
      split <;> rfl
    rw [hst] at he
    obtain ⟨e0, he0, rfl⟩ := List.mem_map.1 he
    refine (eff_empty hq.ops).2 ⟨e0, he0, ?_⟩
    funext q
    unfold idBits
    rw [hg]
    cases s.idMap.get q with
    | none => rfl
    | some l =>
      simp only [Option.map_some]
      rw [testBit_swapKey hne', Equiv.swap_apply_self]

theorem relocate_eff : ∀ (rest : List ℕ) (i : ℕ) {s s' : GSim F}, GCore s.idMap s.state → GQuiet s →
    Alloc s.idMap rest → relocate N i rest s = .ok s' → ∀ {b : ℕ → Bool}, Eff s' b → Eff s b
  | [], _, s, s', _, _, _, h, b, hb => by cases h; exact hb
  | key :: rest, i, s, s', hc, hq, ha, h, b, hb => by
    obtain ⟨loc, hloc⟩ := Option.isSome_iff_exists.1 (ha key (by simp))
    obtain ⟨s1, h1, hr1, _⟩ := relocateOne_goes (N := N) hc hq (index := i) hloc
    simp only [relocate, h1, ok_bind] at h
    exact relocateOne_eff hc hq hloc h1 (relocate_eff rest (i + 1) hr1.core hr1.quiet
      (fun j hj => by rw [hr1.some]; exact ha j (by simp [hj])) h hb)

/-- The sorted position of a qubit is the number of qubits below it. -/
theorem idxOf_rank {l : List ℕ} (h : l.Pairwise (· < ·)) {q : ℕ} (hq : q ∈ l) :
    l.idxOf q = (l.toFinset.filter (· < q)).card := by
  induction l with
  | nil => simp at hq
  | cons a l ih =>
    rw [List.pairwise_cons] at h
    have hnd : (a :: l).Nodup := by
      rw [List.nodup_cons]
      exact ⟨fun hm => absurd (h.1 a hm) (by omega), h.2.imp (fun h => Nat.ne_of_lt h)⟩
    by_cases hqa : q = a
    · subst hqa
      rw [List.idxOf_cons_self]
      symm
      rw [Finset.card_eq_zero, Finset.filter_eq_empty_iff]
      intro x hx
      rw [List.mem_toFinset] at hx
      rcases List.mem_cons.1 hx with rfl | hx
      · omega
      · have := h.1 x hx; omega
    · have hql : q ∈ l := (List.mem_cons.1 hq).resolve_left hqa
      rw [List.idxOf_cons_ne _ (Ne.symm hqa), ih h.2 hql, List.toFinset_cons, Finset.filter_insert, if_pos (h.1 q hql),
        Finset.card_insert_of_notMem]
      intro hm
      rw [Finset.mem_filter, List.mem_toFinset] at hm
      exact (List.nodup_cons.1 hnd).1 hm.1

/-- The common part of `get_state` and `dump`: every entry stands for a possible basis state. -/
theorem arrange_poss {s s1 s2 : GSim F} (hi : Inv s)
    (h1 : flushQueue N (s.idMap.iter.map Prod.fst) .HRxRy s = .ok s1)
    (h2 : relocate N 0 (s.idMap.iter.map Prod.fst) s1 = .ok s2) :
    GQuiet s2 ∧ Shr s s2 ∧ ∀ e ∈ s2.state, ∃ f, Poss s f ∧
      ∀ q, (s.idMap.get q).isSome = true → e.1.testBit (s.idMap.keys.idxOf q) = f q := by
  obtain ⟨hd, ho, hq⟩ := (flushQueue_goes (N := N) .HRxRy (s.idMap.iter.map Prod.fst) hi).get h1
  have hquiet : GQuiet s1 := by
    refine ⟨ho, fun q => ?_⟩
    by_cases hm : q ∈ s.idMap.keys
    · exact hq rfl q hm
    · by_contra hc
      rw [Bool.not_eq_false, hasQueued_eq] at hc
      simp only [Bool.or_eq_true] at hc
      apply hm
      rw [IMap.mem_keys, ← hd.idMap]
      rcases hc with (hc | hc) | hc
      · exact hd.inv.h q hc
      · exact hd.inv.rx q hc
      · exact hd.inv.ry q hc
  have hal : Alloc s1.idMap s.idMap.keys := by
    intro i hm
    rw [hd.idMap, ← IMap.mem_keys]; exact hm
  obtain ⟨s2', h2', hr, hg⟩ := relocate_goes (N := N) s.idMap.keys [] s1 hd.inv.core hquiet
    (by simpa using IMap.keys_nodup s.idMap) (by simpa using hal) (by simp)
  have h2'' : relocate N 0 (s.idMap.iter.map Prod.fst) s1 = .ok s2' := h2'
  rw [h2] at h2''; cases h2''
  have hsh : Shr s s2 := (flushQueue_shr hi h1).trans (shr_eff (fun q _ => hr.quiet.none q)
    (fun b hb => relocate_eff _ _ hd.inv.core hquiet hal h2 hb))
  refine ⟨hr.quiet, hsh, fun e he => ⟨idBits s2.idMap e.1, hsh _ ⟨_, (eff_empty hr.quiet.ops).2 ⟨e, he, rfl⟩,
    fun _ _ => rfl⟩, fun q hqs => ?_⟩⟩
  have hm : q ∈ s.idMap.keys := (IMap.mem_keys _ _).2 hqs
  have hlt := List.idxOf_lt_length_iff.2 hm
  have := hg _ (by simpa using hlt)
  simp only [List.nil_append, List.getElem_idxOf hlt] at this
  rw [idBits_of this]

theorem Books.keys {L : Finset ℕ} {s : GSim F} (h : Books L s) : s.idMap.keys.toFinset = L := by
  ext q
  rw [List.mem_toFinset, IMap.mem_keys, h.ids]

theorem index_of {L : Finset ℕ} {s : GSim F} (hb : Books L s) {k : ℕ} {f : ℕ → Bool}
    (h : ∀ q, (s.idMap.get q).isSome = true → k.testBit (s.idMap.keys.idxOf q) = f q) : Index L k f := by
  intro q hq
  have hs := (hb.ids q).2 hq
  rw [← h q hs, idxOf_rank (IMap.keys_sorted _) ((IMap.mem_keys _ _).2 hs), hb.keys]

/-! ### Calls -/

/-- The simulator holds possible basis states only. -/
structure Holds (L : Finset ℕ) (S : (ℕ → Bool) → Prop) (s : GSim F) : Prop where
  books : Books L s
  poss : ∀ f, Poss s f → S f

theorem quiet_ok {s' : GSim F} {o : GOut F} {r : Except Panic (GSim F)} (h : quiet r = .ok (o, s')) :
    r = .ok s' ∧ o = .none := by
  cases r with
  | error e => cases h
  | ok s => cases h; exact ⟨rfl, rfl⟩

theorem Steps.image {G : (ℕ → Bool) → (ℕ → Bool) → Prop} {s s' : GSim F} {S : (ℕ → Bool) → Prop} (h : Steps G s s')
    (hS : ∀ f, Poss s f → S f) (g : ℕ → Bool) (hg : Poss s' g) : ∃ f, S f ∧ G f g := by
  obtain ⟨f, hf, hG⟩ := h g hg
  exact ⟨f, hS f hf, hG⟩

theorem call_holds {L : Finset ℕ} {S : (ℕ → Bool) → Prop} {s s' : GSim F} (hb : Holds L S s) {c : GCall F} {o : GOut F}
    (hv : Allowed L c) (h : call N c s = .ok (o, s')) :
    Shows L S c o ∧ Holds (liveNext L c) (fun g => possible N L S g c o) s' := by
  obtain ⟨o', s'', h', _, hb', _⟩ := call_goes (N := N) hb.books c hv
  rw [h] at h'; cases h'
  have hi := hb.books.inv
  have hids := hb.books.ids
  have alloc : ∀ {ids : List ℕ}, (∀ i ∈ ids, i ∈ L) → Alloc s.idMap ids := fun h i hi => (hids i).2 (h i hi)
  have kept : Shr s s' → ∀ f, Poss s' f → S f := fun hs f hf => hb.poss f (hs f hf)
  cases c with
  | gate g q => exact ⟨trivial, hb', (gateCall_steps hi ((hids q).2 hv) (quiet_ok h).1).image hb.poss⟩
  | ctrl g cs q => exact ⟨trivial, hb', (ctrlCall_steps hi (hb.books.opnds hv) (quiet_ok h).1).image hb.poss⟩
  | phase cs φ q => exact ⟨trivial, hb', kept (mcphase_shr hi (quiet_ok h).1)⟩
  | exp cs ps θ ts =>
    exact ⟨trivial, hb', (mcexp_steps hi hv.1 (alloc hv.2.1) hv.2.2 (quiet_ok h).1).image hb.poss⟩
  | swap a b => exact ⟨trivial, hb', (swap_steps hi ((hids a).2 hv.1) ((hids b).2 hv.2) (quiet_ok h).1).image hb.poss⟩
  | allocate =>
    cases h
    exact ⟨trivial, hb', kept (allocate_shr hi)⟩
  | release q =>
    have hlen : s.idMap.iter.length = L.card := by rw [← hb.books.card, IMap.keys, List.length_map]
    refine ⟨trivial, hb', fun g hg => ?_⟩
    by_cases hc : L.card = 1
    · obtain ⟨s1, h1, _, _, _, hf⟩ := release_last_goes (N := N) hi (id := q) (hlen.trans hc)
      have := (quiet_ok h).1
      rw [h1] at this; cases this
      simp only [possible, if_pos hc]
      exact hf.poss hg
    · simp only [possible, if_neg hc]
      exact (release_many_steps hi ((hids q).2 hv) (by rw [hlen]; exact hc) (quiet_ok h).1).image hb.poss g hg
  | measure q =>
    simp only [call] at h
    obtain ⟨⟨b, s1⟩, h1, h⟩ := bind_ok h
    cases h
    refine ⟨trivial, hb', fun f hf => ?_⟩
    obtain ⟨h2, h3⟩ := measure_poss hi h1 hf
    exact ⟨hb.poss f h2, by rw [h3]⟩
  | jointMeasure qs =>
    simp only [call] at h
    obtain ⟨⟨b, s1⟩, h1, h⟩ := bind_ok h
    cases h
    refine ⟨trivial, hb', fun f hf => ?_⟩
    obtain ⟨h2, h3⟩ := jointMeasure_poss hi hv.1 h1 hf
    exact ⟨hb.poss f h2, by rw [h3]⟩
  | jointProb qs =>
    simp only [call] at h
    obtain ⟨⟨b, s1⟩, h1, h⟩ := bind_ok h
    cases h
    exact ⟨trivial, hb', kept (jointProbability_shr hi h1)⟩
  | isZero q =>
    simp only [call] at h
    obtain ⟨⟨b, s1⟩, h1, h⟩ := bind_ok h
    cases h
    unfold qubitIsZero at h1
    obtain ⟨⟨p, s2⟩, h2, h1⟩ := bind_ok h1
    cases h1
    exact ⟨trivial, hb', kept (jointProbability_shr hi h2)⟩
  | collapse v q =>
    simp only [call] at h
    obtain ⟨⟨p, s1⟩, h1, h⟩ := bind_ok h
    cases h
    refine ⟨trivial, hb', fun f hf => ?_⟩
    obtain ⟨h2, h3⟩ := forceCollapse_poss hi h1 hf
    exact ⟨hb.poss f h2, _, rfl, h3⟩
  | getState =>
    simp only [call] at h
    obtain ⟨⟨⟨l, n⟩, s1⟩, h1, h⟩ := bind_ok h
    cases h
    obtain ⟨l', s1', h1', _, h3⟩ := getState_goes (N := N) hi
    rw [h1] at h1'; cases h1'
    unfold getState at h1
    obtain ⟨s2, h4, h1⟩ := bind_ok h1
    obtain ⟨s3, h5, h1⟩ := bind_ok h1
    cases h1
    obtain ⟨_, hsh, hl⟩ := arrange_poss hi h4 h5
    rw [hb.books.card] at h3
    refine ⟨⟨_, by rw [hb.books.card], h3, fun e he => ?_⟩, hb', kept hsh⟩
    obtain ⟨f, hf, hk⟩ := hl e ((sortState_perm _).mem_iff.1 he)
    exact ⟨f, hb.poss f hf, index_of hb.books hk⟩
  | dump fmt =>
    simp only [call] at h
    obtain ⟨⟨t, s1⟩, h1, h⟩ := bind_ok h
    cases h
    obtain ⟨s2, s3, h4, h5, hr, hbits⟩ := arrange_goes (N := N) hi
    simp only [dump, h4, h5, ok_bind] at h1
    cases h1
    obtain ⟨hq, hsh, hl⟩ := arrange_poss hi h4 h5
    refine ⟨⟨sortState s3.state, by rw [← shown_eq], ⟨sortState_sorted hr.core.nodup, fun e he => ?_⟩, fun e he => ?_⟩,
      hb', kept (hsh.trans ?_)⟩
    · rw [← hb.books.card]
      exact (hbits e.1).1 (hr.core.bits e ((sortState_perm _).mem_iff.1 he))
    · obtain ⟨f, hf, hk⟩ := hl e ((sortState_perm _).mem_iff.1 he)
      exact ⟨f, hb.poss f hf, index_of hb.books hk⟩
    · refine shr_eff (fun q (h : hasQueued s3 q = false) => h) ?_
      rintro b ⟨e, he, rfl⟩
      exact ⟨e, (sortState_perm _).mem_iff.1 he, rfl⟩

theorem run_holds (cs : List (GCall F)) : ∀ {L : Finset ℕ} {S : (ℕ → Bool) → Prop} {s : GSim F}, Holds L S s →
    Valid L cs → ∃ os s', runCalls N cs s = .ok (os, s') ∧ Agree N L S cs os ∧
      Holds (liveAfter L cs) (reached N L S cs os) s' := by
  induction cs with
  | nil => intro L S s hb _; exact ⟨[], s, rfl, rfl, hb⟩
  | cons c cs ih =>
    intro L S s hb hv
    obtain ⟨o, s1, h1, _, _, _⟩ := call_goes (N := N) hb.books c hv.1
    obtain ⟨hsh, hb1⟩ := call_holds hb hv.1 h1
    obtain ⟨os, s2, h2, ha2, hb2⟩ := ih hb1 hv.2
    exact ⟨o :: os, s2, by simp only [runCalls, h1, ok_bind, h2]; rfl, ⟨o, os, rfl, hsh, ha2⟩, hb2⟩

theorem holds_new (N : Num F) (rng : ℕ → F) : Holds ∅ allZero (new N rng) :=
  ⟨books_new N rng, fun _ hf => Fresh.poss (N := N) ⟨rfl, rfl, rfl, rfl, rfl⟩ hf⟩

end Gen
end Qir
