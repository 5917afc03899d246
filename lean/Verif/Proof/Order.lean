import Verif.Proof.Ids

/-! `get_state` and `dump`: moving every qubit to the location of its rank. -/

noncomputable section
namespace Qir
open Spec Function Sim

/-- Nothing is queued at all. -/
structure Quiet (s : Sim) : Prop where
  ops : s.opQ = []
  none : ∀ q, s.hasQueued q = false

theorem Quiet.flushLoop {env : Env} {s : Sim} (h : Quiet s) (level : FlushLevel) (ids : List ℕ) :
    s.flushLoop env level ids = .ok s := by
  induction ids with
  | nil => rfl
  | cons q ids ih =>
    have hq := h.none q
    rw [hasQueued_eq] at hq
    simp only [Bool.or_eq_false_iff, Option.isSome_eq_false_iff, Option.isNone_iff_eq_none] at hq
    have h1 : s.flushOne env level q = .ok s := by
      unfold flushOne flushH
      simp only [hq.1.1, Bool.false_eq_true, if_false, ok_bind]
      cases level
      · rfl
      · simp [flushRx, hq.1.2]
      · simp [flushRx, flushRy, hq.1.2, hq.2]
    simp only [Sim.flushLoop, h1, ok_bind, ih]

theorem Quiet.flushQueue {env : Env} {s : Sim} (h : Quiet s) (level : FlushLevel) (ids : List ℕ) :
    s.flushQueue env ids level = .ok s := by
  unfold Sim.flushQueue
  rw [h.flushLoop, ok_bind]
  unfold flushOps
  rw [h.ops]; rfl

theorem testBit_swapKey {a b : ℕ} (hab : a ≠ b) (e : ℕ × ℂ) (l : ℕ) :
    (swapKey a b e).1.testBit l = e.1.testBit (Equiv.swap a b l) := by
  unfold swapKey
  by_cases hb : e.1.testBit a ≠ e.1.testBit b
  · rw [if_pos hb]
    rw [testBit_setBit, testBit_setBit]
    by_cases hlb : l = b
    · subst hlb
      rw [if_pos rfl, Equiv.swap_apply_right]
      cases h1 : e.1.testBit a <;> cases h2 : e.1.testBit l <;> simp_all
    · rw [if_neg hlb]
      by_cases hla : l = a
      · subst hla
        rw [if_pos rfl, Equiv.swap_apply_left]
        cases h1 : e.1.testBit l <;> cases h2 : e.1.testBit b <;> simp_all
      · rw [if_neg hla, Equiv.swap_apply_of_ne_of_ne hla hlb]
  · rw [if_neg hb]
    simp only [ne_eq, not_not] at hb
    by_cases hlb : l = b
    · subst hlb; rw [Equiv.swap_apply_right, hb]
    · by_cases hla : l = a
      · subst hla; rw [Equiv.swap_apply_left, hb]
      · rw [Equiv.swap_apply_of_ne_of_ne hla hlb]

theorem swapKey_snd (a b : ℕ) (e : ℕ × ℂ) : (swapKey a b e).2 = e.2 := by
  unfold swapKey; split <;> rfl

/-- Exchanging two locations, in the state and in the identifier map. -/
theorem relabel_spec {m m' : IMap ℕ} {st : List (ℕ × ℂ)} (h : Core m st) {a b : ℕ} (hab : a ≠ b)
    (hm : ∀ i, m'.get i = (m.get i).map (Equiv.swap a b)) :
    Core m' (st.map (swapKey a b)) ∧ view m' (st.map (swapKey a b)) = view m st := by
  have hid : ∀ e : ℕ × ℂ, idBits m' (swapKey a b e).1 = idBits m e.1 := by
    intro e
    funext q
    unfold idBits
    rw [hm]
    cases m.get q with
    | none => rfl
    | some l => simp only [Option.map_some]; rw [testBit_swapKey hab]; simp
  refine ⟨⟨?_, ?_, ?_⟩, ?_⟩
  · intro i j l hi hj
    rw [hm, Option.map_eq_some_iff] at hi hj
    obtain ⟨l1, h1, h2⟩ := hi
    obtain ⟨l2, h3, h4⟩ := hj
    have : l1 = l2 := (Equiv.swap a b).injective (h2.trans h4.symm)
    subst this
    exact h.inj i j l1 h1 h3
  · rw [List.map_map]
    apply List.Nodup.map_on _ h.nodup.of_map
    intro e he e' he' hee
    apply List.inj_on_of_nodup_map h.nodup he he'
    apply Nat.eq_of_testBit_eq
    intro l
    have := congrArg (fun n => n.testBit (Equiv.swap a b l)) hee
    simp only [comp_apply, testBit_swapKey hab, Equiv.swap_apply_self] at this
    exact this
  · intro e he l hl
    obtain ⟨e', he', rfl⟩ := List.mem_map.1 he
    rw [testBit_swapKey hab] at hl
    obtain ⟨i, hi⟩ := h.bits e' he' _ hl
    exact ⟨i, by rw [hm, hi]; simp⟩
  · have := view_map_of (m := m) (m' := m') (A := 1) (f := swapKey a b) (st := st) (by
      intro e _
      unfold entryWave
      rw [hid, swapKey_snd]; rfl)
    simpa using this

theorem findByLoc_some {m : IMap ℕ} {l k : ℕ} (h : findByLoc m l = some k) : m.get k = some l := by
  unfold findByLoc at h
  rw [Option.map_eq_some_iff] at h
  obtain ⟨⟨a, v⟩, h1, rfl⟩ := h
  have h2 := List.find?_some h1
  have h3 := List.mem_of_find?_eq_some h1
  simp only [beq_iff_eq] at h2
  subst h2
  exact (IMap.mem_iter _ _ _).1 h3

theorem findByLoc_none {m : IMap ℕ} {l : ℕ} (h : findByLoc m l = none) (k : ℕ) : m.get k ≠ some l := by
  intro hk
  unfold findByLoc at h
  rw [Option.map_eq_none_iff, List.find?_eq_none] at h
  exact h (k, l) ((IMap.mem_iter _ _ _).2 hk) (by simp)

/-- What the relocation loop keeps. -/
structure Reloc (s s' : Sim) : Prop where
  core : Core s'.idMap s'.state
  quiet : Quiet s'
  rng : s'.rng = s.rng
  some : ∀ i, (s'.idMap.get i).isSome = (s.idMap.get i).isSome
  view : view s'.idMap s'.state = view s.idMap s.state

theorem relocateOne_spec {env : Env} {s : Sim} (hc : Core s.idMap s.state) (hq : Quiet s)
    {index key loc : ℕ} (hk : s.idMap.get key = some loc) :
    ∃ s', s.relocateOne env index key = .ok s' ∧ Reloc s s' ∧
      ∀ i, s'.idMap.get i = (s.idMap.get i).map (Equiv.swap loc index) := by
  unfold relocateOne indexId
  simp only [hk, ok_bind]
  by_cases hne : index = loc
  · subst hne
    rw [if_neg (by simp)]
    refine ⟨s, rfl, ⟨hc, hq, rfl, fun _ => rfl, rfl⟩, ?_⟩
    intro i; simp
  · rw [if_pos hne]
    have hsw : s.swapQubitState env loc index =
        .ok { s with state := s.state.map (swapKey loc index) } := by
      unfold swapQubitState
      rw [if_neg (fun h => hne h.symm), hq.flushQueue, ok_bind]
      rfl
    simp only [hsw, ok_bind]
    have hne' : loc ≠ index := fun h => hne h.symm
    obtain ⟨m1, hm1, hget⟩ : ∃ m1, ((findByLoc s.idMap index = Option.none ∧ m1 = s.idMap) ∨
          ∃ sk, findByLoc s.idMap index = Option.some sk ∧ m1 = s.idMap.modify sk (fun _ => loc)) ∧
        ∀ i, (m1.modify key (fun _ => index)).get i = (s.idMap.get i).map (Equiv.swap loc index) := by
      cases hf : findByLoc s.idMap index with
      | none =>
        refine ⟨s.idMap, .inl ⟨rfl, rfl⟩, ?_⟩
        intro i
        rw [IMap.get_modify]
        by_cases hi : i = key
        · subst hi; rw [if_pos rfl, hk]; simp
        · rw [if_neg hi]
          cases hg : s.idMap.get i with
          | none => rfl
          | some l =>
            have h1 : l ≠ loc := by rintro rfl; exact hi (hc.inj _ _ _ hg hk)
            have h2 : l ≠ index := by rintro rfl; exact findByLoc_none hf i hg
            rw [Option.map_some, Equiv.swap_apply_of_ne_of_ne h1 h2]
      | some sk =>
        have hsk := findByLoc_some hf
        refine ⟨s.idMap.modify sk (fun _ => loc), .inr ⟨sk, rfl, rfl⟩, ?_⟩
        intro i
        have hskk : sk ≠ key := by
          rintro rfl; rw [hsk] at hk; cases hk; exact hne rfl
        rw [IMap.get_modify]
        by_cases hi : i = key
        · subst hi
          rw [if_pos rfl, IMap.get_modify, if_neg (Ne.symm hskk), hk]; simp
        · rw [if_neg hi, IMap.get_modify]
          by_cases his : i = sk
          · subst his; rw [if_pos rfl, hsk]; simp
          · rw [if_neg his]
            cases hg : s.idMap.get i with
            | none => rfl
            | some l =>
              have h1 : l ≠ loc := by rintro rfl; exact hi (hc.inj _ _ _ hg hk)
              have h2 : l ≠ index := by rintro rfl; exact his (hc.inj _ _ _ hg hsk)
              rw [Option.map_some, Equiv.swap_apply_of_ne_of_ne h1 h2]
    obtain ⟨hcore, hview⟩ := relabel_spec hc hne' hget
    refine ⟨{ s with state := s.state.map (swapKey loc index), idMap := m1.modify key (fun _ => index) },
      ?_, ⟨hcore, ⟨hq.ops, hq.none⟩, rfl, ?_, hview⟩, hget⟩
    · rcases hm1 with ⟨hf, rfl⟩ | ⟨sk, hf, rfl⟩ <;> simp only [hf, pure_ok]
    · intro i
      simp only [hget]
      cases s.idMap.get i <;> rfl

theorem Reloc.trans {s s1 s2 : Sim} (h : Reloc s s1) (h' : Reloc s1 s2) : Reloc s s2 :=
  ⟨h'.core, h'.quiet, h'.rng.trans h.rng, fun i => (h'.some i).trans (h.some i),
    h'.view.trans h.view⟩

theorem relocate_spec {env : Env} (rest : List ℕ) :
    ∀ (done : List ℕ) (s : Sim), Core s.idMap s.state → Quiet s →
      (done ++ rest).Nodup → Alloc s.idMap (done ++ rest) →
      (∀ j (hj : j < done.length), s.idMap.get done[j] = some j) →
      ∃ s', s.relocate env done.length rest = .ok s' ∧ Reloc s s' ∧
        ∀ j (hj : j < (done ++ rest).length), s'.idMap.get (done ++ rest)[j] = some j := by
  induction rest with
  | nil =>
    intro done s hc hq _ _ hd
    refine ⟨s, rfl, ⟨hc, hq, rfl, fun _ => rfl, rfl⟩, ?_⟩
    intro j hj
    simp only [List.append_nil] at hj ⊢
    exact hd j hj
  | cons key rest ih =>
    intro done s hc hq hn ha hd
    obtain ⟨loc, hloc⟩ := Option.isSome_iff_exists.1 (ha key (by simp))
    obtain ⟨s1, h1, hr1, hg1⟩ := relocateOne_spec (env := env) hc hq (index := done.length) hloc
    have hlist : done ++ key :: rest = (done ++ [key]) ++ rest := by simp
    have hlt : ∀ j (hj : j < done.length), loc ≠ j := by
      rintro j hj rfl
      have := hc.inj _ _ _ hloc (hd loc hj)
      rw [List.nodup_append] at hn
      exact hn.2.2 _ (List.getElem_mem hj) key (by simp) this.symm
    obtain ⟨s2, h2, hr2, hg2⟩ := ih (done ++ [key]) s1 hr1.core hr1.quiet (by rw [← hlist]; exact hn)
      (by
        rw [← hlist]
        intro i hi; rw [hr1.some]; exact ha i hi)
      (by
        intro j hj
        rw [hg1]
        simp only [List.length_append, List.length_singleton] at hj
        by_cases hjd : j < done.length
        · rw [List.getElem_append_left hjd, hd j hjd, Option.map_some,
            Equiv.swap_apply_of_ne_of_ne (Ne.symm (hlt j hjd)) (by omega)]
        · have : j = done.length := by omega
          subst this
          simp [hloc])
    refine ⟨s2, ?_, hr1.trans hr2, ?_⟩
    · simp only [relocate, h1, ok_bind]
      simpa using h2
    · intro j hj
      have := hg2 j (by rw [← hlist]; exact hj)
      simpa only [hlist] using this

theorem Quiet.abs {s : Sim} (hq : Quiet s) : Qir.abs s = view s.idMap s.state := by
  unfold Qir.abs base
  rw [hq.ops, pendL_congr (Q := fun _ => 1) (fun q _ => pend_of_not_queued (hq.none q))]
  have : ∀ L : List ℕ, pendL (fun _ => 1) L = 1 := by
    intro L
    induction L with
    | nil => rfl
    | cons q L ih => rw [pendL_cons, ih, gateL_one, mul_one]
  rw [this]; rfl

/-- The state after the flush and the relocation of `get_state` and `dump`. -/
theorem arrange_spec {env : Env} (he : env.eps = 0) {s : Sim} (hw : WF s) :
    ∃ s1 s2, s.flushQueue env s.idMap.keys .HRxRy = .ok s1 ∧
      s1.relocate env 0 s.idMap.keys = .ok s2 ∧ WF s2 ∧ Quiet s2 ∧ s2.rng = s.rng ∧
      (∀ i, (s2.idMap.get i).isSome = (s.idMap.get i).isSome) ∧ abs s2 = abs s ∧
      abs s2 = view s2.idMap s2.state ∧
      ∀ j (hj : j < s.idMap.keys.length), s2.idMap.get s.idMap.keys[j] = some j := by
  obtain ⟨s1, h1, hs1, hc1, ho1⟩ := flushQueue_spec he .HRxRy s.idMap.keys hw
  have hq1 : Quiet s1 := by
    refine ⟨ho1, ?_⟩
    intro q
    by_cases hq : q ∈ s.idMap.keys
    · exact hc1.not_queued hq
    · apply not_queued_of_none hs1.wf
      rw [hs1.idMap]
      rw [IMap.mem_keys] at hq
      simpa using hq
  obtain ⟨s2, h2, hr, hg⟩ := relocate_spec (env := env) s.idMap.keys [] s1 hs1.wf.b.core hq1
    (IMap.keys_nodup _) (by
      intro i hi
      rw [hs1.idMap]
      exact (IMap.mem_keys _ _).1 hi) (by intro j hj; simp at hj)
  have habs : ∀ s : Sim, Quiet s → abs s = view s.idMap s.state := fun s hq => hq.abs
  refine ⟨s1, s2, h1, h2, ⟨⟨hr.core, by rw [hr.quiet.ops]; simp⟩, ?_⟩, hr.quiet,
    hr.rng.trans hs1.rng, ?_, ?_, habs s2 hr.quiet, ?_⟩
  · intro q hq; rw [hr.quiet.none] at hq; cases hq
  · intro i; rw [hr.some, hs1.idMap]
  · rw [habs s2 hr.quiet, hr.view, ← habs s1 hq1, hs1.abs]
  · simpa using hg

theorem view_apply_mem {m : IMap ℕ} {st : List (ℕ × ℂ)} (h : Core m st) {e : ℕ × ℂ} (he : e ∈ st) :
    view m st (idBits m e.1) = e.2 := by
  induction st with
  | nil => simp at he
  | cons a st ih =>
    have hn := h.nodup
    rw [List.map_cons, List.nodup_cons] at hn
    have hc : Core m st := ⟨h.inj, hn.2, fun e he => h.bits e (List.mem_cons_of_mem _ he)⟩
    rw [view_cons, Pi.add_apply]
    rcases List.mem_cons.1 he with rfl | he'
    · rw [view_apply_of_not_mem]
      · simp [entryWave, ket]
      · intro e' he' heq
        apply hn.1
        rw [← idBits_inj (hc.bits e' he') (h.bits e (by simp)) heq]
        exact List.mem_map.2 ⟨e', he', rfl⟩
    · rw [ih hc he']
      have : idBits m e.1 ≠ idBits m a.1 := by
        intro heq
        apply hn.1
        rw [← idBits_inj (h.bits e he) (h.bits a (by simp)) heq]
        exact List.mem_map.2 ⟨e, he', rfl⟩
      simp [entryWave, ket, this]

theorem mem_of_view {m : IMap ℕ} {st : List (ℕ × ℂ)} (h : Core m st) {k : ℕ} (hb : BitsIn m k)
    (hz : view m st (idBits m k) ≠ 0) : (k, view m st (idBits m k)) ∈ st := by
  by_contra hn
  apply hz
  apply view_apply_of_not_mem
  intro e he heq
  have hk := idBits_inj (h.bits e he) hb heq
  apply hn
  have := view_apply_mem h he
  rw [hk] at this
  rw [this]
  obtain ⟨a, b⟩ := e
  simp only at hk
  rw [← hk]
  exact he

theorem sortState_perm (l : List (ℕ × ℂ)) : (sortState l).Perm l := List.mergeSort_perm _ _

theorem sortState_sorted {l : List (ℕ × ℂ)} (h : (l.map Prod.fst).Nodup) :
    (sortState l).Pairwise (fun a b => a.1 < b.1) := by
  have h1 : (sortState l).Pairwise (fun a b => decide (a.1 ≤ b.1) = true) :=
    List.pairwise_mergeSort (by intro a b c; simp only [decide_eq_true_eq]; omega)
      (by intro a b; simp only [Bool.or_eq_true, decide_eq_true_eq]; omega) _
  have h2 : ((sortState l).map Prod.fst).Nodup := (sortState_perm l).map _ |>.nodup_iff.2 h
  rw [List.nodup_iff_pairwise_ne, List.pairwise_map] at h2
  exact (h1.and h2).imp (by
    rintro a b ⟨h3, h4⟩
    simp only [decide_eq_true_eq] at h3
    omega)

theorem idBits_eq_indexed {m : IMap ℕ} {L : List ℕ} (hn : L.Nodup) (hk : ∀ q, q ∈ L ↔ (m.get q).isSome)
    (hg : ∀ j (hj : j < L.length), m.get L[j] = some j) (k : ℕ) : idBits m k = indexed L k := by
  funext q
  unfold idBits indexed
  by_cases hq : q ∈ L
  · have h1 := List.idxOf_lt_length_iff.2 hq
    have h2 := hg _ h1
    rw [List.getElem_idxOf h1] at h2
    simp [hq, h2]
  · have h1 : m.get q = none := by
      rw [hk] at hq; simpa using hq
    simp [hq, h1]

theorem bitsIn_iff {m : IMap ℕ} {L : List ℕ} (hn : L.Nodup) (hk : ∀ q, q ∈ L ↔ (m.get q).isSome)
    (hg : ∀ j (hj : j < L.length), m.get L[j] = some j) (k : ℕ) : BitsIn m k ↔ k < 2 ^ L.length := by
  constructor
  · intro h
    apply Nat.lt_pow_two_of_testBit
    intro i hi
    by_contra hb
    obtain ⟨q, hq⟩ := h i (by simpa using hb)
    have hm : q ∈ L := (hk q).2 (by rw [hq]; rfl)
    have h1 := List.idxOf_lt_length_iff.2 hm
    have h2 := hg _ h1
    rw [List.getElem_idxOf h1, hq] at h2
    cases h2
    omega
  · intro h l hl
    have : l < L.length := by
      by_contra hc
      rw [Nat.testBit_lt_two_pow (lt_of_lt_of_le h (Nat.pow_le_pow_right (by norm_num) (by omega)))] at hl
      cases hl
    exact ⟨_, hg l this⟩

theorem arranged_lists {m : IMap ℕ} {st : List (ℕ × ℂ)} (h : Core m st) {L : List ℕ} (hn : L.Nodup)
    (hk : ∀ q, q ∈ L ↔ (m.get q).isSome)
    (hg : ∀ j (hj : j < L.length), m.get L[j] = some j) :
    Lists L (view m st) (sortState st) := by
  refine ⟨sortState_sorted h.nodup, ?_, ?_⟩
  · intro e he
    rw [(sortState_perm st).mem_iff] at he
    rw [← bitsIn_iff hn hk hg, ← idBits_eq_indexed hn hk hg]
    exact ⟨h.bits e he, (view_apply_mem h he).symm⟩
  · intro k hk' hz
    rw [(sortState_perm st).mem_iff]
    rw [← bitsIn_iff hn hk hg] at hk'
    rw [← idBits_eq_indexed hn hk hg] at hz ⊢
    exact mem_of_view h hk' hz

theorem getState_spec {env : Env} (he : env.eps = 0) {s : Sim} (hw : WF s) :
    ∃ l s', s.getState env = .ok ((l, s.idMap.keys.length), s') ∧ WF s' ∧ s'.rng = s.rng ∧
      (∀ i, (s'.idMap.get i).isSome = (s.idMap.get i).isSome) ∧ abs s' = abs s ∧
      Lists s.idMap.keys (abs s) l := by
  obtain ⟨s1, s2, h1, h2, hw2, hq2, hr, hsome, habs, hv, hg⟩ := arrange_spec he hw
  refine ⟨sortState s2.state, s2, ?_, hw2, hr, hsome, habs, ?_⟩
  · unfold getState
    simp only [show s.idMap.iter.map Prod.fst = s.idMap.keys from rfl, h1, h2, ok_bind, pure_ok]
  · rw [← habs, hv]
    exact arranged_lists hw2.b.core (IMap.keys_nodup _)
      (by intro q; rw [hsome]; exact IMap.mem_keys _ _) hg

theorem dump_spec {env : Env} (he : env.eps = 0) (fmt : ℂ → String) {s : Sim} (hw : WF s) :
    ∃ l s', s.dump env fmt = .ok (dumpText fmt l, s') ∧ WF s' ∧ s'.rng = s.rng ∧
      (∀ i, (s'.idMap.get i).isSome = (s.idMap.get i).isSome) ∧ abs s' = abs s ∧
      Lists s.idMap.keys (abs s) l := by
  obtain ⟨s1, s2, h1, h2, hw2, hq2, hr, hsome, habs, hv, hg⟩ := arrange_spec he hw
  have hp := sortState_perm s2.state
  have hc := hw2.b.core
  refine ⟨sortState s2.state, { s2 with state := sortState s2.state }, ?_, ⟨⟨⟨hc.inj, ?_, ?_⟩, hw2.b.ops⟩, hw2.queued⟩, hr, hsome, ?_, ?_⟩
  · unfold dump
    simp only [show s.idMap.iter.map Prod.fst = s.idMap.keys from rfl, h1, h2, ok_bind, pure_ok]
  · exact (hp.map _).nodup_iff.2 hc.nodup
  · intro e h; exact hc.bits e (hp.mem_iff.1 h)
  · rw [← habs]
    unfold Qir.abs base
    simp only [view_perm hp]
    rfl
  · rw [← habs, hv]
    exact arranged_lists hw2.b.core (IMap.keys_nodup _)
      (by intro q; rw [hsome]; exact IMap.mem_keys _ _) hg

end Qir
