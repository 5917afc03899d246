import Verif.Proof.Generic

/-! # The gates under an arbitrary arithmetic -/

namespace Qir
namespace Gen
open Function
open Qir.Sim (resolveId resolveIds indexId resolveAndCheck checkForDuplicates firstFree locMask oddParity findByLoc
  ExpMasks expMasks expCheckDup)

variable {F : Type} {N : Num F}

theorem OpndsOk.target {m : IMap ℕ} {cs : List ℕ} {t : ℕ} (h : OpndsOk m cs t) : (m.get t).isSome := h.2 t (by simp)

theorem Down.ok {s s1 : GSim F} (hd : Down s s1) {cs : List ℕ} {t : ℕ} (h : OpndsOk s.idMap cs t) :
    OpndsOk s1.idMap cs t := by rw [hd.idMap]; exact h

theorem mcx_goes {s : GSim F} (h : Inv s) {cs : List ℕ} {t : ℕ} (hok : OpndsOk s.idMap cs t) :
    Goes (Down s) (mcx N cs t s) := by
  cases cs with
  | nil => exact x_goes h (OpndsOk.target hok)
  | cons c0 cs =>
    unfold mcx
    simp only
    refine Goes.bind (flushIf_down _ _ _ h) fun s1 hd1 => ?_
    refine Goes.bind (s := s1) ?_ fun s2 hd2 => ?_
    · unfold mcxFlushCtls
      split
      · exact maybeFlush_down _ hd1.inv
      · exact flushIf_down _ _ _ hd1.inv
    · have hd := hd1.trans hd2
      have hok2 := hd.ok hok
      split
      · split
        · rename_i _ hl
          have : cs = [] := by
            have := hl.1
            simpa using this
          subst this
          refine enqueueOp_goes hd2.inv _ ⟨?_, ?_⟩
          · have := hok2.1
            simp only [List.cons_append, List.nil_append, List.nodup_cons, List.mem_singleton] at this ⊢
            exact ⟨fun e => this.1 e.symm, by simp⟩
          · intro i hi
            apply hok2.2
            simp only [List.cons_append, List.nil_append, List.mem_cons, List.not_mem_nil, or_false] at hi ⊢
            exact hi.symm
        · exact enqueueOp_goes hd2.inv _ hok2
      · exact enqueueOp_goes hd2.inv _ hok2

theorem opnds_tail {m : IMap ℕ} {c0 : ℕ} {cs : List ℕ} {t : ℕ} (h : OpndsOk m (c0 :: cs) t) : OpndsOk m cs c0 := by
  have h1 := h.1
  rw [List.cons_append, List.nodup_cons] at h1
  refine ⟨?_, ?_⟩
  · rw [List.nodup_append]
    refine ⟨(List.nodup_append.1 h1.2).1, by simp, ?_⟩
    intro a ha b hb hab
    simp only [List.mem_singleton] at hb
    subst hb hab
    exact h1.1 (by simp [ha])
  · intro i hi
    apply h.2
    simp only [List.mem_append, List.mem_cons, List.not_mem_nil, or_false] at hi ⊢
    rcases hi with hi | hi
    · exact .inl (.inr hi)
    · exact .inl (.inl hi)

theorem mcy_goes {s : GSim F} (h : Inv s) {cs : List ℕ} {t : ℕ} (hok : OpndsOk s.idMap cs t) :
    Goes (Down s) (mcy N cs t s) := by
  cases cs with
  | nil => exact y_goes h (OpndsOk.target hok)
  | cons c0 cs =>
    unfold mcy
    simp only
    refine Goes.bind (maybeFlush_down _ h) fun s1 hd1 => ?_
    refine Goes.bind (flushIf_down _ _ _ hd1.inv) fun s2 hd2 => ?_
    have hd12 := hd1.trans hd2
    refine Goes.bind (s := s2) ?_ fun s3 hd3 => ?_
    · unfold enqueueIf
      split
      · exact enqueueOp_goes hd2.inv _ (opnds_tail (hd12.ok hok))
      · exact ⟨s2, rfl, Down.refl hd2.inv⟩
    · exact enqueueOp_goes hd3.inv _ ((hd12.trans hd3).ok hok)

theorem opnds_exchange {m : IMap ℕ} {cs : List ℕ} {t hCtl : ℕ} (hok : OpndsOk m cs t) (hmem : hCtl ∈ cs) :
    OpndsOk m (cs.map (fun c => if c = hCtl then t else c)) hCtl := by
  have htc : t ∉ cs := hok.not_mem
  have hne : hCtl ≠ t := by rintro rfl; exact htc hmem
  have hnd : cs.Nodup := (List.nodup_append.1 hok.1).1
  have hmem' : ∀ r, r ∈ cs.map (fun c => if c = hCtl then t else c) → r = t ∨ (r ∈ cs ∧ r ≠ hCtl) := by
    intro r hr
    obtain ⟨c, hc, rfl⟩ := List.mem_map.1 hr
    split
    · left; rfl
    · rename_i h; right; exact ⟨hc, h⟩
  refine ⟨?_, ?_⟩
  · rw [List.nodup_append]
    refine ⟨?_, by simp, ?_⟩
    · apply List.Nodup.map_on _ hnd
      intro a ha b hb hab
      by_cases h1 : a = hCtl <;> by_cases h2 : b = hCtl
      · rw [h1, h2]
      · simp only [h1, h2, if_true, if_false] at hab
        exact absurd hb (by rw [← hab]; exact htc)
      · simp only [h1, h2, if_true, if_false] at hab
        exact absurd ha (by rw [hab]; exact htc)
      · simpa [h1, h2] using hab
    · intro a ha b hb
      simp only [List.mem_singleton] at hb
      rw [hb]
      rcases hmem' a ha with h | ⟨_, h⟩
      · rw [h]; exact Ne.symm hne
      · exact h
  · intro i hi
    apply hok.2
    rw [List.mem_append, List.mem_singleton] at hi
    rw [List.mem_append, List.mem_singleton]
    rcases hi with hi | hi
    · rcases hmem' i hi with h | h
      · exact Or.inr h
      · exact Or.inl h.1
    · rw [hi]; exact Or.inl hmem

theorem mcz_goes {s : GSim F} (h : Inv s) {cs : List ℕ} {t : ℕ} (hok : OpndsOk s.idMap cs t) :
    Goes (Down s) (mcz N cs t s) := by
  cases cs with
  | nil => exact z_goes h (OpndsOk.target hok)
  | cons c0 cs =>
    unfold mcz
    simp only
    split
    · split
      · rename_i hCtl hf
        exact enqueueOp_goes h _ (opnds_exchange hok (List.mem_of_find?_eq_some hf))
      · exact enqueueOp_goes h _ hok
    · refine Goes.bind (flushQueue_down _ _ h) fun s1 hd1 => ?_
      refine Goes.bind (flushQueue_down _ _ hd1.inv) fun s2 hd2 => ?_
      exact enqueueOp_goes hd2.inv _ ((hd1.trans hd2).ok hok)

/-- Changing only amplitudes. -/
theorem Down.map {s : GSim F} (h : Inv s) {st : List (ℕ × Cx F)} (hc : GCore s.idMap st) :
    Down s { s with state := st } :=
  ⟨⟨hc, h.ops, h.bound, h.h, h.rx, h.ry⟩, rfl, rfl, fun _ h => h, fun _ h => h, fun _ h => h⟩

theorem mcphase_goes {s : GSim F} (h : Inv s) {cs : List ℕ} {t : ℕ} (φ : Cx F) (hok : OpndsOk s.idMap cs t) :
    Goes (Down s) (mcphase N cs φ t s) := by
  unfold mcphase
  refine Goes.bind (flushQueue_down _ _ h) fun s1 hd1 => ?_
  refine Goes.bind (flushQueue_down _ _ hd1.inv) fun s2 hd2 => ?_
  obtain ⟨tl, csl, hr, htl, hcs⟩ := resolveAndCheck_ok ((hd1.trans hd2).ok hok)
  refine ⟨_, by rw [hr, ok_bind]; rfl, Down.map hd2.inv ?_⟩
  apply hd2.inv.core.mapKey
  intro e
  split
  · unfold phaseTransform; split <;> rfl
  · rfl

theorem diagGate_goes {s : GSim F} (h : Inv s) {t : ℕ} (op : GOp F) (ht : (s.idMap.get t).isSome) :
    Goes (Down s) (diagGate N op t s) := by
  unfold diagGate
  refine Goes.bind (maybeFlush_down _ h) fun s1 hd1 => ?_
  exact enqueueOp_goes hd1.inv _ (hd1.ok (single_ok ht))

theorem mcDiagGate_goes {s : GSim F} (h : Inv s) {cs : List ℕ} {t : ℕ} (op : GOp F) (hok : OpndsOk s.idMap cs t) :
    Goes (Down s) (mcDiagGate N op cs t s) := by
  unfold mcDiagGate
  refine Goes.bind (maybeFlush_down _ h) fun s1 hd1 => ?_
  refine Goes.bind (maybeFlush_down _ hd1.inv) fun s2 hd2 => ?_
  exact enqueueOp_goes hd2.inv _ ((hd1.trans hd2).ok hok)

theorem mch_goes {s : GSim F} (h : Inv s) {cs : List ℕ} {t : ℕ} (hok : OpndsOk s.idMap cs t) :
    Goes (Down s) (mch N cs t s) := by
  unfold mch
  refine Goes.bind (flushQueue_down _ _ h) fun s1 hd1 => ?_
  refine Goes.bind (flushIf_down _ _ _ hd1.inv) fun s2 hd2 => ?_
  exact applyMch_goes hd2.inv ((hd1.trans hd2).ok hok)

theorem mcrx_goes {s : GSim F} (h : Inv s) {cs : List ℕ} {t : ℕ} (θ : F) (hok : OpndsOk s.idMap cs t) :
    Goes (Down s) (mcrx N cs θ t s) := by
  unfold mcrx
  refine Goes.bind (flushQueue_down _ _ h) fun s1 hd1 => ?_
  have key : ∀ s2, Down s1 s2 → Goes (Down s2) (mcrotation N (mcx N cs t) cs θ t false s2) := by
    intro s2 hd2
    have hok2 := (hd1.trans hd2).ok hok
    exact mcrotation_goes hd2.inv hok2 (mcx_goes hd2.inv hok2) _ _
  dsimp only
  split
  · exact Goes.bind (flushQueue_down _ _ hd1.inv) key
  · exact Goes.bind (flushIf_down _ _ _ hd1.inv) key

theorem mcry_goes {s : GSim F} (h : Inv s) {cs : List ℕ} {t : ℕ} (θ : F) (hok : OpndsOk s.idMap cs t) :
    Goes (Down s) (mcry N cs θ t s) := by
  unfold mcry
  refine Goes.bind (flushQueue_down _ _ h) fun s1 hd1 => ?_
  have key : ∀ s2, Down s1 s2 → Goes (Down s2) (mcrotation N (mcy N cs t) cs θ t true s2) := by
    intro s2 hd2
    have hok2 := (hd1.trans hd2).ok hok
    exact mcrotation_goes hd2.inv hok2 (mcy_goes hd2.inv hok2) _ _
  dsimp only
  split
  · exact Goes.bind (flushQueue_down _ _ hd1.inv) key
  · exact Goes.bind (flushIf_down _ _ _ hd1.inv) key

/-! ### The exponential -/

theorem mem_prune {c : Bool} {k a : ℕ} {v : Cx F} (h : k ∈ (if c = true then [] else [(a, v)]).map Prod.fst) : k = a := by
  cases c
  · simpa using h
  · simp at h

theorem nodup_prune {c d : Bool} {a b : ℕ} {v w : Cx F} (h : a ≠ b) :
    (((if c = true then [] else [(a, v)]) ++ (if d = true then [] else [(b, w)])).map Prod.fst).Nodup := by
  cases c <;> cases d <;> simp [h]

theorem core_exp {m : IMap ℕ} {cs csl : List ℕ} {P : List (Spec.Pauli × ℕ)} {mk : ExpMasks}
    (h : MaskOk m cs csl P mk) {l : List (ℕ × Cx F)} (hcore' : GCore m l) (hx : mk.xy ≠ 0) (a b c : Cx F) :
    GCore m (l.flatMap (expEntry N l csl mk.xy mk.yz a b c)) := by
  have hp := pairing_exp h hx
  have hne := hp.ne
  have h2 : ∀ e ∈ l, ∀ k ∈ ((expEntry N l csl mk.xy mk.yz a b c e).map Prod.fst),
      k = e.1 ∨ ((csl.all fun c => e.1.testBit c) = true ∧ k = e.1 ^^^ mk.xy) := by
    intro e _ k hk
    unfold expEntry at hk
    split at hk
    · rename_i hc
      simp only at hk
      split at hk
      · simp only [List.map_cons, List.map_nil, List.mem_cons, List.not_mem_nil, or_false] at hk
        rcases hk with rfl | rfl
        · left; rfl
        · right; exact ⟨hc, rfl⟩
      · split at hk
        · rw [List.map_append, List.mem_append] at hk
          rcases hk with hk | hk
          · left; exact mem_prune hk
          · right; exact ⟨hc, mem_prune hk⟩
        · simp at hk
    · left; simpa using hk
  refine ⟨hcore'.inj, ?_, ?_⟩
  · refine pair_nodup hcore'.nodup _ hp ?_ h2 ?_
    · intro e _
      have hn1 : e.1 ≠ e.1 ^^^ mk.xy := fun hc => hne e.1 hc.symm
      unfold expEntry
      split
      · simp only
        split
        · simp only [List.map_cons, List.map_nil]
          simp [hn1]
        · split
          · exact nodup_prune hn1
          · simp
      · simp
    · intro e _ w hc hw hr
      have hr' : ¬ e.1 < e.1 ^^^ mk.xy := by simpa using hr
      simp only [expEntry, hc, if_true, hw, hr', if_false]
  · intro e hm
    obtain ⟨e', he', hm'⟩ := List.mem_flatMap.1 hm
    rcases h2 e' he' e.1 (List.mem_map.2 ⟨e, hm', rfl⟩) with h1 | ⟨_, h1⟩
    · rw [h1]; exact hcore'.bits e' he'
    · rw [h1]
      intro b hb
      rw [Nat.testBit_xor] at hb
      cases hxb : mk.xy.testBit b
      · rw [hxb] at hb; exact hcore'.bits e' he' b (by simpa using hb)
      · obtain ⟨i, _, hi⟩ := h.bits b hxb; exact ⟨i, hi⟩

theorem core_expState {m : IMap ℕ} {cs csl : List ℕ} {P : List (Spec.Pauli × ℕ)} {mk : ExpMasks}
    (h : MaskOk m cs csl P mk) {st : List (ℕ × Cx F)} (hcore : GCore m st) (θ : F) :
    GCore m (expState N csl mk θ st) := by
  unfold expState
  simp only
  split
  · unfold expDiag
    simp only
    split
    · apply hcore.filterKey
      intro e e' he
      split at he
      · cases he; rfl
      · cases he
    · split
      · apply hcore.filterKey
        intro e e' he
        split at he
        · cases he; rfl
        · cases he
      · apply hcore.mapKey
        intro e; split <;> rfl
  · rename_i hx
    exact core_exp h (hcore.shuffled N) hx _ _ _

/-- The masks `mcexp` computes, for any operands it accepts. -/
theorem maskOk_of {m : IMap ℕ} (hinj : Inj m) {cs ts : List ℕ} {ps : List MPauli} (hn : (cs ++ ts).Nodup)
    (ha : Alloc m (cs ++ ts)) (hlen : ps.length ≤ ts.length) :
    ∃ csl tsl mk, resolveIds m cs = .ok csl ∧ resolveIds m ts = .ok tsl ∧ (csl ++ tsl).Nodup ∧
      expMasks ps tsl { xy := 0, yz := 0, yCount := 0 } = .ok mk ∧ MaskOk m cs csl (factors ps ts) mk := by
  obtain ⟨csl, hcs⟩ := resolveIds_ok (m := m) (ids := cs) (fun i hi => ha i (by simp [hi]))
  obtain ⟨tsl, hts⟩ := resolveIds_ok (m := m) (ids := ts) (fun i hi => ha i (by simp [hi]))
  have hcs' := resolveIds_eq_ok.1 hcs
  have hts' := resolveIds_eq_ok.1 hts
  have hnl : (csl ++ tsl).Nodup := locs_nodup hinj (List.rel_append hcs' hts') hn
  have hsub := factors_snd_sublist ps ts
  have hnod := List.nodup_append.1 hn
  obtain ⟨mk, hmk, hx, hz, hy⟩ := expMasks_spec ps tsl { xy := 0, yz := 0, yCount := 0 }
    (by rw [← hts'.length_eq]; exact hlen)
  refine ⟨csl, tsl, mk, hcs, hts, hnl, hmk, hinj, hcs', hsub.nodup hnod.2.1, ?_, ?_, ?_, ?_, ?_⟩
  · intro c hc hc2
    exact hnod.2.2 c hc c (hsub.mem hc2) rfl
  · exact idBits_xor hinj (factors_forall₂ hts' ps isXY) (by intro l; rw [hx]; simp only [Nat.zero_testBit, Bool.false_or]; rfl)
  · intro k
    have hf := factors_forall₂ hts' ps isYZ
    have hyz : mk.yz = locMask (yzOf (factors ps tsl)) := by
      apply Nat.eq_of_testBit_eq
      intro l
      rw [hz, testBit_locMask]; simp
    rw [hyz]
    apply oddParity_eq hinj hf
    exact ((List.filter_sublist).map _).nodup (hsub.nodup hnod.2.1)
  · rw [hy, yOf_congr hts'.length_eq]; simp
  · intro l hl
    rw [hx] at hl
    simp only [Nat.zero_testBit, Bool.false_or, decide_eq_true_eq] at hl
    have hf := factors_forall₂ hts' ps isXY
    have hex : ∀ {ids locs : List ℕ}, List.Forall₂ (fun i l => m.get i = some l) ids locs →
        l ∈ locs → ∃ i ∈ ids, m.get i = some l := by
      intro ids locs h
      induction h with
      | nil => simp
      | cons h1 _ ih =>
        intro hm
        rcases List.mem_cons.1 hm with rfl | hm
        · exact ⟨_, by simp, h1⟩
        · obtain ⟨i, hi, hg⟩ := ih hm
          exact ⟨i, by simp [hi], hg⟩
    obtain ⟨i, hi, hg⟩ := hex hf hl
    refine ⟨i, ?_, hg⟩
    intro hc
    exact hnod.2.2 i hc i (hsub.mem (mem_xyOf_snd hi)) rfl

theorem mcexp_goes {s : GSim F} (h : Inv s) {cs ts : List ℕ} {ps : List MPauli} (θ : F) (hn : (cs ++ ts).Nodup)
    (ha : Alloc s.idMap (cs ++ ts)) (hlen : ps.length ≤ ts.length) : Goes (Down s) (mcexp N cs ps θ ts s) := by
  unfold mcexp
  refine Goes.bind (flushQueue_down _ _ h) fun s1 hd1 => ?_
  refine Goes.bind (flushQueue_down _ _ hd1.inv) fun s2 hd2 => ?_
  have hid := (hd1.trans hd2).idMap
  rw [← hid] at ha
  obtain ⟨csl, tsl, mk, hcs, hts, hnl, hmk, hok⟩ := maskOk_of hd2.inv.core.inj hn ha hlen
  refine ⟨_, by simp only [hcs, hts, ok_bind, expCheckDup_eq, if_pos hnl, hmk]; rfl, Down.map hd2.inv ?_⟩
  exact core_expState hok hd2.inv.core θ

/-! ### Gates that leave something queued -/

/-- A call that keeps the qubits and the stream of samples. -/
structure Stays (s s' : GSim F) : Prop where
  inv : Inv s'
  live : ∀ i, (s'.idMap.get i).isSome = (s.idMap.get i).isSome
  rng : s'.rng = s.rng

theorem Down.stays {s s' : GSim F} (h : Down s s') : Stays s s' := ⟨h.inv, fun _ => by rw [h.idMap], h.rng⟩

theorem h_goes {s : GSim F} (hi : Inv s) {t : ℕ} (ht : (s.idMap.get t).isSome) : Goes (Stays s) (h N t s) := by
  have hd0 := Down.modifyRy hi t (fun a => N.mul a (N.neg N.one))
  obtain ⟨s1, h1, hd1⟩ := flushIf_down (N := N)
    ({ s with ryQ := s.ryQ.modify t (fun a => N.mul a (N.neg N.one)) }.rxQ.containsKey t) .HRx [t] hd0.inv
  have hd := hd0.trans hd1
  refine ⟨{ s1 with hFlag := setBit s1.hFlag t (!s1.hFlag.testBit t) }, by unfold h; simp only [h1, ok_bind]; rfl,
     ⟨⟨hd.inv.core, hd.inv.ops, hd.inv.bound, ?_, hd.inv.rx, hd.inv.ry⟩,
    fun i => by simp only [hd.idMap], hd.rng⟩⟩
  intro q hq
  simp only [testBit_setBit] at hq
  split at hq
  · rename_i hqt
    subst hqt
    simp only [hd.idMap]; exact ht
  · exact hd.inv.h q hq

theorem addAngle_some {q : IMap F} {t i : ℕ} {θ : F} (h : ((addAngle N q t θ).get i).isSome = true) :
    i = t ∨ (q.get i).isSome = true := by
  unfold addAngle at h
  cases hg : q.get t with
  | none =>
    rw [hg] at h
    simp only [IMap.get_insert] at h
    split at h
    · rename_i hi; exact .inl hi
    · exact .inr h
  | some a =>
    rw [hg] at h
    simp only at h
    split at h
    · have := isSome_remove h
      rw [isSome_modify] at this
      exact .inr this
    · rw [isSome_modify] at h; exact .inr h

theorem rx_goes {s : GSim F} (hi : Inv s) {t : ℕ} (θ : F) (ht : (s.idMap.get t).isSome) :
    Goes (Stays s) (rx N θ t s) := by
  obtain ⟨s1, h1, hd⟩ := flushIf_down (N := N) (s.hFlag.testBit t || s.ryQ.containsKey t) .HRxRy [t] hi
  refine ⟨{ s1 with rxQ := addAngle N s1.rxQ t θ }, by unfold rx; simp only [h1, ok_bind]; rfl,
     ⟨⟨hd.inv.core, hd.inv.ops, hd.inv.bound, hd.inv.h, ?_, hd.inv.ry⟩,
    fun i => by simp only [hd.idMap], hd.rng⟩⟩
  intro q hq
  rcases addAngle_some hq with rfl | hq
  · simp only [hd.idMap]; exact ht
  · exact hd.inv.rx q hq

theorem ry_goes {s : GSim F} (hi : Inv s) {t : ℕ} (θ : F) (ht : (s.idMap.get t).isSome) :
    Goes (Stays s) (ry N θ t s) := by
  refine ⟨_, rfl, ⟨⟨hi.core, hi.ops, hi.bound, hi.h, hi.rx, ?_⟩, fun _ => rfl, rfl⟩⟩
  intro q hq
  rcases addAngle_some hq with rfl | hq
  · exact ht
  · exact hi.ry q hq

theorem gateCall_goes {s : GSim F} (hi : Inv s) {t : ℕ} (ht : (s.idMap.get t).isSome) (g : GGate F) :
    Goes (Stays s) (gateCall N t g s) := by
  cases g with
  | x => exact (x_goes hi ht).mono fun _ h => h.stays
  | y => exact (y_goes hi ht).mono fun _ h => h.stays
  | z => exact (z_goes hi ht).mono fun _ h => h.stays
  | h => exact h_goes hi ht
  | s => exact (diagGate_goes hi _ ht).mono fun _ h => h.stays
  | sadj => exact (diagGate_goes hi _ ht).mono fun _ h => h.stays
  | t => exact (diagGate_goes hi _ ht).mono fun _ h => h.stays
  | tadj => exact (diagGate_goes hi _ ht).mono fun _ h => h.stays
  | rx θ => exact rx_goes hi θ ht
  | ry θ => exact ry_goes hi θ ht
  | rz θ => exact (diagGate_goes hi _ ht).mono fun _ h => h.stays

theorem ctrlCall_goes {s : GSim F} (hi : Inv s) {cs : List ℕ} {t : ℕ} (hok : OpndsOk s.idMap cs t) (g : GGate F) :
    Goes (Stays s) (ctrlCall N cs t g s) := by
  refine Goes.mono (P := Down s) ?_ fun _ h => h.stays
  cases g with
  | x => exact mcx_goes hi hok
  | y => exact mcy_goes hi hok
  | z => exact mcz_goes hi hok
  | h => exact mch_goes hi hok
  | rx θ => exact mcrx_goes hi θ hok
  | ry θ => exact mcry_goes hi θ hok
  | _ => exact mcDiagGate_goes hi _ hok

end Gen
end Qir
