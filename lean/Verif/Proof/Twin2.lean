import Verif.Proof.Twin
import Verif.Proof.Exp
import Verif.Model.Api

/-! Twin runs: exponentials, measurement, identifiers, state dumps and whole histories. -/

noncomputable section
namespace Qir
open Spec Function Sim

variable {env env' : Env}

/-! ### Exponentials -/

theorem expMasks_bits : ∀ (ps : List MPauli) (ts : List ℕ) (mk mk' : ExpMasks), expMasks ps ts mk = .ok mk' →
    ∀ b, mk'.xy.testBit b = true → mk.xy.testBit b = true ∨ b ∈ ts := by
  intro ps
  induction ps with
  | nil => intro ts mk mk' h b hb; simp only [expMasks] at h; cases h; exact .inl hb
  | cons p ps ih =>
    intro ts mk mk' h b hb
    cases p with
    | I =>
      simp only [expMasks] at h
      rcases ih _ _ _ h b hb with h1 | h1
      · exact .inl h1
      · exact .inr (List.mem_of_mem_tail h1)
    | X =>
      cases ts with
      | nil => simp [expMasks] at h
      | cons t ts =>
        simp only [expMasks] at h
        rcases ih _ _ _ h b hb with h1 | h1
        · rw [testBit_setBit] at h1
          split at h1
          · rename_i hbt; right; simp [hbt]
          · exact .inl h1
        · exact .inr (List.mem_cons_of_mem _ h1)
    | Y =>
      cases ts with
      | nil => simp [expMasks] at h
      | cons t ts =>
        simp only [expMasks] at h
        rcases ih _ _ _ h b hb with h1 | h1
        · rw [testBit_setBit] at h1
          split at h1
          · rename_i hbt; right; simp [hbt]
          · exact .inl h1
        · exact .inr (List.mem_cons_of_mem _ h1)
    | Z =>
      cases ts with
      | nil => simp [expMasks] at h
      | cons t ts =>
        simp only [expMasks] at h
        rcases ih _ _ _ h b hb with h1 | h1
        · exact .inl h1
        · exact .inr (List.mem_cons_of_mem _ h1)

theorem mem_locs_source {m : IMap ℕ} {ids locs : List ℕ}
    (h : List.Forall₂ (fun i l => m.get i = some l) ids locs) {l : ℕ} (hl : l ∈ locs) :
    ∃ i, i ∈ ids ∧ m.get i = some l := by
  induction h with
  | nil => simp at hl
  | cons h1 _ ih =>
    rcases List.mem_cons.1 hl with rfl | hl
    · exact ⟨_, by simp, h1⟩
    · obtain ⟨i, hi, hg⟩ := ih hl
      exact ⟨i, by simp [hi], hg⟩

theorem core_expMixed {m : IMap ℕ} {l : List (ℕ × ℂ)} (hcore : Core m l) (eps : ℝ) {csl : List ℕ} {xy : ℕ}
    (hx : xy ≠ 0) (hxc : ∀ c ∈ csl, xy.testBit c = false) (hxa : BitsIn m xy) (yz : ℕ) (a b c : ℂ) :
    Core m (l.flatMap (expEntry eps l csl xy yz a b c)) := by
  have hne : ∀ k, k ^^^ xy ≠ k := by
    intro k hk
    apply hx
    have : k ^^^ (k ^^^ xy) = k ^^^ k := by rw [hk]
    rwa [← Nat.xor_assoc, Nat.xor_self, Nat.zero_xor] at this
  have hp : Pairing (fun k => k ^^^ xy) (fun k => csl.all fun c => k.testBit c)
      (fun k => decide (k < k ^^^ xy)) := by
    refine ⟨?_, hne, ?_, ?_⟩
    · intro k; rw [Nat.xor_assoc, Nat.xor_self, Nat.xor_zero]
    · intro k
      rw [Bool.eq_iff_iff, List.all_eq_true, List.all_eq_true]
      constructor <;> intro h c hc <;> have := h c hc <;> simpa [Nat.testBit_xor, hxc c hc] using this
    · intro k
      have hk := hne k
      simp only [Nat.xor_assoc, Nat.xor_self, Nat.xor_zero]
      by_cases hlt : k < k ^^^ xy
      · simp [hlt, Nat.le_of_lt hlt]
      · have : k ^^^ xy < k := by omega
        simp [hlt, this]
  have h2 : ∀ e ∈ l, ∀ k ∈ ((expEntry eps l csl xy yz a b c e).map Prod.fst),
      k = e.1 ∨ ((csl.all fun c => e.1.testBit c) = true ∧ k = e.1 ^^^ xy) := by
    intro e _ k hk
    unfold expEntry at hk
    split at hk
    · rename_i hc
      simp only at hk
      split at hk
      · simp only [List.map_cons, List.map_nil, List.mem_cons, List.not_mem_nil, or_false] at hk
        rcases hk with rfl | rfl
        · left; rfl
        · right; exact ⟨hc, rfl⟩
      · split at hk
        · rw [List.map_append, List.mem_append] at hk
          rcases hk with hk | hk
          · left; exact mem_prune hk
          · right; exact ⟨hc, mem_prune hk⟩
        · simp at hk
    · left; simpa using hk
  refine ⟨hcore.inj, ?_, ?_⟩
  · refine pair_nodup hcore.nodup _ hp ?_ h2 ?_
    · intro e _
      have hn1 : e.1 ≠ e.1 ^^^ xy := fun hc => hne e.1 hc.symm
      unfold expEntry
      split
      · simp only
        split
        · simp only [List.map_cons, List.map_nil]
          simp [hn1]
        · split
          · exact nodup_prune hn1
          · simp
      · simp
    · intro e _ w hc hw hr
      have hr' : ¬ e.1 < e.1 ^^^ xy := by simpa using hr
      simp only [expEntry, hc, if_true, hw, hr', if_false]
  · intro e hm
    obtain ⟨e', he', hm'⟩ := List.mem_flatMap.1 hm
    rcases h2 e' he' e.1 (List.mem_map.2 ⟨e, hm', rfl⟩) with h1 | ⟨_, h1⟩
    · rw [h1]; exact hcore.bits e' he'
    · rw [h1]
      intro b hb
      rw [Nat.testBit_xor] at hb
      cases hxb : xy.testBit b
      · rw [hxb] at hb; exact hcore.bits e' he' b (by simpa using hb)
      · exact hxa b hxb

theorem core_expDiag {m : IMap ℕ} {st : List (ℕ × ℂ)} (h : Core m st) (eps : ℝ) (csl : List ℕ) (yz : ℕ) (a b : ℂ) :
    Core m (expDiag eps csl yz a b st) := by
  unfold expDiag
  simp only
  split
  · exact core_filterMap h (fun e => (csl.all (fun c => e.1.testBit c) && oddParity e.1 yz) = true) _
  · split
    · exact core_filterMap h (fun e => (csl.all (fun c => e.1.testBit c) && oddParity e.1 yz) = true) _
    · apply h.mapKey
      intro e
      split <;> rfl

theorem perm_expDiag {st st' : List (ℕ × ℂ)} (h : st'.Perm st) (eps : ℝ) (csl : List ℕ) (yz : ℕ) (a b : ℂ) :
    (expDiag eps csl yz a b st').Perm (expDiag eps csl yz a b st) := by
  unfold expDiag
  simp only
  split
  · exact h.filterMap _
  · split
    · exact h.filterMap _
    · exact h.map _

theorem expState_twin (he : env'.eps = env.eps) {m : IMap ℕ} {st st' : List (ℕ × ℂ)} (h : Core m st)
    (hp : st'.Perm st) {csl : List ℕ} {mk : ExpMasks} (hxc : ∀ c ∈ csl, mk.xy.testBit c = false)
    (hxa : BitsIn m mk.xy) (θ : ℝ) :
    Core m (expState env csl mk θ st) ∧ (expState env' csl mk θ st').Perm (expState env csl mk θ st) := by
  unfold expState
  simp only
  split
  · rw [he]; exact ⟨core_expDiag h _ _ _ _ _, perm_expDiag hp _ _ _ _ _⟩
  · rename_i hx
    have hsh := shuffle_perm2 (env := env) (env' := env') h hp
    have hcs := h.shuffled env
    rw [he, expEntry_congr (lookup_perm hcs.nodup hsh)]
    exact ⟨core_expMixed hcs _ hx hxc hxa _ _ _ _, hsh.flatMap_right _⟩

theorem twin_mcexp (he : env'.eps = env.eps) {s s' : Sim} (h : Twin s s') (cs : List ℕ) (ps : List MPauli)
    (θ : ℝ) (ts : List ℕ) : Both Twin (s.mcexp env cs ps θ ts) (s'.mcexp env' cs ps θ ts) := by
  unfold mcexp
  apply (twin_flushQueue he h _ _).bind
  intro s s' h
  apply (twin_flushQueue he h _ _).bind
  rintro s s' ⟨hc, st, rfl, hp⟩
  simp only
  apply Both.same
  intro csl h1
  apply Both.same
  intro tsl h2
  apply Both.same
  rintro _ h3
  apply Both.same
  intro mk h4
  apply Both.ok
  have hb : ∀ b, mk.xy.testBit b = true → b ∈ tsl := by
    intro b hb
    rcases expMasks_bits _ _ _ _ h4 b hb with h | h
    · simp at h
    · exact h
  have hn : (csl ++ tsl).Nodup := by
    rw [expCheckDup_eq] at h3
    by_contra hc
    rw [if_neg hc] at h3; cases h3
  have hxc : ∀ c ∈ csl, mk.xy.testBit c = false := by
    intro c hc
    by_contra hb'
    rw [Bool.not_eq_false] at hb'
    exact (List.nodup_append.1 hn).2.2 c hc c (hb c hb') rfl
  have hxa : BitsIn s.idMap mk.xy := by
    intro b hb'
    have := hb b hb'
    obtain ⟨i, _, hi⟩ := mem_locs_source (resolveIds_locs h2) this
    exact ⟨i, hi⟩
  obtain ⟨g1, g2⟩ := expState_twin he hc hp hxc hxa θ
  exact ⟨g1, _, rfl, g2⟩

/-! ### Probabilities and measurements -/

theorem twin_check {s s' : Sim} (h : Twin s s') (locs : List ℕ) :
    Both (fun r r' => r.1 = r'.1 ∧ Twin r.2 r'.2 ∧ r.2.idMap = s.idMap) (s.checkJointProbability locs)
      (s'.checkJointProbability locs) := by
  have ht := twin_takeOps h
  unfold checkJointProbability
  apply ht.bind
  rintro ⟨ops, a⟩ ⟨_, b⟩ ⟨rfl, ⟨h1, st', rfl, h2⟩, h0, h3⟩
  apply Both.ok
  refine ⟨?_, ⟨h3, _, rfl, h2.map _⟩, h0⟩
  simp only
  rw [foldl_cond, foldl_cond]
  congr 1
  exact (((h2.map _).map _).sum_eq).symm

theorem twin_collapse {s s' : Sim} (h : Twin s s') (locs : List ℕ) (v : Bool) (d : ℝ) :
    Twin (s.jointCollapse locs v d) (s'.jointCollapse locs v d) := by
  obtain ⟨hc, st, rfl, hp⟩ := h
  exact ⟨core_filterMap hc (fun e => oddParity e.1 (locMask locs) = v) _, _, rfl, hp.filterMap _⟩

theorem twin_jointProb (he : env'.eps = env.eps) {s s' : Sim} (h : Twin s s') (ids : List ℕ) :
    Both TwinV (s.jointProbability env ids) (s'.jointProbability env' ids) := by
  unfold jointProbability
  apply (twin_maybeFlush he h _ _).bind
  intro s s' h
  apply Both.same
  intro _ _
  rw [h.fields.1]
  apply Both.same
  intro locs _
  exact (twin_check h locs).mono fun a b h => ⟨h.1, h.2.1⟩

theorem twin_isZero (he : env'.eps = env.eps) {s s' : Sim} (h : Twin s s') (id : ℕ) :
    Both TwinV (s.qubitIsZero env id) (s'.qubitIsZero env' id) := by
  unfold qubitIsZero
  apply (twin_jointProb he h _).bind
  rintro ⟨p, a⟩ ⟨_, b⟩ ⟨rfl, h⟩
  rw [he]
  exact Both.ok ⟨rfl, h⟩

theorem Twin.next {s s' : Sim} (h : Twin s s') :
    s'.nextSample.1 = s.nextSample.1 ∧ Twin s.nextSample.2 s'.nextSample.2 := by
  obtain ⟨hc, st, rfl, hp⟩ := h
  exact ⟨rfl, hc, _, rfl, hp⟩

theorem twin_jointMeasure (he : env'.eps = env.eps) {s s' : Sim} (h : Twin s s') (ids : List ℕ) :
    Both TwinV (s.jointMeasure env ids) (s'.jointMeasure env' ids) := by
  unfold jointMeasure
  apply (twin_maybeFlush he h _ _).bind
  intro s s' h
  apply Both.same
  intro _ _
  rw [h.fields.1]
  apply Both.same
  intro locs _
  simp only [h.next.1]
  apply (twin_check h.next.2 locs).bind
  rintro ⟨p, a⟩ ⟨_, b⟩ ⟨rfl, h, _⟩
  exact Both.ok ⟨rfl, twin_collapse h _ _ _⟩

theorem oddParity_single (k loc : ℕ) : oddParity k (locMask [loc]) = k.testBit loc := by
  unfold oddParity
  rw [countOnes_mask (by simp)]
  cases h : k.testBit loc <;> simp [List.filter_cons, h]

theorem twin_measure (he : env'.eps = env.eps) {s s' : Sim} (h : Twin s s') (id : ℕ) :
    Both (fun r r' => r.1 = r'.1 ∧ Twin r.2 r'.2 ∧ ∃ loc, r.2.idMap.get id = some loc ∧
      ∀ e ∈ r.2.state, e.1.testBit loc = r.1) (s.measure env id) (s'.measure env' id) := by
  unfold Sim.measure
  apply (twin_maybeFlush he h _ _).bind
  intro s s' h
  rw [h.fields.1]
  apply Both.same
  intro loc hl
  simp only [h.next.1]
  apply (twin_check h.next.2 [loc]).bind
  rintro ⟨p, a⟩ ⟨_, b⟩ ⟨rfl, h, hid⟩
  refine Both.ok ⟨rfl, twin_collapse h _ _ _, loc, ?_, ?_⟩
  · show a.idMap.get id = _
    simp only at hid
    rw [hid]
    exact resolveId_ok hl
  · intro e hm
    simp only [jointCollapse] at hm
    obtain ⟨e', _, hee⟩ := List.mem_filterMap.1 hm
    split at hee
    · rename_i hb
      cases hee
      rw [oddParity_single] at hb
      exact hb
    · cases hee

theorem twin_force (he : env'.eps = env.eps) {s s' : Sim} (h : Twin s s') (v : Bool) (id : ℕ) :
    Both TwinV (s.forceCollapse env v id) (s'.forceCollapse env' v id) := by
  unfold forceCollapse
  apply (twin_maybeFlush he h _ _).bind
  intro s s' h
  rw [h.fields.1]
  apply Both.same
  intro loc _
  apply (twin_check h [loc]).bind
  rintro ⟨p, a⟩ ⟨_, b⟩ ⟨rfl, h, _⟩
  simp only [he]
  refine Both.ok ⟨rfl, ?_⟩
  simp only
  split
  · exact twin_collapse h _ _ _
  · exact h

/-! ### Identifiers -/

theorem twin_allocate {s s' : Sim} (h : Twin s s') :
    s.allocate.1 = s'.allocate.1 ∧ Twin s.allocate.2 s'.allocate.2 := by
  obtain ⟨hc, st, rfl, hp⟩ := h
  refine ⟨rfl, ⟨?_, hc.nodup, ?_⟩, _, rfl, hp⟩
  · have hk := (newKey_spec s.idMap).1
    have hv := newVal_fresh hc.inj
    intro i j l hi hj
    simp only [Sim.allocate, IMap.get_insert] at hi hj
    split at hi
    · split at hj
      · rename_i h1 h2; rw [h1, h2]
      · cases hi; exact absurd hj (hv j)
    · split at hj
      · cases hj; exact absurd hi (hv i)
      · exact hc.inj i j l hi hj
  · intro e hm l hl
    obtain ⟨i, hi⟩ := hc.bits e hm l hl
    refine ⟨i, ?_⟩
    simp only [Sim.allocate, IMap.get_insert]
    rw [if_neg]
    · exact hi
    · rintro rfl
      rw [(newKey_spec s.idMap).1] at hi; cases hi

theorem core_remove {m : IMap ℕ} {st : List (ℕ × ℂ)} (h : Core m st) {id : ℕ}
    (hz : ∀ loc, m.get id = some loc → ∀ e ∈ st, e.1.testBit loc = false) : Core (m.remove id) st := by
  refine ⟨?_, h.nodup, ?_⟩
  · intro i j l hi hj
    simp only [IMap.get_remove] at hi hj
    split at hi
    · cases hi
    · split at hj
      · cases hj
      · exact h.inj i j l hi hj
  · intro e hee l hl
    obtain ⟨i, hi⟩ := h.bits e hee l hl
    refine ⟨i, ?_⟩
    rw [IMap.get_remove, if_neg]
    · exact hi
    · rintro rfl
      rw [hz l hi e hee] at hl
      cases hl

theorem core_zero {m : IMap ℕ} (h : Inj m) : Core m [(0, 1)] :=
  ⟨h, by simp, by intro e he l hl; simp only [List.mem_singleton] at he; subst he; simp at hl⟩

theorem core_clear {m : IMap ℕ} {st : List (ℕ × ℂ)} (h : Core m st) {loc : ℕ}
    (hbit : ∀ e ∈ st, e.1.testBit loc = true) :
    Core m (st.map (fun e => if e.1.testBit loc then (setBit e.1 loc false, e.2) else e)) := by
  refine ⟨h.inj, ?_, ?_⟩
  · rw [List.map_map]
    apply List.Nodup.map_on
    · intro a ha b hb hab
      have h1 := hbit a ha
      have h2 := hbit b hb
      simp only [comp_apply, h1, h2, if_true] at hab
      have hkey : a.1 = b.1 := by
        apply Nat.eq_of_testBit_eq
        intro l
        by_cases hl : l = loc
        · subst hl; rw [h1, h2]
        · have := congrArg (fun n => n.testBit l) hab
          simp only [testBit_setBit, if_neg hl] at this
          exact this
      exact List.inj_on_of_nodup_map h.nodup ha hb hkey
    · exact h.nodup.of_map
  · intro e hee
    obtain ⟨e', he', rfl⟩ := List.mem_map.1 hee
    simp only [hbit e' he', if_true]
    intro l hl
    rw [testBit_setBit] at hl
    split at hl
    · cases hl
    · exact h.bits e' he' l hl

theorem twin_release (he : env'.eps = env.eps) {s s' : Sim} (h : Twin s s') (id : ℕ) :
    Both Twin (s.release env id) (s'.release env' id) := by
  unfold release
  apply Both.bind (R := fun a b => Twin a b ∧
    ∀ loc, a.idMap.get id = some loc → ∀ e ∈ a.state, e.1.testBit loc = false)
  · unfold releaseState
    have hm := twin_measure he h id
    rw [h.fields.1]
    split
    · obtain ⟨hc, st, rfl, hp⟩ := h
      refine Both.ok ⟨⟨core_zero hc.inj, _, rfl, List.Perm.refl _⟩, ?_⟩
      intro loc _ e hee
      simp only [List.mem_singleton] at hee
      subst hee
      simp
    · apply hm.bind
      rintro ⟨r, a⟩ ⟨_, b⟩ ⟨rfl, ⟨hc, st, rfl, hp⟩, loc, hl, hb⟩
      simp only at hl hb ⊢
      have hix : indexId a.idMap id = .ok loc := by unfold indexId; rw [hl]
      simp only [hix, ok_bind]
      split
      · rename_i hr
        rw [hr] at hb
        refine Both.ok ⟨⟨core_clear hc hb, _, rfl, hp.map _⟩, ?_⟩
        intro loc' hl' e hee
        simp only at hl' hee
        rw [hl] at hl'
        cases hl'
        obtain ⟨e', he', rfl⟩ := List.mem_map.1 hee
        simp only [hb e' he', if_true]
        rw [testBit_setBit, if_pos rfl]
      · rename_i hr
        rw [Bool.not_eq_true] at hr
        rw [hr] at hb
        refine Both.ok ⟨⟨hc, _, rfl, hp⟩, ?_⟩
        intro loc' hl' e hee
        rw [hl] at hl'
        cases hl'
        exact hb e hee
  · rintro a b ⟨⟨hc, st, rfl, hp⟩, hz⟩
    exact Both.ok ⟨core_remove hc hz, _, rfl, hp⟩

theorem core_relabel {m m' : IMap ℕ} {st : List (ℕ × ℂ)} (h : Core m st)
    (hi : Inj m') (hv : ∀ l, (∃ i, m.get i = some l) → ∃ i, m'.get i = some l) : Core m' st :=
  ⟨hi, h.nodup, fun e he l hl => hv l (h.bits e he l hl)⟩

theorem get_exchange {m : IMap ℕ} {a b la lb : ℕ} (ha : m.get a = some la) (hb : m.get b = some lb) (i : ℕ) :
    ((m.modify a (fun _ => lb)).modify b (fun _ => la)).get i = m.get (Equiv.swap a b i) := by
  rw [IMap.get_modify]
  by_cases hib : i = b
  · subst hib
    rw [if_pos rfl, IMap.get_modify, Equiv.swap_apply_right]
    by_cases hia : i = a
    · subst hia; rw [if_pos rfl, ha]; rfl
    · rw [if_neg hia, hb, ha]; rfl
  · rw [if_neg hib, IMap.get_modify]
    by_cases hia : i = a
    · subst hia; rw [if_pos rfl, Equiv.swap_apply_left, ha, hb]; rfl
    · rw [if_neg hia, Equiv.swap_apply_of_ne_of_ne hia hib]

theorem twin_swap {s s' : Sim} (h : Twin s s') (a b : ℕ) :
    Both Twin (s.swapQubitIds a b) (s'.swapQubitIds a b) := by
  unfold swapQubitIds
  apply (twin_flushOps h).bind
  rintro s s' ⟨hc, st, rfl, hp⟩
  simp only
  apply Both.same
  intro la h1
  apply Both.same
  intro lb h2
  have hg := get_exchange (resolveId_ok h1) (resolveId_ok h2)
  refine Both.ok ⟨?_, _, rfl, hp⟩
  refine core_relabel (m := s.idMap) hc ?_ ?_
  · intro i j l hi hj
    simp only [hg] at hi hj
    exact (Equiv.swap a b).injective (hc.inj _ _ l hi hj)
  · rintro l ⟨i, hi⟩
    exact ⟨Equiv.swap a b i, by simp only [hg, Equiv.swap_apply_self]; exact hi⟩

/-! ### Reading the state -/

theorem twin_relocateOne (he : env'.eps = env.eps) {s s' : Sim} (h : Twin s s') (index key : ℕ) :
    Both Twin (s.relocateOne env index key) (s'.relocateOne env' index key) := by
  unfold relocateOne
  rw [h.fields.1]
  apply Both.same
  intro loc hk
  have hk : s.idMap.get key = some loc := by
    unfold indexId at hk
    cases hg : s.idMap.get key with
    | none => rw [hg] at hk; cases hk
    | some _ => rw [hg] at hk; cases hk; rfl
  split
  · rename_i hne
    have hne' : loc ≠ index := fun h => hne h.symm
    unfold swapQubitState
    rw [if_neg hne', if_neg hne', bind_assoc, bind_assoc]
    have hf := twin_flushQueue he h [loc, index] .HRxRy
    have hkeep : ∀ t, s.flushQueue env [loc, index] .HRxRy = .ok t → t.idMap = s.idMap :=
      fun t ht => (keep_flushQueue ht).1.ids
    have hf2 : Both (fun a b => Twin a b ∧ a.idMap = s.idMap) (s.flushQueue env [loc, index] .HRxRy)
        (s'.flushQueue env' [loc, index] .HRxRy) := by
      generalize hx : s.flushQueue env [loc, index] .HRxRy = x at hf hkeep
      generalize hx' : s'.flushQueue env' [loc, index] .HRxRy = x' at hf
      cases x <;> cases x'
      · exact hf
      · exact hf.elim
      · exact hf.elim
      · exact ⟨hf, hkeep _ rfl⟩
    apply hf2.bind
    rintro a b ⟨⟨hc, st, rfl, hp⟩, hid⟩
    rw [← hid] at hk
    simp only [pure_bind]
    cases hfl : findByLoc a.idMap index with
    | none =>
      simp only [hfl]
      refine Both.ok ⟨?_, _, rfl, hp.map _⟩
      refine (relabel_spec hc hne' ?_).1
      intro i
      rw [IMap.get_modify]
      by_cases hi : i = key
      · subst hi; rw [if_pos rfl, hk]; simp
      · rw [if_neg hi]
        cases hg : a.idMap.get i with
        | none => rfl
        | some l =>
          have h1 : l ≠ loc := by rintro rfl; exact hi (hc.inj _ _ _ hg hk)
          have h2 : l ≠ index := by rintro rfl; exact findByLoc_none hfl i hg
          rw [Option.map_some, Equiv.swap_apply_of_ne_of_ne h1 h2]
    | some sk =>
      simp only [hfl]
      refine Both.ok ⟨?_, _, rfl, hp.map _⟩
      refine (relabel_spec hc hne' ?_).1
      have hsk := findByLoc_some hfl
      intro i
      have hskk : sk ≠ key := by
        rintro rfl; rw [hsk] at hk; cases hk; exact hne rfl
      rw [IMap.get_modify]
      by_cases hi : i = key
      · subst hi
        rw [if_pos rfl, IMap.get_modify, if_neg (Ne.symm hskk), hk]; simp
      · rw [if_neg hi, IMap.get_modify]
        by_cases his : i = sk
        · subst his; rw [if_pos rfl, hsk]; simp
        · rw [if_neg his]
          cases hg : a.idMap.get i with
          | none => rfl
          | some l =>
            have h1 : l ≠ loc := by rintro rfl; exact hi (hc.inj _ _ _ hg hk)
            have h2 : l ≠ index := by rintro rfl; exact his (hc.inj _ _ _ hg hsk)
            rw [Option.map_some, Equiv.swap_apply_of_ne_of_ne h1 h2]
  · exact Both.ok h

theorem twin_relocate (he : env'.eps = env.eps) (keys : List ℕ) (index : ℕ) {s s' : Sim} (h : Twin s s') :
    Both Twin (s.relocate env index keys) (s'.relocate env' index keys) := by
  induction keys generalizing index s s' with
  | nil => exact h
  | cons k keys ih => exact (twin_relocateOne he h index k).bind fun a b h => ih _ h

theorem sortState_twin {l l' : List (ℕ × ℂ)} (hn : (l.map Prod.fst).Nodup) (hp : l'.Perm l) :
    sortState l' = sortState l := by
  have hn' : (l'.map Prod.fst).Nodup := ((hp.map _).nodup_iff).2 hn
  have h1 := sortState_sorted hn
  have h2 := sortState_sorted hn'
  have h3 : (sortState l').Perm (sortState l) := ((sortState_perm l').trans hp).trans (sortState_perm l).symm
  exact h3.eq_of_pairwise (fun a b _ _ hab hba => absurd hab (Nat.lt_asymm hba)) h2 h1

theorem twin_getState (he : env'.eps = env.eps) {s s' : Sim} (h : Twin s s') :
    Both TwinV (s.getState env) (s'.getState env') := by
  unfold getState
  simp only [h.fields.1]
  apply (twin_flushQueue he h _ _).bind
  intro a b h
  apply (twin_relocate he _ _ h).bind
  rintro a b ⟨hc, st, rfl, hp⟩
  refine Both.ok ⟨?_, hc, _, rfl, hp⟩
  simp only
  rw [sortState_twin hc.nodup hp]

theorem twin_dump (he : env'.eps = env.eps) (fmt : ℂ → String) {s s' : Sim} (h : Twin s s') :
    Both TwinV (s.dump env fmt) (s'.dump env' fmt) := by
  unfold dump
  simp only [h.fields.1]
  apply (twin_flushQueue he h _ _).bind
  intro a b h
  apply (twin_relocate he _ _ h).bind
  rintro a b ⟨hc, st, rfl, hp⟩
  refine Both.ok ⟨?_, hc.perm (sortState_perm _), _, rfl, ?_⟩
  · simp only
    rw [sortState_twin hc.nodup hp]
  · simp only
    rw [sortState_twin hc.nodup hp]

/-! ### Histories -/

theorem twin_quiet {x x' : Except Panic Sim} (h : Both Twin x x') : Both TwinV (quiet x) (quiet x') := by
  unfold quiet
  exact h.bind fun a b h => Both.ok ⟨rfl, h⟩

theorem twin_wrap {α : Type} {x x' : Except Panic (α × Sim)} (h : Both TwinV x x') (f : α → Spec.Out) :
    Both TwinV (do let (b, s) ← x; return (f b, s)) (do let (b, s) ← x'; return (f b, s)) := by
  apply h.bind
  rintro ⟨a, s⟩ ⟨_, s'⟩ ⟨rfl, h⟩
  exact Both.ok ⟨rfl, h⟩

theorem twin_call (he : env'.eps = env.eps) {s s' : Sim} (h : Twin s s') (c : Call) :
    Both TwinV (s.call env c) (s'.call env' c) := by
  cases c with
  | gate g q => exact twin_quiet (twin_gateCall he h g q)
  | ctrl g cs q => exact twin_quiet (twin_ctrlCall he h g cs q)
  | phase cs φ q => exact twin_quiet (twin_mcphase he h cs φ q)
  | exp cs ps θ ts => exact twin_quiet (twin_mcexp he h _ _ _ _)
  | swap a b => exact twin_quiet (twin_swap h a b)
  | allocate =>
    have := twin_allocate h
    exact Both.ok ⟨by simp only [this.1], this.2⟩
  | release q => exact twin_quiet (twin_release he h q)
  | measure q => exact twin_wrap ((twin_measure he h q).mono fun a b h => ⟨h.1, h.2.1⟩) _
  | jointMeasure qs => exact twin_wrap (twin_jointMeasure he h qs) _
  | jointProb qs => exact twin_wrap (twin_jointProb he h qs) _
  | isZero q => exact twin_wrap (twin_isZero he h q) _
  | collapse v q => exact twin_wrap (twin_force he h v q) _
  | getState => exact twin_wrap (twin_getState he h) (fun r => .state r.1 r.2)
  | dump fmt => exact twin_wrap (twin_dump he fmt h) _

theorem twin_calls (he : env'.eps = env.eps) (cs : List Call) {s s' : Sim} (h : Twin s s') :
    Both TwinV (s.runCalls env cs) (s'.runCalls env' cs) := by
  induction cs generalizing s s' with
  | nil => exact Both.ok ⟨rfl, h⟩
  | cons c cs ih =>
    unfold runCalls
    apply (twin_call he h c).bind
    rintro ⟨o, s⟩ ⟨_, s'⟩ ⟨rfl, h⟩
    apply (ih h).bind
    rintro ⟨os, s⟩ ⟨_, s'⟩ ⟨rfl, h⟩
    exact Both.ok ⟨rfl, h⟩

theorem twin_new (rng : ℕ → ℝ) : Twin (Sim.new rng) (Sim.new rng) := by
  refine ⟨core_zero ?_, _, rfl, List.Perm.refl _⟩
  intro i j l hi
  simp [Sim.new] at hi

end Qir
