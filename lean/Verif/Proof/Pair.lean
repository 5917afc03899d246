import Verif.Proof.View
import Mathlib.Algebra.BigOperators.Group.Finset.Basic
import Mathlib.Algebra.BigOperators.Group.List.Lemmas

/-! Updating a sparse state pairwise: the loops of `apply_mch`, `mcrotation` and `mcexp`. -/

noncomputable section
namespace Qir
open Spec Function Sim

theorem insertPair_new {m : List (ℕ × ℂ)} {p : ℕ × ℂ} (h : p.1 ∉ m.map Prod.fst) :
    insertPair m p = m ++ [p] := by
  unfold insertPair
  rw [if_neg]
  simp only [List.any_eq_true, beq_iff_eq, not_exists, not_and]
  intro q hq hqp
  exact h (List.mem_map.2 ⟨q, hq, hqp⟩)

theorem foldl_insertPair {acc l : List (ℕ × ℂ)} (h : ((acc ++ l).map Prod.fst).Nodup) :
    l.foldl insertPair acc = acc ++ l := by
  induction l generalizing acc with
  | nil => simp
  | cons p l ih =>
    have hp : p.1 ∉ acc.map Prod.fst := by
      rw [List.map_append, List.nodup_append] at h
      intro hc
      exact h.2.2 p.1 hc p.1 (by simp) rfl
    rw [List.foldl_cons, insertPair_new hp, ih (by simpa using h)]
    simp

theorem collectMap_nodup {l : List (ℕ × ℂ)} (h : (l.map Prod.fst).Nodup) : collectMap l = l := by
  unfold collectMap
  rw [foldl_insertPair (by simpa using h)]; simp

theorem lookupMap_eq_some {l : List (ℕ × ℂ)} (h : (l.map Prod.fst).Nodup) {k : ℕ} {v : ℂ} :
    lookupMap l k = some v ↔ (k, v) ∈ l := by
  unfold lookupMap
  induction l with
  | nil => simp
  | cons p l ih =>
    rw [List.map_cons, List.nodup_cons] at h
    rw [List.find?_cons]
    by_cases hp : p.1 = k
    · simp only [hp, beq_self_eq_true, Option.map_some, Option.some.injEq, List.mem_cons]
      constructor
      · rintro rfl; left; rw [← hp]
      · rintro (h1 | h1)
        · rw [← h1]
        · exact absurd (List.mem_map.2 ⟨_, h1, rfl⟩) (by rw [hp] at h; exact h.1)
    · have : (p.1 == k) = false := by simpa using hp
      simp only [this, List.mem_cons]
      rw [ih h.2]
      constructor
      · intro h1; right; exact h1
      · rintro (h1 | h1)
        · exact absurd (by rw [← h1]) hp
        · exact h1

theorem lookupMap_eq_none {l : List (ℕ × ℂ)} (h : (l.map Prod.fst).Nodup) {k : ℕ} :
    lookupMap l k = none ↔ k ∉ l.map Prod.fst := by
  constructor
  · intro h1 hc
    obtain ⟨⟨a, v⟩, hm, rfl⟩ := List.mem_map.1 hc
    rw [(lookupMap_eq_some h).2 hm] at h1; cases h1
  · intro h1
    cases h2 : lookupMap l k with
    | none => rfl
    | some v => exact absurd (List.mem_map.2 ⟨_, (lookupMap_eq_some h).1 h2, rfl⟩) h1

/-- How the loops choose and pair entries. -/
structure Pairing (σ : ℕ → ℕ) (C r : ℕ → Bool) : Prop where
  invol : ∀ k, σ (σ k) = k
  ne : ∀ k, σ k ≠ k
  ctl : ∀ k, C (σ k) = C k
  rep : ∀ k, r (σ k) = !r k

theorem view_flatMap (m : IMap ℕ) (l : List (ℕ × ℂ)) (f : ℕ × ℂ → List (ℕ × ℂ)) :
    view m (l.flatMap f) = (l.map (fun e => view m (f e))).sum := by
  induction l with
  | nil => rfl
  | cons e l ih => rw [List.flatMap_cons, view_append, List.map_cons, List.sum_cons, ih]

theorem pair_sum {m : IMap ℕ} {l : List (ℕ × ℂ)} (hl : (l.map Prod.fst).Nodup)
    (A : Module.End ℂ Wave) (f : ℕ × ℂ → List (ℕ × ℂ)) (err : ℕ × ℂ → Wave)
    {σ : ℕ → ℕ} {C r : ℕ → Bool} (hp : Pairing σ C r)
    (h1 : ∀ e ∈ l, C e.1 = false → view m (f e) = A (entryWave m e))
    (h2 : ∀ e ∈ l, C e.1 = true → lookupMap l (σ e.1) = none → view m (f e) = A (entryWave m e))
    (h3 : ∀ e ∈ l, ∀ w, C e.1 = true → lookupMap l (σ e.1) = some w → r e.1 = true →
      view m (f e) = A (entryWave m e) + A (entryWave m (σ e.1, w)) + err e)
    (h4 : ∀ e ∈ l, ∀ w, C e.1 = true → lookupMap l (σ e.1) = some w → r e.1 = false → f e = [])
    (h5 : ∀ e ∈ l, ¬ (C e.1 = true ∧ (lookupMap l (σ e.1)).isSome ∧ r e.1 = true) → err e = 0) :
    view m (l.flatMap f) = A (view m l) + (l.map err).sum := by
  classical
  let g : ℕ × ℂ → Wave := fun e => view m (f e) - A (entryWave m e) - err e
  have hnd : l.Nodup := List.Nodup.of_map _ hl
  have hg : (l.map g).sum = 0 := by
    rw [← List.sum_toFinset g hnd]
    let φ : ℕ × ℂ → ℕ × ℂ := fun e =>
      if C e.1 = true then
        match lookupMap l (σ e.1) with
        | some w => (σ e.1, w)
        | none => e
      else e
    have hφ : ∀ e, C e.1 = true → ∀ w, lookupMap l (σ e.1) = some w → φ e = (σ e.1, w) := by
      intro e hc w hw; simp only [φ, if_pos hc, hw]
    have hφ0 : ∀ e, C e.1 = false → φ e = e := by
      intro e hc; simp [φ, hc]
    have hφ1 : ∀ e, lookupMap l (σ e.1) = none → φ e = e := by
      intro e hc; simp only [φ, hc]; split <;> rfl
    have hback : ∀ e ∈ l, lookupMap l (σ (σ e.1)) = some e.2 := by
      intro e he; rw [hp.invol]; exact (lookupMap_eq_some hl).2 he
    apply Finset.sum_involution (fun e _ => φ e)
    · intro e he
      have he' : e ∈ l := List.mem_toFinset.1 he
      cases hc : C e.1 with
      | false =>
        have : g e = 0 := by
          simp only [g]
          rw [h1 e he' hc, h5 e he' (by simp [hc])]; simp
        show g e + g (φ e) = 0
        rw [hφ0 e hc, this]; simp
      | true =>
        cases hw : lookupMap l (σ e.1) with
        | none =>
          have : g e = 0 := by
            simp only [g]
            rw [h2 e he' hc hw, h5 e he' (by simp [hw])]; simp
          show g e + g (φ e) = 0
          rw [hφ1 e hw, this]; simp
        | some w =>
          show g e + g (φ e) = 0
          rw [hφ e hc w hw]
          have hmem : (σ e.1, w) ∈ l := (lookupMap_eq_some hl).1 hw
          have hC' : C (σ e.1, w).1 = true := by simp only; rw [hp.ctl]; exact hc
          have hb := hback e he'
          cases hr : r e.1 with
          | true =>
            have hr' : r (σ e.1, w).1 = false := by simp only; rw [hp.rep, hr]; rfl
            simp only [g]
            rw [h3 e he' w hc hw hr, h4 (σ e.1, w) hmem e.2 hC' hb hr',
              h5 (σ e.1, w) hmem (by simp [hr'])]
            simp only [view_nil]; abel
          | false =>
            have hr' : r (σ e.1, w).1 = true := by simp only; rw [hp.rep, hr]; rfl
            simp only [g]
            rw [h3 (σ e.1, w) hmem e.2 hC' hb hr', h4 e he' w hc hw hr,
              h5 e he' (by simp [hr])]
            simp only [view_nil, hp.invol, Prod.mk.eta]; abel
    · intro e he hne
      have he' : e ∈ l := List.mem_toFinset.1 he
      cases hc : C e.1 with
      | false =>
        exfalso; apply hne; show g e = 0; simp only [g]
        rw [h1 e he' hc, h5 e he' (by simp [hc])]; simp
      | true =>
        cases hw : lookupMap l (σ e.1) with
        | none =>
          exfalso; apply hne; show g e = 0; simp only [g]
          rw [h2 e he' hc hw, h5 e he' (by simp [hw])]; simp
        | some w =>
          rw [hφ e hc w hw]
          intro h; exact hp.ne e.1 (congrArg Prod.fst h)
    · intro e he
      have he' : e ∈ l := List.mem_toFinset.1 he
      cases hc : C e.1 with
      | false => rw [hφ0 e hc]; exact he
      | true =>
        cases hw : lookupMap l (σ e.1) with
        | none => rw [hφ1 e hw]; exact he
        | some w => rw [hφ e hc w hw]; exact List.mem_toFinset.2 ((lookupMap_eq_some hl).1 hw)
    · intro e he
      have he' : e ∈ l := List.mem_toFinset.1 he
      cases hc : C e.1 with
      | false => simp only [hφ0 e hc]
      | true =>
        cases hw : lookupMap l (σ e.1) with
        | none => simp only [hφ1 e hw]
        | some w =>
          simp only [hφ e hc w hw]
          rw [hφ (σ e.1, w) (by simp only; rw [hp.ctl]; exact hc) e.2 (hback e he')]
          simp only [hp.invol]
  rw [view_flatMap]
  have hsplit : ∀ L : List (ℕ × ℂ), (L.map (fun e => view m (f e))).sum
      = A (view m L) + (L.map err).sum + (L.map g).sum := by
    intro L
    induction L with
    | nil => simp
    | cons e L ih =>
      simp only [List.map_cons, List.sum_cons, view_cons, map_add, ih, g]
      abel
  rw [hsplit, hg, add_zero]

theorem pair_nodup {l : List (ℕ × ℂ)} (hl : (l.map Prod.fst).Nodup)
    (f : ℕ × ℂ → List (ℕ × ℂ)) {σ : ℕ → ℕ} {C r : ℕ → Bool} (hp : Pairing σ C r)
    (h1 : ∀ e ∈ l, ((f e).map Prod.fst).Nodup)
    (h2 : ∀ e ∈ l, ∀ k ∈ (f e).map Prod.fst, k = e.1 ∨ (C e.1 = true ∧ k = σ e.1))
    (h4 : ∀ e ∈ l, ∀ w, C e.1 = true → lookupMap l (σ e.1) = some w → r e.1 = false → f e = []) :
    ((l.flatMap f).map Prod.fst).Nodup := by
  rw [List.map_flatMap, List.nodup_flatMap]
  refine ⟨h1, ?_⟩
  have hpw : l.Pairwise (fun a b => a.1 ≠ b.1) := List.pairwise_map.1 hl
  have key : ∀ e1 ∈ l, ∀ e2 ∈ l, e1.1 = σ e2.1 → C e2.1 = true → ∀ k, k ∈ (f e1).map Prod.fst →
      k ∈ (f e2).map Prod.fst → False := by
    intro e1 he1 e2 he2 h hc k hk1 hk2
    have hl2 : lookupMap l (σ e2.1) = some e1.2 := by rw [← h]; exact (lookupMap_eq_some hl).2 he1
    have hl1 : lookupMap l (σ e1.1) = some e2.2 := by
      rw [h, hp.invol]; exact (lookupMap_eq_some hl).2 he2
    have hc1 : C e1.1 = true := by rw [h, hp.ctl]; exact hc
    cases hr : r e2.1 with
    | false => rw [h4 e2 he2 _ hc hl2 hr] at hk2; simp at hk2
    | true =>
      have : r e1.1 = false := by rw [h, hp.rep, hr]; rfl
      rw [h4 e1 he1 _ hc1 hl1 this] at hk1; simp at hk1
  refine hpw.imp_of_mem ?_
  intro e1 e2 he1 he2 hne
  simp only [Function.onFun, List.disjoint_left]
  intro k hk1 hk2
  rcases h2 e1 he1 k hk1 with ha | ⟨hc1, ha⟩ <;> rcases h2 e2 he2 k hk2 with hb | ⟨hc2, hb⟩
  · exact hne (ha.symm.trans hb)
  · exact key e1 he1 e2 he2 (ha.symm.trans hb) hc2 k hk1 hk2
  · exact key e2 he2 e1 he1 (hb.symm.trans ha) hc1 k hk2 hk1
  · apply hne
    have := ha.symm.trans hb
    rw [← hp.invol e1.1, this, hp.invol]

/-! ### Invariant of the stored state -/

/-- The structural invariant of the stored state. -/
structure Core (m : IMap ℕ) (st : List (ℕ × ℂ)) : Prop where
  inj : Inj m
  nodup : (st.map Prod.fst).Nodup
  bits : ∀ e ∈ st, BitsIn m e.1

theorem Core.applyOps {m : IMap ℕ} {st : List (ℕ × ℂ)} (h : Core m st)
    {ops rops : List (List ℕ × ℕ × OpCode)} (hr : resolveOps m ops = .ok rops) :
    Core m (st.map (Sim.applyOps rops)) := by
  refine ⟨h.inj, ?_, ?_⟩
  · have : (st.map (Sim.applyOps rops)).map Prod.fst = (st.map Prod.fst).map (opsKey rops) := by
      rw [List.map_map, List.map_map]
      apply List.map_congr_left
      intro e _; exact applyOps_fst rops e
    rw [this]
    exact h.nodup.map (opsKey_inj h.inj hr)
  · intro e he
    obtain ⟨e', he', rfl⟩ := List.mem_map.1 he
    rw [applyOps_fst]
    exact opsKey_bitsIn hr (h.bits e' he')

theorem Core.perm {m : IMap ℕ} {st st' : List (ℕ × ℂ)} (h : Core m st) (hp : st'.Perm st) :
    Core m st' :=
  ⟨h.inj, ((hp.map Prod.fst).nodup_iff).2 h.nodup, fun e he => h.bits e (hp.mem_iff.1 he)⟩

theorem Core.mapKey {m : IMap ℕ} {st : List (ℕ × ℂ)} (h : Core m st) (f : ℕ × ℂ → ℕ × ℂ)
    (hf : ∀ e, (f e).1 = e.1) : Core m (st.map f) := by
  refine ⟨h.inj, ?_, ?_⟩
  · rw [List.map_map, show Prod.fst ∘ f = Prod.fst from funext hf]; exact h.nodup
  · intro e he
    obtain ⟨e', he', rfl⟩ := List.mem_map.1 he
    rw [hf]; exact h.bits e' he'

theorem Core.shuffled {m : IMap ℕ} {st : List (ℕ × ℂ)} (h : Core m st) (env : Env) :
    Core m (env.shuffle (collectMap st)) := by
  rw [collectMap_nodup h.nodup]; exact h.perm (env.shuffle_perm _)

theorem view_shuffled {m : IMap ℕ} {st : List (ℕ × ℂ)} (h : Core m st) (env : Env) :
    view m (env.shuffle (collectMap st)) = view m st := by
  rw [collectMap_nodup h.nodup]; exact view_perm (env.shuffle_perm _)

/-- Pairing by one target bit under controls. -/
theorem pairing_bit {cs : List ℕ} {t : ℕ} (ht : t ∉ cs) :
    Pairing (fun k => k ^^^ setBit 0 t true) (fun k => cs.all fun c => k.testBit c)
      (fun k => !k.testBit t) where
  invol k := flip_flip k t
  ne k := flip_ne k t
  ctl k := by
    apply all_congr_testBit
    intro c hc
    rw [testBit_flip, if_neg (by rintro rfl; exact ht hc)]
  rep k := by simp only [testBit_flip, if_true]

theorem nearlyZeroR_zero (x : ℝ) : NearlyZeroR 0 x ↔ x = 0 := by
  unfold NearlyZeroR
  constructor
  · intro h
    rcases le_total x 0 with hx | hx
    · rw [max_eq_right hx, min_eq_right hx] at h; linarith
    · rw [max_eq_left hx, min_eq_left hx] at h; linarith
  · rintro rfl; simp

theorem nearlyZero_zero (z : ℂ) : NearlyZero 0 z ↔ z = 0 := by
  unfold NearlyZero
  rw [nearlyZeroR_zero, nearlyZeroR_zero, Complex.ext_iff]; rfl

theorem setBit_false_or (k t : ℕ) : setBit k t false = k ∨ setBit k t false = k ^^^ setBit 0 t true := by
  cases h : k.testBit t
  · left; unfold setBit; rw [if_pos h]
  · right
    apply Nat.eq_of_testBit_eq; intro l
    rw [testBit_setBit, testBit_flip]
    by_cases hl : l = t
    · subst hl; simp [h]
    · simp [hl]

theorem setBit_true_or (k t : ℕ) : setBit k t true = k ∨ setBit k t true = k ^^^ setBit 0 t true := by
  cases h : k.testBit t
  · right
    apply Nat.eq_of_testBit_eq; intro l
    rw [testBit_setBit, testBit_flip]
    by_cases hl : l = t
    · subst hl; simp [h]
    · simp [hl]
  · left; unfold setBit; rw [if_pos h]

theorem or_flip {k t : ℕ} (h : k.testBit t = false) : k ||| setBit 0 t true = k ^^^ setBit 0 t true := by
  apply Nat.eq_of_testBit_eq; intro l
  rw [Nat.testBit_or, testBit_setBit, testBit_flip]
  by_cases hl : l = t
  · subst hl; simp [h]
  · simp [hl]

theorem flip_eq_setBit {k t : ℕ} {v : Bool} (h : k.testBit t = v) :
    k ^^^ setBit 0 t true = setBit k t (!v) := by
  apply Nat.eq_of_testBit_eq; intro l
  rw [testBit_setBit, testBit_flip]
  by_cases hl : l = t
  · subst hl; simp [h]
  · simp [hl]

theorem BitsIn.flip {m : IMap ℕ} {k t tl : ℕ} (hk : BitsIn m k) (ht : m.get t = some tl) :
    BitsIn m (k ^^^ setBit 0 tl true) := by
  intro l hl
  by_cases h : l = tl
  · exact ⟨t, by rw [h]; exact ht⟩
  · rw [testBit_flip, if_neg h] at hl; exact hk l hl

/-- Invariant for every loop that emits only paired indices. -/
theorem Core.flatMap_bit {m : IMap ℕ} {l : List (ℕ × ℂ)} (hcore : Core m l) {cs : List ℕ} {t tl : ℕ}
    (htl : tl ∉ cs) (hget : m.get t = some tl) (f : ℕ × ℂ → List (ℕ × ℂ))
    (h1 : ∀ e ∈ l, ((f e).map Prod.fst).Nodup)
    (h2 : ∀ e ∈ l, ∀ k ∈ (f e).map Prod.fst,
      k = e.1 ∨ ((cs.all fun c => e.1.testBit c) = true ∧ k = e.1 ^^^ setBit 0 tl true))
    (h4 : ∀ e ∈ l, ∀ w, (cs.all fun c => e.1.testBit c) = true →
      lookupMap l (e.1 ^^^ setBit 0 tl true) = some w → e.1.testBit tl = true → f e = []) :
    Core m (l.flatMap f) := by
  refine ⟨hcore.inj, ?_, ?_⟩
  · exact pair_nodup hcore.nodup f (pairing_bit htl) h1 h2
      (fun e he w hc hw hr => h4 e he w hc hw (by simpa using hr))
  · intro e he
    obtain ⟨e', he', hm⟩ := List.mem_flatMap.1 he
    rcases h2 e' he' e.1 (List.mem_map.2 ⟨e, hm, rfl⟩) with h | ⟨_, h⟩
    · rw [h]; exact hcore.bits e' he'
    · rw [h]; exact (hcore.bits e' he').flip hget

theorem core_mch {m : IMap ℕ} {l : List (ℕ × ℂ)} (hcore : Core m l) (eps : ℝ) {cs csl : List ℕ}
    {t tl : ℕ} (hcs : List.Forall₂ (fun i l => m.get i = some l) cs csl) (hget : m.get t = some tl)
    (ht : t ∉ cs) : Core m (l.flatMap (mchEntry eps l csl tl)) := by
  have htl := not_mem_locs hcore.inj hcs hget ht
  apply hcore.flatMap_bit htl hget
  · intro e _
    unfold mchEntry
    simp only
    split
    · split
      · have : setBit e.1 tl false ≠ setBit e.1 tl true := by
          intro h
          have := congrArg (fun n => n.testBit tl) h
          simp [testBit_setBit] at this
        simp [this]
      · split
        · rename_i hb
          have hb' : e.1.testBit tl = false := by simpa using hb
          have := flip_ne e.1 tl
          rw [or_flip hb']
          split <;> split <;> simp [Ne.symm this]
        · simp
    · simp
  · intro e _ k hk
    unfold mchEntry at hk
    simp only at hk
    split at hk
    · rename_i hc
      split at hk
      · simp only [List.map_cons, List.map_nil, List.mem_cons, List.not_mem_nil, or_false] at hk
        rcases hk with rfl | rfl
        · rcases setBit_false_or e.1 tl with h | h
          · left; exact h
          · right; exact ⟨hc, h⟩
        · rcases setBit_true_or e.1 tl with h | h
          · left; exact h
          · right; exact ⟨hc, h⟩
      · split at hk
        · rename_i hb
          have hb' : e.1.testBit tl = false := by simpa using hb
          rw [or_flip hb'] at hk
          rw [List.map_append, List.mem_append] at hk
          rcases hk with hk | hk
          · split at hk
            · simp at hk
            · left; simpa using hk
          · split at hk
            · simp at hk
            · right; exact ⟨hc, by simpa using hk⟩
        · simp at hk
    · left; simpa using hk
  · intro e _ w hc hw hb
    unfold mchEntry
    simp [hc, hw, hb]

theorem view_mch {m : IMap ℕ} {l : List (ℕ × ℂ)} (hcore : Core m l) {cs csl : List ℕ}
    {t tl : ℕ} (hcs : List.Forall₂ (fun i l => m.get i = some l) cs csl) (hget : m.get t = some tl)
    (ht : t ∉ cs) : view m (l.flatMap (mchEntry 0 l csl tl)) = ctrlL cs matH t (view m l) := by
  have htl := not_mem_locs hcore.inj hcs hget ht
  have hA : ∀ k v, (csl.all fun c => k.testBit c) = true → ctrlL cs matH t (entryWave m (k, v)) =
      v • (matH false (k.testBit tl) • ket (idBits m (setBit k tl false)) +
        matH true (k.testBit tl) • ket (idBits m (setBit k tl true))) := by
    intro k v hc
    rw [show entryWave m (k, v) = v • ket (idBits m k) from rfl, map_smul, ctrlL_apply, ctrl_ket ht,
      if_pos ((all_ctls_iff hcs k).1 hc), idBits_setBit hcore.inj hget, idBits_setBit hcore.inj hget,
      idBits_of hget]
  have hmain := pair_sum (m := m) hcore.nodup (ctrlL cs matH t) (mchEntry 0 l csl tl) (fun _ => 0)
    (pairing_bit htl) ?_ ?_ ?_ ?_ ?_
  · rw [hmain]; simp
  · intro e _ hc
    unfold mchEntry
    have hc' : ¬ ∀ c ∈ cs, idBits m e.1 c = true := by
      rw [← all_ctls_iff hcs]; simpa using hc
    rw [if_neg (by simpa using hc), view_cons, view_nil, add_zero,
      show entryWave m e = e.2 • ket (idBits m e.1) from rfl, map_smul, ctrlL_apply, ctrl_ket ht,
      if_neg hc']
  · intro e _ hc hw
    rw [show e = (e.1, e.2) from rfl, hA e.1 e.2 hc]
    unfold mchEntry
    simp only [hc, if_true, hw]
    rw [view_cons, view_cons, view_nil, add_zero]
    simp only [entryWave, matH, mat]
    cases h : e.1.testBit tl <;> simp [fracSqrt2, mul_smul]
  · intro e _ w hc hw hr
    have hb : e.1.testBit tl = false := by simpa using hr
    have hc2 : (csl.all fun c => (e.1 ^^^ setBit 0 tl true).testBit c) = true := by
      rw [(pairing_bit htl).ctl]; exact hc
    have hb2 : (e.1 ^^^ setBit 0 tl true).testBit tl = true := by rw [testBit_flip]; simp [hb]
    have e0 : setBit e.1 tl false = e.1 := by unfold setBit; rw [if_pos hb]
    have e1 : setBit e.1 tl true = e.1 ^^^ setBit 0 tl true := (flip_eq_setBit hb).symm
    have e2 : setBit (e.1 ^^^ setBit 0 tl true) tl false = e.1 := by
      rw [← show _ = setBit (e.1 ^^^ setBit 0 tl true) tl false from flip_eq_setBit hb2]
      exact flip_flip _ _
    have e3 : setBit (e.1 ^^^ setBit 0 tl true) tl true = e.1 ^^^ setBit 0 tl true := by
      rw [setBit, if_pos hb2]
    rw [show entryWave m e = entryWave m (e.1, e.2) from rfl, hA e.1 e.2 hc, hA _ w hc2, hb, hb2, e0,
      e1, e2, e3]
    unfold mchEntry
    simp only [hc, if_true, hw, hb, Bool.not_false, or_flip hb, nearlyZero_zero]
    rw [view_append]
    have v1 : view m (if e.2 + w = 0 then [] else [(e.1, (e.2 + w) * (fracSqrt2 : ℂ))])
        = ((e.2 + w) * (fracSqrt2 : ℂ)) • ket (idBits m e.1) := by
      split
      · rename_i h; rw [h]; simp
      · simp [view_cons, entryWave]
    have v2 : view m (if e.2 - w = 0 then [] else
          [(e.1 ^^^ setBit 0 tl true, (e.2 - w) * (fracSqrt2 : ℂ))])
        = ((e.2 - w) * (fracSqrt2 : ℂ)) • ket (idBits m (e.1 ^^^ setBit 0 tl true)) := by
      split
      · rename_i h; rw [h]; simp
      · simp [view_cons, entryWave]
    rw [v1, v2]
    simp only [matH, mat, fracSqrt2]
    simp only [if_true, if_false, Bool.false_eq_true]
    module
  · intro e _ w hc hw hr
    have hb : e.1.testBit tl = true := by simpa using hr
    unfold mchEntry
    simp [hc, hw, hb]
  · intro _ _ _; rfl

theorem core_rot {m : IMap ℕ} {l : List (ℕ × ℂ)} (hcore : Core m l) (eps : ℝ) {cs csl : List ℕ}
    {t tl : ℕ} (hcs : List.Forall₂ (fun i l => m.get i = some l) cs csl) (hget : m.get t = some tl)
    (ht : t ∉ cs) (m00 m01 m10 : ℂ) : Core m (l.flatMap (rotEntry eps l csl tl m00 m01 m10)) := by
  have htl := not_mem_locs hcore.inj hcs hget ht
  apply hcore.flatMap_bit htl hget
  · intro e _
    have := flip_ne e.1 tl
    unfold rotEntry
    simp only
    split
    · split
      · split <;> simp [this, Ne.symm this]
      · split
        · split <;> split <;> simp [Ne.symm this]
        · simp
    · simp
  · intro e _ k hk
    unfold rotEntry at hk
    simp only at hk
    split at hk
    · rename_i hc
      split at hk
      · split at hk
        · simp only [List.map_cons, List.map_nil, List.mem_cons, List.not_mem_nil, or_false] at hk
          rcases hk with h | h
          · right; exact ⟨hc, h⟩
          · left; exact h
        · simp only [List.map_cons, List.map_nil, List.mem_cons, List.not_mem_nil, or_false] at hk
          rcases hk with h | h
          · left; exact h
          · right; exact ⟨hc, h⟩
      · split at hk
        · rw [List.map_append, List.mem_append] at hk
          rcases hk with hk | hk
          · split at hk
            · simp at hk
            · left; simpa using hk
          · split at hk
            · simp at hk
            · right; exact ⟨hc, by simpa using hk⟩
        · simp at hk
    · left; simpa using hk
  · intro e _ w hc hw hb
    unfold rotEntry
    simp [hc, hw, hb]

theorem view_rot {m : IMap ℕ} {l : List (ℕ × ℂ)} (hcore : Core m l) {cs csl : List ℕ}
    {t tl : ℕ} (hcs : List.Forall₂ (fun i l => m.get i = some l) cs csl) (hget : m.get t = some tl)
    (ht : t ∉ cs) (m00 m01 m10 : ℂ) :
    view m (l.flatMap (rotEntry 0 l csl tl m00 m01 m10)) =
      ctrlL cs (mat m00 m01 m10 m00) t (view m l) := by
  have htl := not_mem_locs hcore.inj hcs hget ht
  have hA : ∀ k v, (csl.all fun c => k.testBit c) = true →
      ctrlL cs (mat m00 m01 m10 m00) t (entryWave m (k, v)) =
      v • ((mat m00 m01 m10 m00) false (k.testBit tl) • ket (idBits m (setBit k tl false)) +
        (mat m00 m01 m10 m00) true (k.testBit tl) • ket (idBits m (setBit k tl true))) := by
    intro k v hc
    rw [show entryWave m (k, v) = v • ket (idBits m k) from rfl, map_smul, ctrlL_apply, ctrl_ket ht,
      if_pos ((all_ctls_iff hcs k).1 hc), idBits_setBit hcore.inj hget, idBits_setBit hcore.inj hget,
      idBits_of hget]
  have hmain := pair_sum (m := m) hcore.nodup (ctrlL cs (mat m00 m01 m10 m00) t)
    (rotEntry 0 l csl tl m00 m01 m10) (fun _ => 0) (pairing_bit htl) ?_ ?_ ?_ ?_ ?_
  · rw [hmain]; simp
  · intro e _ hc
    unfold rotEntry
    have hc' : ¬ ∀ c ∈ cs, idBits m e.1 c = true := by
      rw [← all_ctls_iff hcs]; simpa using hc
    rw [if_neg (by simpa using hc), view_cons, view_nil, add_zero,
      show entryWave m e = e.2 • ket (idBits m e.1) from rfl, map_smul, ctrlL_apply, ctrl_ket ht,
      if_neg hc']
  · intro e _ hc hw
    rw [show e = (e.1, e.2) from rfl, hA e.1 e.2 hc]
    unfold rotEntry
    simp only [hc, if_true, hw]
    cases h : e.1.testBit tl
    · have e0 : setBit e.1 tl false = e.1 := by unfold setBit; rw [if_pos h]
      rw [e0, ← show e.1 ^^^ setBit 0 tl true = setBit e.1 tl true from flip_eq_setBit h]
      simp [view_cons, entryWave, mat, mul_smul]
    · have e0 : setBit e.1 tl true = e.1 := by unfold setBit; rw [if_pos h]
      rw [e0, ← show e.1 ^^^ setBit 0 tl true = setBit e.1 tl false from flip_eq_setBit h]
      simp [view_cons, entryWave, mat, mul_smul]
  · intro e _ w hc hw hr
    have hb : e.1.testBit tl = false := by simpa using hr
    have hc2 : (csl.all fun c => (e.1 ^^^ setBit 0 tl true).testBit c) = true := by
      rw [(pairing_bit htl).ctl]; exact hc
    have hb2 : (e.1 ^^^ setBit 0 tl true).testBit tl = true := by rw [testBit_flip]; simp [hb]
    have e0 : setBit e.1 tl false = e.1 := by unfold setBit; rw [if_pos hb]
    have e1 : setBit e.1 tl true = e.1 ^^^ setBit 0 tl true := (flip_eq_setBit hb).symm
    have e2 : setBit (e.1 ^^^ setBit 0 tl true) tl false = e.1 := by
      rw [← show _ = setBit (e.1 ^^^ setBit 0 tl true) tl false from flip_eq_setBit hb2]
      exact flip_flip _ _
    have e3 : setBit (e.1 ^^^ setBit 0 tl true) tl true = e.1 ^^^ setBit 0 tl true := by
      rw [setBit, if_pos hb2]
    rw [show entryWave m e = entryWave m (e.1, e.2) from rfl, hA e.1 e.2 hc, hA _ w hc2, hb, hb2, e0,
      e1, e2, e3]
    unfold rotEntry
    simp only [hc, if_true, hw, hb, Bool.not_false, nearlyZero_zero]
    rw [view_append]
    have v1 : ∀ k (z : ℂ), view m (if z = 0 then [] else [(k, z)]) = z • ket (idBits m k) := by
      intro k z
      split
      · rename_i h; rw [h]; simp
      · simp [view_cons, entryWave]
    rw [v1, v1]
    simp only [mat, if_true, if_false, Bool.false_eq_true]
    module
  · intro e _ w hc hw hr
    have hb : e.1.testBit tl = true := by simpa using hr
    unfold rotEntry
    simp [hc, hw, hb]
  · intro _ _ _; rfl

end Qir
