import Verif.Model.Generic
import Verif.Proof.Exp2
import Verif.Proof.Order

/-!
# What the simulator keeps whatever its numbers are

The stored state and the queues of `Model/Generic` under an arbitrary arithmetic: distinct indices, bits only where a
qubit is, queued operations only on qubits in use, at most `QUEUE_LIMIT` of them.
-/

namespace Qir
namespace Gen
open Function
open Qir.Sim (resolveId resolveIds indexId resolveAndCheck checkForDuplicates firstFree locMask oddParity findByLoc
  ExpMasks expMasks expCheckDup)

variable {F : Type} {N : Num F}

/-! ### The stored state -/

/-- The structural invariant of the stored state. -/
structure GCore (m : IMap ℕ) (st : List (ℕ × Cx F)) : Prop where
  inj : Inj m
  nodup : (st.map Prod.fst).Nodup
  bits : ∀ e ∈ st, BitsIn m e.1

theorem insertPair_new {m : List (ℕ × Cx F)} {p : ℕ × Cx F} (h : p.1 ∉ m.map Prod.fst) :
    insertPair m p = m ++ [p] := by
  unfold insertPair
  rw [if_neg]
  simp only [List.any_eq_true, beq_iff_eq, not_exists, not_and]
  intro q hq hqp
  exact h (List.mem_map.2 ⟨q, hq, hqp⟩)

theorem foldl_insertPair {acc l : List (ℕ × Cx F)} (h : ((acc ++ l).map Prod.fst).Nodup) :
    l.foldl insertPair acc = acc ++ l := by
  induction l generalizing acc with
  | nil => simp
  | cons p l ih =>
    have hp : p.1 ∉ acc.map Prod.fst := by
      rw [List.map_append, List.nodup_append] at h
      intro hc
      exact h.2.2 p.1 hc p.1 (by simp) rfl
    rw [List.foldl_cons, insertPair_new hp, ih (by simpa using h)]
    simp

theorem collectMap_nodup {l : List (ℕ × Cx F)} (h : (l.map Prod.fst).Nodup) : collectMap l = l := by
  unfold collectMap
  rw [foldl_insertPair (by simpa using h)]; simp

theorem lookupMap_isSome {l : List (ℕ × Cx F)} {k : ℕ} (h : k ∈ l.map Prod.fst) : ∃ v, lookupMap l k = some v := by
  unfold lookupMap
  obtain ⟨e, he, rfl⟩ := List.mem_map.1 h
  cases hf : l.find? (fun p => p.1 == e.1) with
  | none => exact absurd (beq_self_eq_true e.1) (List.find?_eq_none.1 hf e he)
  | some p => exact ⟨p.2, rfl⟩

theorem pair_nodup {l : List (ℕ × Cx F)} (hl : (l.map Prod.fst).Nodup)
    (f : ℕ × Cx F → List (ℕ × Cx F)) {σ : ℕ → ℕ} {C r : ℕ → Bool} (hp : Pairing σ C r)
    (h1 : ∀ e ∈ l, ((f e).map Prod.fst).Nodup)
    (h2 : ∀ e ∈ l, ∀ k ∈ (f e).map Prod.fst, k = e.1 ∨ (C e.1 = true ∧ k = σ e.1))
    (h4 : ∀ e ∈ l, ∀ w, C e.1 = true → lookupMap l (σ e.1) = some w → r e.1 = false → f e = []) :
    ((l.flatMap f).map Prod.fst).Nodup := by
  rw [List.map_flatMap, List.nodup_flatMap]
  refine ⟨h1, ?_⟩
  have hpw : l.Pairwise (fun a b => a.1 ≠ b.1) := List.pairwise_map.1 hl
  have key : ∀ e1 ∈ l, ∀ e2 ∈ l, e1.1 = σ e2.1 → C e2.1 = true → ∀ k, k ∈ (f e1).map Prod.fst →
      k ∈ (f e2).map Prod.fst → False := by
    intro e1 he1 e2 he2 h hc k hk1 hk2
    obtain ⟨w2, hl2⟩ : ∃ w, lookupMap l (σ e2.1) = some w := by
      rw [← h]; exact lookupMap_isSome (List.mem_map.2 ⟨e1, he1, rfl⟩)
    obtain ⟨w1, hl1⟩ : ∃ w, lookupMap l (σ e1.1) = some w := by
      rw [h, hp.invol]; exact lookupMap_isSome (List.mem_map.2 ⟨e2, he2, rfl⟩)
    have hc1 : C e1.1 = true := by rw [h, hp.ctl]; exact hc
    cases hr : r e2.1 with
    | false => rw [h4 e2 he2 _ hc hl2 hr] at hk2; simp at hk2
    | true =>
      have : r e1.1 = false := by rw [h, hp.rep, hr]; rfl
      rw [h4 e1 he1 _ hc1 hl1 this] at hk1; simp at hk1
  refine hpw.imp_of_mem ?_
  intro e1 e2 he1 he2 hne
  simp only [Function.onFun, List.disjoint_left]
  intro k hk1 hk2
  rcases h2 e1 he1 k hk1 with ha | ⟨hc1, ha⟩ <;> rcases h2 e2 he2 k hk2 with hb | ⟨hc2, hb⟩
  · exact hne (ha.symm.trans hb)
  · exact key e1 he1 e2 he2 (ha.symm.trans hb) hc2 k hk1 hk2
  · exact key e2 he2 e1 he1 (hb.symm.trans ha) hc1 k hk2 hk1
  · apply hne
    have := ha.symm.trans hb
    rw [← hp.invol e1.1, this, hp.invol]

theorem GCore.perm {m : IMap ℕ} {st st' : List (ℕ × Cx F)} (h : GCore m st) (hp : st'.Perm st) : GCore m st' :=
  ⟨h.inj, ((hp.map Prod.fst).nodup_iff).2 h.nodup, fun e he => h.bits e (hp.mem_iff.1 he)⟩

theorem GCore.mapKey {m : IMap ℕ} {st : List (ℕ × Cx F)} (h : GCore m st) (f : ℕ × Cx F → ℕ × Cx F)
    (hf : ∀ e, (f e).1 = e.1) : GCore m (st.map f) := by
  refine ⟨h.inj, ?_, ?_⟩
  · rw [List.map_map, show Prod.fst ∘ f = Prod.fst from funext hf]; exact h.nodup
  · intro e he
    obtain ⟨e', he', rfl⟩ := List.mem_map.1 he
    rw [hf]; exact h.bits e' he'

theorem GCore.filterKey {m : IMap ℕ} {st : List (ℕ × Cx F)} (h : GCore m st) (f : ℕ × Cx F → Option (ℕ × Cx F))
    (hf : ∀ e e', f e = some e' → e'.1 = e.1) : GCore m (st.filterMap f) := by
  refine ⟨h.inj, ?_, ?_⟩
  · have hs : ∀ l : List (ℕ × Cx F), ((l.filterMap f).map Prod.fst).Sublist (l.map Prod.fst) := by
      intro l
      induction l with
      | nil => simp
      | cons a l ih =>
        cases ha : f a with
        | none => rw [List.filterMap_cons_none ha]; exact ih.cons _
        | some b =>
          rw [List.filterMap_cons_some ha, List.map_cons, List.map_cons, hf a b ha]
          exact ih.cons_cons _
    exact (hs st).nodup h.nodup
  · intro e he
    obtain ⟨e', he', hfe⟩ := List.mem_filterMap.1 he
    rw [hf _ _ hfe]; exact h.bits e' he'

theorem GCore.shuffled {m : IMap ℕ} {st : List (ℕ × Cx F)} (h : GCore m st) (N : Num F) :
    GCore m (N.shuffle (collectMap st)) := by
  rw [collectMap_nodup h.nodup]; exact h.perm (N.shuffle_perm _)

/-- Invariant for every loop that emits only paired indices. -/
theorem GCore.flatMap_bit {m : IMap ℕ} {l : List (ℕ × Cx F)} (hcore : GCore m l) {cs : List ℕ} {t tl : ℕ}
    (htl : tl ∉ cs) (hget : m.get t = some tl) (f : ℕ × Cx F → List (ℕ × Cx F))
    (h1 : ∀ e ∈ l, ((f e).map Prod.fst).Nodup)
    (h2 : ∀ e ∈ l, ∀ k ∈ (f e).map Prod.fst,
      k = e.1 ∨ ((cs.all fun c => e.1.testBit c) = true ∧ k = e.1 ^^^ setBit 0 tl true))
    (h4 : ∀ e ∈ l, ∀ w, (cs.all fun c => e.1.testBit c) = true →
      lookupMap l (e.1 ^^^ setBit 0 tl true) = some w → e.1.testBit tl = true → f e = []) :
    GCore m (l.flatMap f) := by
  refine ⟨hcore.inj, ?_, ?_⟩
  · exact pair_nodup hcore.nodup f (pairing_bit htl) h1 h2
      (fun e he w hc hw hr => h4 e he w hc hw (by simpa using hr))
  · intro e he
    obtain ⟨e', he', hm⟩ := List.mem_flatMap.1 he
    rcases h2 e' he' e.1 (List.mem_map.2 ⟨e, hm, rfl⟩) with h | ⟨_, h⟩
    · rw [h]; exact hcore.bits e' he'
    · rw [h]; exact (hcore.bits e' he').flip hget

theorem core_mch {m : IMap ℕ} {l : List (ℕ × Cx F)} (hcore : GCore m l) {cs csl : List ℕ}
    {t tl : ℕ} (hcs : List.Forall₂ (fun i l => m.get i = some l) cs csl) (hget : m.get t = some tl)
    (ht : t ∉ cs) : GCore m (l.flatMap (mchEntry N l csl tl)) := by
  have htl := not_mem_locs hcore.inj hcs hget ht
  apply hcore.flatMap_bit htl hget
  · intro e _
    unfold mchEntry
    simp only
    split
    · split
      · have : setBit e.1 tl false ≠ setBit e.1 tl true := by
          intro h
          have := congrArg (fun n => n.testBit tl) h
          simp [testBit_setBit] at this
        simp [this]
      · split
        · rename_i hb
          have hb' : e.1.testBit tl = false := by simpa using hb
          have := flip_ne e.1 tl
          rw [or_flip hb']
          split <;> split <;> simp [Ne.symm this]
        · simp
    · simp
  · intro e _ k hk
    unfold mchEntry at hk
    simp only at hk
    split at hk
    · rename_i hc
      split at hk
      · simp only [List.map_cons, List.map_nil, List.mem_cons, List.not_mem_nil, or_false] at hk
        rcases hk with rfl | rfl
        · rcases setBit_false_or e.1 tl with h | h
          · left; exact h
          · right; exact ⟨hc, h⟩
        · rcases setBit_true_or e.1 tl with h | h
          · left; exact h
          · right; exact ⟨hc, h⟩
      · split at hk
        · rename_i hb
          have hb' : e.1.testBit tl = false := by simpa using hb
          rw [or_flip hb'] at hk
          rw [List.map_append, List.mem_append] at hk
          rcases hk with hk | hk
          · split at hk
            · simp at hk
            · left; simpa using hk
          · split at hk
            · simp at hk
            · right; exact ⟨hc, by simpa using hk⟩
        · simp at hk
    · left; simpa using hk
  · intro e _ w hc hw hb
    unfold mchEntry
    simp [hc, hw, hb]

theorem core_rot {m : IMap ℕ} {l : List (ℕ × Cx F)} (hcore : GCore m l) {cs csl : List ℕ}
    {t tl : ℕ} (hcs : List.Forall₂ (fun i l => m.get i = some l) cs csl) (hget : m.get t = some tl)
    (ht : t ∉ cs) (m00 m01 m10 : Cx F) : GCore m (l.flatMap (rotEntry N l csl tl m00 m01 m10)) := by
  have htl := not_mem_locs hcore.inj hcs hget ht
  apply hcore.flatMap_bit htl hget
  · intro e _
    have := flip_ne e.1 tl
    unfold rotEntry
    simp only
    split
    · split
      · split <;> simp [this, Ne.symm this]
      · split
        · split <;> split <;> simp [Ne.symm this]
        · simp
    · simp
  · intro e _ k hk
    unfold rotEntry at hk
    simp only at hk
    split at hk
    · rename_i hc
      split at hk
      · split at hk
        · simp only [List.map_cons, List.map_nil, List.mem_cons, List.not_mem_nil, or_false] at hk
          rcases hk with h | h
          · right; exact ⟨hc, h⟩
          · left; exact h
        · simp only [List.map_cons, List.map_nil, List.mem_cons, List.not_mem_nil, or_false] at hk
          rcases hk with h | h
          · left; exact h
          · right; exact ⟨hc, h⟩
      · split at hk
        · rw [List.map_append, List.mem_append] at hk
          rcases hk with hk | hk
          · split at hk
            · simp at hk
            · left; simpa using hk
          · split at hk
            · simp at hk
            · right; exact ⟨hc, by simpa using hk⟩
        · simp at hk
    · left; simpa using hk
  · intro e _ w hc hw hb
    unfold rotEntry
    simp [hc, hw, hb]

/-! ### Queued operations -/

/-- The operations that flip the target bit. -/
def flips : GOp F → Bool
  | .X => true
  | .Y => true
  | _ => false

theorem flip_setBit (k t : ℕ) : setBit k t (!k.testBit t) = k ^^^ setBit 0 t true := by
  apply Nat.eq_of_testBit_eq; intro l
  rw [testBit_setBit, testBit_flip]
  by_cases hl : l = t
  · subst hl; simp
  · simp [hl]

theorem applyOp_fst (cs : List ℕ) (t : ℕ) (op : GOp F) (e : ℕ × Cx F) :
    (applyOp N (cs, t, op) e).1 =
      if flips op && (cs.all fun c => e.1.testBit c) then e.1 ^^^ setBit 0 t true else e.1 := by
  unfold applyOp
  cases hc : cs.all fun c => e.1.testBit c
  · simp
  · simp only [if_true, Bool.and_true]
    cases op <;> simp [flips, xTransform, yTransform, phaseTransform, rzTransform, flip_setBit]

theorem GCore.applyOp {m : IMap ℕ} {st : List (ℕ × Cx F)} (h : GCore m st) {cs : List ℕ} {t tl : ℕ} (htl : tl ∉ cs)
    (hget : m.get t = some tl) (op : GOp F) : GCore m (st.map (Gen.applyOp N (cs, tl, op))) := by
  have hall : ∀ k : ℕ, (cs.all fun c => (k ^^^ setBit 0 tl true).testBit c) = cs.all fun c => k.testBit c := by
    intro k
    apply all_congr_testBit
    intro c hc
    rw [testBit_flip, if_neg (by rintro rfl; exact htl hc)]
  refine ⟨h.inj, ?_, ?_⟩
  · rw [List.map_map]
    apply List.Nodup.map_on _ h.nodup.of_map
    intro e he e' he' hee
    apply List.inj_on_of_nodup_map h.nodup he he'
    simp only [comp_apply, applyOp_fst] at hee
    cases hf : flips op
    · simpa [hf] using hee
    · simp only [hf, Bool.true_and] at hee
      split at hee <;> split at hee
      · have := congrArg (· ^^^ setBit 0 tl true) hee
        simpa only [flip_flip] using this
      · rename_i h1 h2
        exact absurd (by rw [← hee, hall]; exact h1) h2
      · rename_i h1 h2
        exact absurd (by rw [hee, hall]; exact h2) h1
      · exact hee
  · intro e he
    obtain ⟨e', he', rfl⟩ := List.mem_map.1 he
    rw [applyOp_fst]
    split
    · exact (h.bits e' he').flip hget
    · exact h.bits e' he'

theorem resolveOps_core {m : IMap ℕ} : ∀ {ops : List (List ℕ × ℕ × GOp F)},
    (∀ op ∈ ops, OpndsOk m op.1 op.2.1) → ∃ rops, resolveOps m ops = .ok rops ∧
      ∀ st, GCore m st → GCore m (st.map (applyOps N rops))
  | [], _ => ⟨[], rfl, fun st h => by
      have : st.map (applyOps N []) = st := by
        rw [show applyOps N [] = id from rfl, List.map_id]
      rw [this]; exact h⟩
  | (cs, t, op) :: ops, h => by
    obtain ⟨rest, hr, hc⟩ := resolveOps_core (ops := ops) (fun o ho => h o (by simp [ho]))
    have hok : OpndsOk m cs t := h (cs, t, op) (by simp)
    obtain ⟨tl, csl, h1, htl, hcs⟩ := resolveAndCheck_ok hok
    refine ⟨(csl, tl, op) :: rest, ?_, ?_⟩
    · simp only [resolveOps, h1, ok_bind, hr]; rfl
    · intro st hst
      have h2 := hc _ (hst.applyOp (N := N) (not_mem_locs hst.inj hcs htl hok.not_mem) htl op)
      rw [List.map_map] at h2
      exact h2

/-- Invariant of the simulator. -/
structure Inv (s : GSim F) : Prop where
  core : GCore s.idMap s.state
  ops : ∀ op ∈ s.opQ, OpndsOk s.idMap op.1 op.2.1
  bound : s.opQ.length ≤ QUEUE_LIMIT
  h : ∀ q, s.hFlag.testBit q = true → (s.idMap.get q).isSome = true
  rx : ∀ q, (s.rxQ.get q).isSome = true → (s.idMap.get q).isSome = true
  ry : ∀ q, (s.ryQ.get q).isSome = true → (s.idMap.get q).isSome = true

/-- A method that keeps the identifiers and queues no Hadamard or rotation. -/
structure Down (s s' : GSim F) : Prop where
  inv : Inv s'
  idMap : s'.idMap = s.idMap
  rng : s'.rng = s.rng
  h : ∀ q, s'.hFlag.testBit q = true → s.hFlag.testBit q = true
  rx : ∀ q, (s'.rxQ.get q).isSome = true → (s.rxQ.get q).isSome = true
  ry : ∀ q, (s'.ryQ.get q).isSome = true → (s.ryQ.get q).isSome = true

theorem Down.refl {s : GSim F} (h : Inv s) : Down s s := ⟨h, rfl, rfl, fun _ h => h, fun _ h => h, fun _ h => h⟩

theorem Down.trans {s s1 s2 : GSim F} (h : Down s s1) (h' : Down s1 s2) : Down s s2 :=
  ⟨h'.inv, h'.idMap.trans h.idMap, h'.rng.trans h.rng, fun q x => h.h q (h'.h q x), fun q x => h.rx q (h'.rx q x),
    fun q x => h.ry q (h'.ry q x)⟩

/-- The call ends without a panic, in a state with the property. -/
def Goes {α : Type} (P : α → Prop) (r : Except Panic α) : Prop := ∃ s, r = .ok s ∧ P s

theorem Goes.bind {s : GSim F} {r : Except Panic (GSim F)} {f : GSim F → Except Panic (GSim F)}
    (h : Goes (Down s) r) (h' : ∀ s1, Down s s1 → Goes (Down s1) (f s1)) : Goes (Down s) (r >>= f) := by
  obtain ⟨s1, h1, hd⟩ := h
  obtain ⟨s2, h2, hd2⟩ := h' s1 hd
  exact ⟨s2, by rw [h1, ok_bind, h2], hd.trans hd2⟩

theorem Goes.mono {α : Type} {P Q : α → Prop} {r : Except Panic α} (h : Goes P r) (hpq : ∀ a, P a → Q a) : Goes Q r := by
  obtain ⟨a, h1, h2⟩ := h
  exact ⟨a, h1, hpq a h2⟩

/-- Changing only the stored state, with all operations applied. -/
theorem Down.state {s : GSim F} (h : Inv s) {st : List (ℕ × Cx F)} (hc : GCore s.idMap st) :
    Down s { s with state := st, opQ := [] } :=
  ⟨⟨hc, by simp, by simp, h.h, h.rx, h.ry⟩, rfl, rfl, fun _ h => h, fun _ h => h, fun _ h => h⟩

theorem takeOps_ok (N : Num F) {s : GSim F} (h : Inv s) : ∃ rops, takeOps s = .ok (rops, { s with opQ := [] }) ∧
    GCore s.idMap (s.state.map (applyOps N rops)) := by
  obtain ⟨rops, hr, hc⟩ := resolveOps_core (N := N) h.ops
  exact ⟨rops, by simp [takeOps, hr], hc _ h.core⟩

/-- After `flush_ops` the queue of operations is empty. -/
theorem flushOps_goes {s : GSim F} (h : Inv s) : Goes (fun s' => Down s s' ∧ s'.opQ = []) (flushOps N s) := by
  unfold flushOps
  split
  · rename_i he
    exact ⟨s, rfl, Down.refl h, by simpa using he⟩
  · obtain ⟨rops, hr, hc⟩ := takeOps_ok N h
    exact ⟨_, by rw [hr]; rfl, Down.state h hc, rfl⟩

theorem enqueueOp_goes {s : GSim F} (h : Inv s) {t : ℕ} {cs : List ℕ} (op : GOp F) (hok : OpndsOk s.idMap cs t) :
    Goes (Down s) (enqueueOp N t cs op s) := by
  have key : ∀ s1, Down s s1 → s1.opQ.length < QUEUE_LIMIT →
      Goes (Down s) (pure { s1 with opQ := s1.opQ ++ [(cs, t, op)] } : Except Panic (GSim F)) := by
    intro s1 hd hl
    refine ⟨_, rfl, ⟨⟨hd.inv.core, ?_, ?_, hd.inv.h, hd.inv.rx, hd.inv.ry⟩, hd.idMap, hd.rng, hd.h, hd.rx, hd.ry⟩⟩
    · intro o ho
      rcases List.mem_append.1 ho with ho | ho
      · exact hd.inv.ops o ho
      · simp only [List.mem_singleton] at ho
        subst ho
        show OpndsOk s1.idMap cs t
        rw [hd.idMap]; exact hok
    · simp only [List.length_append, List.length_singleton]; omega
  unfold enqueueOp
  split
  · obtain ⟨s1, h1, hd, ho⟩ := flushOps_goes (N := N) h
    rw [h1, ok_bind]
    exact key s1 hd (by rw [ho]; simp [QUEUE_LIMIT])
  · rename_i hne
    rw [ok_bind]
    have := h.bound
    exact key s (Down.refl h) (by omega)

theorem applyMch_goes {s : GSim F} (h : Inv s) {t : ℕ} {cs : List ℕ} (hok : OpndsOk s.idMap cs t) :
    Goes (Down s) (applyMch N cs t s) := by
  obtain ⟨tl, csl, hr, htl, hcs⟩ := resolveAndCheck_ok hok
  obtain ⟨rops, ht, hc⟩ := takeOps_ok N h
  exact ⟨_, by simp only [applyMch, hr, ok_bind, ht]; rfl, Down.state h (core_mch (hc.shuffled N) hcs htl hok.not_mem)⟩

theorem scaleIf_fst (csl : List ℕ) (f : Cx F) (e : ℕ × Cx F) : (scaleIf N csl f e).1 = e.1 := by
  unfold scaleIf; split <;> rfl

theorem GCore.scaled {m : IMap ℕ} {st : List (ℕ × Cx F)} {g : ℕ × Cx F → ℕ × Cx F} (h : GCore m (st.map g))
    (csl : List ℕ) (f : Cx F) : GCore m (st.map (fun e => scaleIf N csl f (g e))) := by
  have := h.mapKey (scaleIf N csl f) (scaleIf_fst csl f)
  rwa [List.map_map] at this

theorem mcrotation_goes {s : GSim F} (h : Inv s) {t : ℕ} {cs : List ℕ} (hok : OpndsOk s.idMap cs t)
    {pauli : GSim F → Except Panic (GSim F)} (hp : Goes (Down s) (pauli s)) (θ : F) (flip : Bool) :
    Goes (Down s) (mcrotation N pauli cs θ t flip s) := by
  obtain ⟨tl, csl, hr, htl, hcs⟩ := resolveAndCheck_ok hok
  unfold mcrotation
  simp only
  split
  · refine hp.bind ?_
    intro s1 hd
    rw [hd.idMap, hr, ok_bind]
    simp only
    generalize N.mulC (rotM01 N θ flip) (if flip then N.iC else N.oneC) = fac
    split
    · obtain ⟨rops, ht, hc⟩ := takeOps_ok N hd.inv
      rw [ht, ok_bind]
      exact ⟨_, rfl, Down.state hd.inv (hc.scaled _ _)⟩
    · exact ⟨s1, rfl, Down.refl hd.inv⟩
  · split
    · split
      · obtain ⟨rops, ht, hc⟩ := takeOps_ok N h
        rw [ht, ok_bind]
        simp only [hr, ok_bind]
        exact ⟨_, rfl, Down.state h (hc.scaled _ _)⟩
      · exact ⟨s, rfl, Down.refl h⟩
    · rw [hr, ok_bind]
      obtain ⟨rops, ht, hc⟩ := takeOps_ok N h
      simp only [ht, ok_bind]
      exact ⟨_, rfl, Down.state h (core_rot (hc.shuffled N) hcs htl hok.not_mem _ _ _)⟩

theorem isSome_modify {V : Type} (m : IMap V) (i k : ℕ) (f : V → V) :
    ((m.modify i f).get k).isSome = (m.get k).isSome := by
  rw [IMap.get_modify]
  split
  · rename_i hk; subst hk; cases m.get k <;> rfl
  · rfl

theorem Down.modifyRx {s : GSim F} (h : Inv s) (t : ℕ) (f : F → F) : Down s { s with rxQ := s.rxQ.modify t f } :=
  ⟨⟨h.core, h.ops, h.bound, h.h, fun q hq => h.rx q (by rwa [isSome_modify] at hq), h.ry⟩, rfl, rfl, fun _ h => h,
    fun q hq => by rwa [isSome_modify] at hq, fun _ h => h⟩

theorem Down.modifyRy {s : GSim F} (h : Inv s) (t : ℕ) (f : F → F) : Down s { s with ryQ := s.ryQ.modify t f } :=
  ⟨⟨h.core, h.ops, h.bound, h.h, h.rx, fun q hq => h.ry q (by rwa [isSome_modify] at hq)⟩, rfl, rfl, fun _ h => h,
    fun _ h => h, fun q hq => by rwa [isSome_modify] at hq⟩

theorem Goes.after {s s1 : GSim F} {r : Except Panic (GSim F)} (hd : Down s s1) (h : Goes (Down s1) r) :
    Goes (Down s) r := h.mono (fun _ => hd.trans)

theorem x_goes {s : GSim F} (h : Inv s) {t : ℕ} (ht : (s.idMap.get t).isSome) : Goes (Down s) (x N t s) := by
  have hd := Down.modifyRy h t (fun a => N.mul a (N.neg N.one))
  unfold x
  simp only
  split
  · exact Goes.after hd (enqueueOp_goes hd.inv _ (single_ok ht))
  · exact Goes.after hd (enqueueOp_goes hd.inv _ (single_ok ht))

theorem y_goes {s : GSim F} (h : Inv s) {t : ℕ} (ht : (s.idMap.get t).isSome) : Goes (Down s) (y N t s) := by
  have hd := Down.modifyRx h t (fun a => N.mul a (N.neg N.one))
  exact Goes.after hd (enqueueOp_goes hd.inv _ (single_ok ht))

theorem z_goes {s : GSim F} (h : Inv s) {t : ℕ} (ht : (s.idMap.get t).isSome) : Goes (Down s) (z N t s) := by
  have hd := Down.modifyRy h t (fun a => N.mul a (N.neg N.one))
  have hd' := hd.trans (Down.modifyRx hd.inv t (fun a => N.mul a (N.neg N.one)))
  unfold z
  simp only
  split
  · exact Goes.after hd' (enqueueOp_goes hd'.inv _ (single_ok ht))
  · exact Goes.after hd' (enqueueOp_goes hd'.inv _ (single_ok ht))

/-! ### Flushing -/

theorem flushH_goes {s : GSim F} (h : Inv s) (t : ℕ) :
    Goes (fun s' => Down s s' ∧ s'.hFlag.testBit t = false) (flushH N t s) := by
  unfold flushH
  split
  · rename_i hh
    obtain ⟨s1, h1, hd⟩ := applyMch_goes (N := N) h (single_ok (h.h t hh))
    rw [h1, ok_bind]
    have hb : ∀ q, (setBit s1.hFlag t false).testBit q = true → s1.hFlag.testBit q = true := by
      intro q hq
      rw [testBit_setBit] at hq
      split at hq
      · cases hq
      · exact hq
    refine ⟨_, rfl, hd.trans ⟨⟨hd.inv.core, hd.inv.ops, hd.inv.bound, fun q hq => hd.inv.h q (hb q hq), hd.inv.rx,
      hd.inv.ry⟩, rfl, rfl, hb, fun _ h => h, fun _ h => h⟩, ?_⟩
    simp only [testBit_setBit, if_true]
  · rename_i hh
    exact ⟨s, rfl, Down.refl h, by simpa using hh⟩

theorem isSome_remove {V : Type} {m : IMap V} {t q : ℕ} (h : ((m.remove t).get q).isSome = true) :
    (m.get q).isSome = true := by
  rw [IMap.get_remove] at h
  split at h
  · cases h
  · exact h

theorem flushRx_goes {s : GSim F} (h : Inv s) (t : ℕ) :
    Goes (fun s' => Down s s' ∧ s'.rxQ.get t = none) (flushRx N t s) := by
  unfold flushRx
  split
  · rename_i θ hg
    have ht := h.rx t (by rw [hg]; rfl)
    obtain ⟨s1, h1, hd⟩ := mcrotation_goes (N := N) h (single_ok ht) (x_goes h ht) θ false
    rw [h1, ok_bind]
    refine ⟨_, rfl, hd.trans ⟨⟨hd.inv.core, hd.inv.ops, hd.inv.bound, hd.inv.h,
      fun q hq => hd.inv.rx q (isSome_remove hq), hd.inv.ry⟩, rfl, rfl, fun _ h => h, fun q hq => isSome_remove hq,
      fun _ h => h⟩, ?_⟩
    simp [IMap.get_remove]
  · rename_i hg
    exact ⟨s, rfl, Down.refl h, hg⟩

theorem flushRy_goes {s : GSim F} (h : Inv s) (t : ℕ) :
    Goes (fun s' => Down s s' ∧ s'.ryQ.get t = none) (flushRy N t s) := by
  unfold flushRy
  split
  · rename_i θ hg
    have ht := h.ry t (by rw [hg]; rfl)
    obtain ⟨s1, h1, hd⟩ := mcrotation_goes (N := N) h (single_ok ht) (y_goes h ht) θ true
    rw [h1, ok_bind]
    refine ⟨_, rfl, hd.trans ⟨⟨hd.inv.core, hd.inv.ops, hd.inv.bound, hd.inv.h, hd.inv.rx,
      fun q hq => hd.inv.ry q (isSome_remove hq)⟩, rfl, rfl, fun _ h => h, fun _ h => h,
      fun q hq => isSome_remove hq⟩, ?_⟩
    simp [IMap.get_remove]
  · rename_i hg
    exact ⟨s, rfl, Down.refl h, hg⟩

theorem hasQueued_eq (s : GSim F) (q : ℕ) :
    hasQueued s q = (s.hFlag.testBit q || (s.rxQ.get q).isSome || (s.ryQ.get q).isSome) := by
  rw [hasQueued, IMap.containsKey_eq, IMap.containsKey_eq]

theorem Down.none {s s' : GSim F} (h : Down s s') {q : ℕ} (hq : hasQueued s q = false) : hasQueued s' q = false := by
  rw [hasQueued_eq] at *
  by_contra hc
  simp only [Bool.not_eq_false, Bool.or_eq_true] at hc
  have : (s.hFlag.testBit q || (s.rxQ.get q).isSome || (s.ryQ.get q).isSome) = true := by
    simp only [Bool.or_eq_true]
    rcases hc with (hc | hc) | hc
    · exact .inl (.inl (h.h q hc))
    · exact .inl (.inr (h.rx q hc))
    · exact .inr (h.ry q hc)
  rw [hq] at this; cases this

theorem flushOne_goes {s : GSim F} (h : Inv s) (level : FlushLevel) (t : ℕ) :
    Goes (fun s' => Down s s' ∧ (level = .HRxRy → hasQueued s' t = false)) (flushOne N level t s) := by
  unfold flushOne
  obtain ⟨s1, h1, hd1, hh1⟩ := flushH_goes (N := N) h t
  rw [h1, ok_bind]
  cases level with
  | H => exact ⟨s1, rfl, hd1, by simp⟩
  | HRx =>
    obtain ⟨s2, h2, hd2, _⟩ := flushRx_goes (N := N) hd1.inv t
    exact ⟨s2, h2, hd1.trans hd2, by simp⟩
  | HRxRy =>
    obtain ⟨s2, h2, hd2, hr2⟩ := flushRx_goes (N := N) hd1.inv t
    obtain ⟨s3, h3, hd3, hr3⟩ := flushRy_goes (N := N) hd2.inv t
    simp only [h2, ok_bind]
    refine ⟨s3, h3, (hd1.trans hd2).trans hd3, fun _ => ?_⟩
    rw [hasQueued_eq, hr3]
    have a1 : s3.hFlag.testBit t = false := by
      by_contra hc
      have := hd2.h t (hd3.h t (by simpa using hc))
      rw [hh1] at this; cases this
    have a2 : (s3.rxQ.get t).isSome = false := by
      by_contra hc
      have := hd3.rx t (by rwa [Bool.not_eq_false] at hc)
      rw [hr2] at this; cases this
    rw [a1, a2]; rfl

theorem flushLoop_goes (level : FlushLevel) (ids : List ℕ) : ∀ {s : GSim F}, Inv s →
    Goes (fun s' => Down s s' ∧ (level = .HRxRy → ∀ q ∈ ids, hasQueued s' q = false)) (flushLoop N level ids s) := by
  induction ids with
  | nil => intro s h; exact ⟨s, rfl, Down.refl h, by simp⟩
  | cons t ids ih =>
    intro s h
    obtain ⟨s1, h1, hd1, hq1⟩ := flushOne_goes (N := N) h level t
    obtain ⟨s2, h2, hd2, hq2⟩ := ih hd1.inv
    refine ⟨s2, by simp only [flushLoop, h1, ok_bind, h2], hd1.trans hd2, ?_⟩
    intro hl q hq
    rcases List.mem_cons.1 hq with rfl | hq
    · exact hd2.none (hq1 hl)
    · exact hq2 hl q hq

/-- `flush_queue` never panics, whatever identifiers it is given, and leaves nothing queued on them. -/
theorem flushQueue_goes (level : FlushLevel) (ids : List ℕ) {s : GSim F} (h : Inv s) :
    Goes (fun s' => Down s s' ∧ s'.opQ = [] ∧ (level = .HRxRy → ∀ q ∈ ids, hasQueued s' q = false))
      (flushQueue N ids level s) := by
  obtain ⟨s1, h1, hd1, hq1⟩ := flushLoop_goes (N := N) level ids h
  obtain ⟨s2, h2, hd2, ho2⟩ := flushOps_goes (N := N) hd1.inv
  exact ⟨s2, by simp only [flushQueue, h1, ok_bind, h2], hd1.trans hd2, ho2, fun hl q hq => hd2.none (hq1 hl q hq)⟩

theorem flushQueue_down (level : FlushLevel) (ids : List ℕ) {s : GSim F} (h : Inv s) :
    Goes (Down s) (flushQueue N ids level s) := (flushQueue_goes level ids h).mono (fun _ h => h.1)

theorem maybeFlush_goes (ids : List ℕ) {s : GSim F} (h : Inv s) :
    Goes (fun s' => Down s s' ∧ ∀ q ∈ ids, hasQueued s' q = false) (maybeFlush N ids .HRxRy s) := by
  unfold maybeFlush
  split
  · exact (flushQueue_goes .HRxRy ids h).mono (fun _ h => ⟨h.1, h.2.2 rfl⟩)
  · rename_i hn
    refine ⟨s, rfl, Down.refl h, ?_⟩
    intro q hq
    by_contra hc
    apply hn
    rw [List.any_eq_true]
    exact ⟨q, hq, by simpa using hc⟩

theorem maybeFlush_down (ids : List ℕ) {s : GSim F} (h : Inv s) : Goes (Down s) (maybeFlush N ids .HRxRy s) :=
  (maybeFlush_goes ids h).mono (fun _ h => h.1)

theorem flushIf_down (c : Bool) (level : FlushLevel) (ids : List ℕ) {s : GSim F} (h : Inv s) :
    Goes (Down s) (flushIf N c ids level s) := by
  unfold flushIf
  split
  · exact flushQueue_down level ids h
  · exact ⟨s, rfl, Down.refl h⟩

end Gen
end Qir
