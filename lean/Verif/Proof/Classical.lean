import Verif.Props.ClassicalDefs
import Verif.Proof.Generic3
import Verif.Proof.Walk

/-! # Which basis states the simulator can hold, under an arbitrary arithmetic -/

namespace Qir
namespace Gen
open Function
open Qir.Sim (resolveId resolveIds indexId resolveAndCheck checkForDuplicates firstFree locMask oddParity findByLoc
  ExpMasks expMasks expCheckDup)

variable {F : Type} {N : Num F}

theorem Goes.get {α : Type} {P : α → Prop} {r : Except Panic α} (h : Goes P r) {a : α} (ha : r = .ok a) : P a := by
  obtain ⟨b, h1, h2⟩ := h
  rw [ha] at h1; cases h1; exact h2

theorem toggle_toggle (qs : List ℕ) (f : ℕ → Bool) : toggle qs (toggle qs f) = f := by
  funext q; unfold toggle; split <;> simp

theorem toggle_one (t : ℕ) (f : ℕ → Bool) : update f t (!f t) = toggle [t] f := by
  funext q
  unfold toggle
  by_cases h : q = t
  · subst h; simp
  · simp [h]

theorem toggle_ne {t q : ℕ} (h : q ≠ t) (f : ℕ → Bool) : toggle [t] f q = f q := by simp [toggle, h]

/-! ### Queued operations, by qubit -/

/-- The effect of one operation on a basis state. -/
def opStep (op : List ℕ × ℕ × GOp F) (b : ℕ → Bool) : ℕ → Bool :=
  if flips op.2.2 = true ∧ ∀ c ∈ op.1, b c = true then toggle [op.2.1] b else b

/-- The effect of the queue. -/
def after (ops : List (List ℕ × ℕ × GOp F)) (b : ℕ → Bool) : ℕ → Bool := ops.foldl (fun b op => opStep op b) b

theorem idBits_applyOp {m : IMap ℕ} (hm : Inj m) {cs csl : List ℕ} {t tl : ℕ} (op : GOp F)
    (hcs : List.Forall₂ (fun i l => m.get i = some l) cs csl) (ht : m.get t = some tl) (e : ℕ × Cx F) :
    idBits m (applyOp N (csl, tl, op) e).1 = opStep (cs, t, op) (idBits m e.1) := by
  rw [applyOp_fst]
  unfold opStep
  have hall := all_ctls_iff hcs e.1
  by_cases hc : flips op = true ∧ ∀ c ∈ cs, idBits m e.1 c = true
  · rw [if_pos hc, if_pos (by rw [Bool.and_eq_true]; exact ⟨hc.1, hall.2 hc.2⟩), idBits_flip hm ht,
      ← idBits_of ht, toggle_one]
  · rw [if_neg hc, if_neg]
    rw [Bool.and_eq_true]
    exact fun h => hc ⟨h.1, hall.1 h.2⟩

theorem idBits_applyOps {m : IMap ℕ} (hm : Inj m) : ∀ {ops rops : List (List ℕ × ℕ × GOp F)},
    resolveOps m ops = .ok rops → ∀ e, idBits m (applyOps N rops e).1 = after ops (idBits m e.1)
  | [], rops, h, e => by cases h; rfl
  | (cs, t, op) :: ops, rops, h, e => by
    unfold resolveOps at h
    obtain ⟨⟨tl, csl⟩, h1, h2⟩ := bind_ok h
    obtain ⟨rest, h3, h4⟩ := bind_ok h2
    cases h4
    obtain ⟨_, ht, hcs⟩ := resolveAndCheck_eq_ok.1 h1
    have := idBits_applyOps hm h3 (applyOp N (csl, tl, op) e)
    rw [idBits_applyOp hm op hcs ht] at this
    exact this

/-- The basis states of the stored entries, the queued operations applied. -/
def Eff (s : GSim F) (b : ℕ → Bool) : Prop := ∃ e ∈ s.state, b = after s.opQ (idBits s.idMap e.1)

/-- The basis states that can still come about: a qubit with a pending Hadamard gate or rotation is free. -/
def Poss (s : GSim F) (f : ℕ → Bool) : Prop := ∃ b, Eff s b ∧ ∀ q, hasQueued s q = false → f q = b q

/-- No new basis state. -/
def Shr (s s' : GSim F) : Prop := ∀ f, Poss s' f → Poss s f

theorem Shr.refl (s : GSim F) : Shr s s := fun _ h => h

theorem Shr.trans {s s1 s2 : GSim F} (h : Shr s s1) (h' : Shr s1 s2) : Shr s s2 := fun f hf => h f (h' f hf)

/-- Only pending qubits change. -/
theorem shr_of {s s' : GSim F} (hq : ∀ q, hasQueued s q = false → hasQueued s' q = false)
    (h : ∀ b', Eff s' b' → ∃ b, Eff s b ∧ ∀ q, hasQueued s q = false → b' q = b q) : Shr s s' := by
  rintro f ⟨b', hb', hf⟩
  obtain ⟨b, hb, he⟩ := h b' hb'
  exact ⟨b, hb, fun q hqq => (hf q (hq q hqq)).trans (he q hqq)⟩

theorem shr_eff {s s' : GSim F} (hq : ∀ q, hasQueued s q = false → hasQueued s' q = false)
    (h : ∀ b', Eff s' b' → Eff s b') : Shr s s' :=
  shr_of hq fun b' hb' => ⟨b', h b' hb', fun _ _ => rfl⟩

/-- A pending qubit is free. -/
theorem Poss.free {s : GSim F} {f g : ℕ → Bool} {t : ℕ} (h : Poss s f) (ht : hasQueued s t = true)
    (hg : ∀ q, q ≠ t → g q = f q) : Poss s g := by
  obtain ⟨b, hb, hf⟩ := h
  refine ⟨b, hb, fun q hq => ?_⟩
  rw [hg q (by rintro rfl; rw [ht] at hq; cases hq)]
  exact hf q hq

/-- The bit of `t` is changed if the controls are one. -/
def ctrlFlip (cs : List ℕ) (t : ℕ) (f : ℕ → Bool) : ℕ → Bool := if ∀ c ∈ cs, f c = true then toggle [t] f else f

theorem ctrlFlip_ne {cs : List ℕ} {t q : ℕ} (h : q ≠ t) (f : ℕ → Bool) : ctrlFlip cs t f q = f q := by
  unfold ctrlFlip
  split
  · exact toggle_ne h f
  · rfl

theorem ctrlFlip_ctls {cs : List ℕ} {t : ℕ} (h : t ∉ cs) (f : ℕ → Bool) :
    (∀ c ∈ cs, ctrlFlip cs t f c = true) ↔ ∀ c ∈ cs, f c = true := by
  constructor <;> intro hc c hm
  · rw [← ctrlFlip_ne (cs := cs) (t := t) (q := c) (by rintro rfl; exact h hm) f]; exact hc c hm
  · rw [ctrlFlip_ne (by rintro rfl; exact h hm)]; exact hc c hm

theorem ctrlFlip_twice {cs : List ℕ} {t : ℕ} (h : t ∉ cs) (f : ℕ → Bool) : ctrlFlip cs t (ctrlFlip cs t f) = f := by
  by_cases hc : ∀ c ∈ cs, f c = true
  · rw [ctrlFlip, if_pos ((ctrlFlip_ctls h f).2 hc), ctrlFlip, if_pos hc, toggle_toggle]
  · rw [ctrlFlip, if_neg (fun h' => hc ((ctrlFlip_ctls h f).1 h')), ctrlFlip, if_neg hc]

/-- The bit of `t` may be changed if the controls are one. -/
def Turn (cs : List ℕ) (t : ℕ) (f g : ℕ → Bool) : Prop := g = f ∨ ((∀ c ∈ cs, f c = true) ∧ g = toggle [t] f)

theorem turn_ctrlFlip (cs : List ℕ) (t : ℕ) (f : ℕ → Bool) : Turn cs t f (ctrlFlip cs t f) := by
  unfold ctrlFlip
  split
  · rename_i h; exact .inr ⟨h, rfl⟩
  · exact .inl rfl

/-- Every new basis state comes from an old one. -/
def Steps (G : (ℕ → Bool) → (ℕ → Bool) → Prop) (s s' : GSim F) : Prop := ∀ g, Poss s' g → ∃ f, Poss s f ∧ G f g

theorem Steps.after {G : (ℕ → Bool) → (ℕ → Bool) → Prop} {s s1 s2 : GSim F} (h : Shr s s1) (h' : Steps G s1 s2) :
    Steps G s s2 := fun g hg => by
  obtain ⟨f, hf, hG⟩ := h' g hg
  exact ⟨f, h f hf, hG⟩

theorem Steps.mono {G G' : (ℕ → Bool) → (ℕ → Bool) → Prop} {s s' : GSim F} (h : Steps G s s')
    (hG : ∀ f g, G f g → G' f g) : Steps G' s s' := fun g hg => by
  obtain ⟨f, hf, h'⟩ := h g hg
  exact ⟨f, hf, hG f g h'⟩

theorem Shr.steps {s s' : GSim F} (h : Shr s s') : Steps (fun f g => g = f) s s' := fun g hg => ⟨g, h g hg, rfl⟩

/-- A pending target is free, so a change of it is no change. -/
theorem Shr.ctrlFlip {s s' : GSim F} (h : Shr s s') {cs : List ℕ} {t : ℕ} (ht : hasQueued s t = true) (hn : t ∉ cs) :
    Steps (fun f g => g = Gen.ctrlFlip cs t f) s s' := fun g hg =>
  ⟨Gen.ctrlFlip cs t g, (h g hg).free ht (fun _ hq => ctrlFlip_ne hq g), (ctrlFlip_twice hn g).symm⟩

theorem steps_ctrlFlip {s s' : GSim F} (hq : ∀ q, hasQueued s q = false → hasQueued s' q = false) {cs : List ℕ} {t : ℕ}
    (hcs : ∀ c ∈ cs, hasQueued s c = false) (hn : t ∉ cs)
    (h : ∀ b', Eff s' b' → ∃ b, Eff s b ∧ b' = ctrlFlip cs t b) : Steps (fun f g => g = ctrlFlip cs t f) s s' := by
  rintro g ⟨b', hb', hg⟩
  obtain ⟨b, hb, rfl⟩ := h b' hb'
  refine ⟨ctrlFlip cs t g, ⟨b, hb, fun q hqq => ?_⟩, (ctrlFlip_twice hn g).symm⟩
  have hgq := hg q (hq q hqq)
  by_cases hqt : q = t
  · subst hqt
    have hall : (∀ c ∈ cs, g c = true) ↔ ∀ c ∈ cs, b c = true := by
      rw [← ctrlFlip_ctls hn b]
      constructor <;> intro h' c hc
      · rw [← hg c (hq c (hcs c hc))]; exact h' c hc
      · rw [hg c (hq c (hcs c hc))]; exact h' c hc
    by_cases hc : ∀ c ∈ cs, b c = true
    · rw [ctrlFlip, if_pos (hall.2 hc)]
      rw [ctrlFlip, if_pos hc] at hgq
      simp only [toggle, List.mem_singleton, if_true] at hgq ⊢
      rw [hgq]; simp
    · rw [ctrlFlip, if_neg (fun h' => hc (hall.1 h'))]
      rw [ctrlFlip, if_neg hc] at hgq
      exact hgq
  · rw [ctrlFlip_ne hqt, hgq, ctrlFlip_ne hqt]

theorem steps_turn {s s' : GSim F} (hq : ∀ q, hasQueued s q = false → hasQueued s' q = false) {cs : List ℕ} {t : ℕ}
    (hcs : ∀ c ∈ cs, hasQueued s c = false) (hn : t ∉ cs)
    (h : ∀ b', Eff s' b' → ∃ b, Eff s b ∧ Turn cs t b b') : Steps (Turn cs t) s s' := by
  rintro g ⟨b', hb', hg⟩
  obtain ⟨b, hb, rfl | ⟨hc, rfl⟩⟩ := h b' hb'
  · exact ⟨g, ⟨b', hb, fun q hqq => hg q (hq q hqq)⟩, .inl rfl⟩
  · refine ⟨toggle [t] g, ⟨b, hb, fun q hqq => ?_⟩, .inr ⟨fun c hm => ?_, (toggle_toggle _ _).symm⟩⟩
    · have := hg q (hq q hqq)
      unfold toggle at this ⊢
      split
      · rename_i hm
        rw [if_pos hm] at this
        rw [this]; simp
      · rename_i hm
        rw [if_neg hm] at this; exact this
    · have hct : c ≠ t := by rintro rfl; exact hn hm
      rw [toggle_ne hct, hg c (hq c (hcs c hm)), toggle_ne hct]
      exact hc c hm

/-- One qubit becomes free. -/
theorem steps_free {s s' : GSim F} {t : ℕ} (hq : ∀ q, q ≠ t → hasQueued s q = false → hasQueued s' q = false)
    (h : ∀ b', Eff s' b' → Eff s b') : Steps (Turn [] t) s s' := by
  rintro g ⟨b, hb, hg⟩
  refine ⟨update g t (b t), ⟨b, h b hb, fun q hqq => ?_⟩, ?_⟩
  · by_cases hqt : q = t
    · subst hqt; rw [update_self]
    · rw [update_of_ne hqt]; exact hg q (hq q hqt hqq)
  · by_cases hgt : g t = b t
    · left; rw [← hgt, update_eq_self]
    · right
      refine ⟨by simp, ?_⟩
      funext q
      by_cases hqt : q = t
      · subst hqt
        simp only [toggle, List.mem_singleton, if_true, update_self]
        cases h1 : g q <;> cases h2 : b q <;> simp_all
      · rw [toggle_ne hqt, update_of_ne hqt]

/-! ### The operations -/

theorem Down.quietly {s s' : GSim F} (h : Down s s') : ∀ q, hasQueued s q = false → hasQueued s' q = false :=
  fun _ hq => h.none hq

theorem takeOps_inv {s : GSim F} {r : List (List ℕ × ℕ × GOp F) × GSim F} (h : takeOps s = .ok r) :
    resolveOps s.idMap s.opQ = .ok r.1 ∧ r.2 = { s with opQ := [] } := by
  unfold takeOps at h
  obtain ⟨rops, h1, h2⟩ := bind_ok h
  cases h2
  exact ⟨h1, rfl⟩

/-- The entries with the queue applied stand for the basis states. -/
theorem eff_taken {s : GSim F} (hi : Inv s) {rops : List (List ℕ × ℕ × GOp F)}
    (h : resolveOps s.idMap s.opQ = .ok rops) {e : ℕ × Cx F} (he : e ∈ s.state.map (applyOps N rops)) :
    Eff s (idBits s.idMap e.1) := by
  obtain ⟨e0, h0, rfl⟩ := List.mem_map.1 he
  exact ⟨e0, h0, idBits_applyOps hi.core.inj h e0⟩

theorem eff_empty {s : GSim F} (h : s.opQ = []) {b : ℕ → Bool} : Eff s b ↔ ∃ e ∈ s.state, b = idBits s.idMap e.1 := by
  unfold Eff
  rw [h]; rfl

theorem flushOps_eff {s s' : GSim F} (hi : Inv s) (h : flushOps N s = .ok s') {b : ℕ → Bool} (hb : Eff s' b) :
    Eff s b := by
  unfold flushOps at h
  split at h
  · cases h; exact hb
  · obtain ⟨⟨rops, s0⟩, h1, h2⟩ := bind_ok h
    obtain ⟨hr, hs⟩ := takeOps_inv h1
    simp only at hr hs
    subst hs
    cases h2
    obtain ⟨e, he, rfl⟩ := hb
    exact eff_taken hi hr he

theorem flushOps_shr {s s' : GSim F} (hi : Inv s) (h : flushOps N s = .ok s') : Shr s s' :=
  shr_eff ((flushOps_goes hi).get h).1.quietly (fun _ => flushOps_eff hi h)

theorem enqueueOp_eff {s s' : GSim F} (hi : Inv s) {t : ℕ} {cs : List ℕ} {op : GOp F}
    (h : enqueueOp N t cs op s = .ok s') {b' : ℕ → Bool} (hb : Eff s' b') :
    ∃ b, Eff s b ∧ b' = opStep (cs, t, op) b := by
  obtain ⟨s1, hs1, rfl⟩ : ∃ s1, (∀ b, Eff s1 b → Eff s b) ∧ s' = { s1 with opQ := s1.opQ ++ [(cs, t, op)] } := by
    unfold enqueueOp at h
    split at h
    · obtain ⟨s1, h1, h2⟩ := bind_ok h
      cases h2
      exact ⟨s1, fun b hb => flushOps_eff hi h1 hb, rfl⟩
    · cases h
      exact ⟨s, fun _ h => h, rfl⟩
  obtain ⟨e, he, rfl⟩ := hb
  refine ⟨after s1.opQ (idBits s1.idMap e.1), hs1 _ ⟨e, he, rfl⟩, ?_⟩
  simp only [after, List.foldl_append, List.foldl_cons, List.foldl_nil]

theorem enqueueOp_flip {s s' : GSim F} (hi : Inv s) {t : ℕ} {cs : List ℕ} {op : GOp F} (hok : OpndsOk s.idMap cs t)
    (h : enqueueOp N t cs op s = .ok s') (hf : flips op = true) (hcs : ∀ c ∈ cs, hasQueued s c = false) :
    Steps (fun f g => g = ctrlFlip cs t f) s s' := by
  apply steps_ctrlFlip ((enqueueOp_goes hi op hok).get h).quietly hcs hok.not_mem
  intro b' hb'
  obtain ⟨b, hb, rfl⟩ := enqueueOp_eff hi h hb'
  refine ⟨b, hb, ?_⟩
  simp [opStep, ctrlFlip, hf]

theorem enqueueOp_diag {s s' : GSim F} (hi : Inv s) {t : ℕ} {cs : List ℕ} {op : GOp F} (hok : OpndsOk s.idMap cs t)
    (h : enqueueOp N t cs op s = .ok s') (hf : flips op = false) : Shr s s' := by
  apply shr_eff ((enqueueOp_goes hi op hok).get h).quietly
  intro b' hb'
  obtain ⟨b, hb, rfl⟩ := enqueueOp_eff hi h hb'
  simpa [opStep, hf] using hb

/-- On a pending target any operation is no news. -/
theorem enqueueOp_free {s s' : GSim F} (hi : Inv s) {t : ℕ} {cs : List ℕ} {op : GOp F} (hok : OpndsOk s.idMap cs t)
    (h : enqueueOp N t cs op s = .ok s') (ht : hasQueued s t = true) : Shr s s' := by
  apply shr_of ((enqueueOp_goes hi op hok).get h).quietly
  intro b' hb'
  obtain ⟨b, hb, rfl⟩ := enqueueOp_eff hi h hb'
  refine ⟨b, hb, fun q hq => ?_⟩
  unfold opStep
  split
  · exact toggle_ne (by rintro rfl; rw [ht] at hq; cases hq) b
  · rfl

/-! ### Gates that change the support -/

theorem mem_shuffled {m : IMap ℕ} {st : List (ℕ × Cx F)} (hc : GCore m st) {e : ℕ × Cx F}
    (h : e ∈ N.shuffle (collectMap st)) : e ∈ st := by
  rw [collectMap_nodup hc.nodup] at h
  exact (N.shuffle_perm _).mem_iff.1 h

theorem keys_mch {l : List (ℕ × Cx F)} {cs : List ℕ} {t : ℕ} {e e' : ℕ × Cx F}
    (h : e' ∈ mchEntry N l cs t e) :
    e'.1 = e.1 ∨ ((cs.all fun c => e.1.testBit c) = true ∧ e'.1 = e.1 ^^^ setBit 0 t true) := by
  unfold mchEntry at h
  simp only at h
  split at h
  · rename_i hc
    split at h
    · simp only [List.mem_cons, List.not_mem_nil, or_false] at h
      rcases h with rfl | rfl
      · rcases setBit_false_or e.1 t with h | h
        · left; exact h
        · right; exact ⟨hc, h⟩
      · rcases setBit_true_or e.1 t with h | h
        · left; exact h
        · right; exact ⟨hc, h⟩
    · split at h
      · rename_i hb
        have hb' : e.1.testBit t = false := by simpa using hb
        rw [or_flip hb'] at h
        rw [List.mem_append] at h
        rcases h with h | h
        · split at h
          · simp at h
          · left
            rw [List.mem_singleton] at h
            rw [h]
        · split at h
          · simp at h
          · right
            rw [List.mem_singleton] at h
            exact ⟨hc, by rw [h]⟩
      · simp at h
  · left
    rw [List.mem_singleton] at h
    rw [h]

theorem keys_rot {l : List (ℕ × Cx F)} {cs : List ℕ} {t : ℕ} {m00 m01 m10 : Cx F} {e e' : ℕ × Cx F}
    (h : e' ∈ rotEntry N l cs t m00 m01 m10 e) :
    e'.1 = e.1 ∨ ((cs.all fun c => e.1.testBit c) = true ∧ e'.1 = e.1 ^^^ setBit 0 t true) := by
  unfold rotEntry at h
  simp only at h
  split at h
  · rename_i hc
    split at h
    · split at h
      · simp only [List.mem_cons, List.not_mem_nil, or_false] at h
        rcases h with rfl | rfl
        · right; exact ⟨hc, rfl⟩
        · left; rfl
      · simp only [List.mem_cons, List.not_mem_nil, or_false] at h
        rcases h with rfl | rfl
        · left; rfl
        · right; exact ⟨hc, rfl⟩
    · split at h
      · rw [List.mem_append] at h
        rcases h with h | h
        · split at h
          · simp at h
          · left
            rw [List.mem_singleton] at h
            rw [h]
        · split at h
          · simp at h
          · right
            rw [List.mem_singleton] at h
            exact ⟨hc, by rw [h]⟩
      · simp at h
  · left
    rw [List.mem_singleton] at h
    rw [h]

theorem turn_keys {m : IMap ℕ} (hm : Inj m) {cs csl : List ℕ} {t tl k k' : ℕ}
    (hcs : List.Forall₂ (fun i l => m.get i = some l) cs csl) (ht : m.get t = some tl)
    (h : k' = k ∨ ((csl.all fun c => k.testBit c) = true ∧ k' = k ^^^ setBit 0 tl true)) :
    Turn cs t (idBits m k) (idBits m k') := by
  rcases h with rfl | ⟨hc, rfl⟩
  · exact .inl rfl
  · refine .inr ⟨(all_ctls_iff hcs k).1 hc, ?_⟩
    rw [idBits_flip hm ht, ← idBits_of ht, toggle_one]

theorem applyMch_steps {s s' : GSim F} (hi : Inv s) {t : ℕ} {cs : List ℕ} (hok : OpndsOk s.idMap cs t)
    (h : applyMch N cs t s = .ok s') (hcs : ∀ c ∈ cs, hasQueued s c = false) : Steps (Turn cs t) s s' := by
  apply steps_turn ((applyMch_goes hi hok).get h).quietly hcs hok.not_mem
  unfold applyMch at h
  obtain ⟨⟨tl, csl⟩, h1, h2⟩ := bind_ok h
  obtain ⟨⟨rops, s0⟩, h3, h4⟩ := bind_ok h2
  obtain ⟨hr, hs⟩ := takeOps_inv h3
  simp only at hr hs
  subst hs
  cases h4
  obtain ⟨_, ht, hcsl⟩ := resolveAndCheck_eq_ok.1 h1
  intro b' hb'
  obtain ⟨e, he, rfl⟩ := (eff_empty rfl).1 hb'
  obtain ⟨e0, he0, hee⟩ := List.mem_flatMap.1 he
  obtain ⟨rops', hr', hc⟩ := resolveOps_core (N := N) hi.ops
  rw [hr] at hr'; cases hr'
  exact ⟨_, eff_taken hi hr (mem_shuffled (hc _ hi.core) he0), turn_keys hi.core.inj hcsl ht (keys_mch hee)⟩

theorem scaled_eff {s : GSim F} (hi : Inv s) {rops : List (List ℕ × ℕ × GOp F)} {csl : List ℕ} {fac : Cx F}
    (h : resolveOps s.idMap s.opQ = .ok rops) {b : ℕ → Bool}
    (hb : Eff { s with state := s.state.map (fun e => scaleIf N csl fac (applyOps N rops e)), opQ := [] } b) : Eff s b := by
  obtain ⟨e, he, rfl⟩ := (eff_empty rfl).1 hb
  obtain ⟨e0, he0, rfl⟩ := List.mem_map.1 he
  rw [scaleIf_fst]
  exact eff_taken hi h (List.mem_map.2 ⟨e0, he0, rfl⟩)

theorem mcrotation_steps {s s' : GSim F} (hi : Inv s) {t : ℕ} {cs : List ℕ} (hok : OpndsOk s.idMap cs t)
    {pauli : GSim F → Except Panic (GSim F)} (hp : Goes (Down s) (pauli s))
    (hp' : ∀ s1, pauli s = .ok s1 → Steps (Turn cs t) s s1) {θ : F} {flip : Bool}
    (hcs : ∀ c ∈ cs, hasQueued s c = false) (h : mcrotation N pauli cs θ t flip s = .ok s') :
    Steps (Turn cs t) s s' := by
  have hd := (mcrotation_goes hi hok hp θ flip).get h
  unfold mcrotation at h
  simp only at h
  split at h
  · obtain ⟨s1, h1, h2⟩ := bind_ok h
    have hd1 := hp.get h1
    have hs1 := hp' s1 h1
    obtain ⟨⟨tl, csl⟩, h3, h4⟩ := bind_ok h2
    dsimp only at h4
    generalize N.mulC (rotM01 N θ flip) (if flip = true then N.iC else N.oneC) = fac at h4
    split at h4
    · obtain ⟨⟨rops, s0⟩, h5, h6⟩ := bind_ok h4
      obtain ⟨hr, hs⟩ := takeOps_inv h5
      simp only at hr hs
      subst hs
      cases h6
      intro g hg
      refine hs1 g ?_
      obtain ⟨b, hb, hf⟩ := hg
      exact ⟨b, scaled_eff hd1.inv hr hb, hf⟩
    · cases h4; exact hs1
  · have hrefl : ∀ {s2 : GSim F}, Shr s s2 → Steps (Turn cs t) s s2 := fun h => h.steps.mono fun _ _ h => .inl h
    split at h
    · split at h
      · obtain ⟨⟨rops, s0⟩, h3, h4⟩ := bind_ok h
        obtain ⟨hr, hs⟩ := takeOps_inv h3
        simp only at hr hs
        subst hs
        obtain ⟨⟨tl, csl⟩, h5, h6⟩ := bind_ok h4
        cases h6
        exact hrefl (shr_eff (fun _ h => h) fun b hb => scaled_eff hi hr hb)
      · cases h; exact hrefl (Shr.refl s)
    · apply steps_turn hd.quietly hcs hok.not_mem
      obtain ⟨⟨tl, csl⟩, h1, h2⟩ := bind_ok h
      obtain ⟨⟨rops, s0⟩, h3, h4⟩ := bind_ok h2
      obtain ⟨hr, hs⟩ := takeOps_inv h3
      simp only at hr hs
      subst hs
      cases h4
      obtain ⟨_, ht, hcsl⟩ := resolveAndCheck_eq_ok.1 h1
      intro b' hb'
      obtain ⟨e, he, rfl⟩ := (eff_empty rfl).1 hb'
      obtain ⟨e0, he0, hee⟩ := List.mem_flatMap.1 he
      obtain ⟨rops', hr', hc⟩ := resolveOps_core (N := N) hi.ops
      rw [hr] at hr'; cases hr'
      exact ⟨_, eff_taken hi hr (mem_shuffled (hc _ hi.core) he0), turn_keys hi.core.inj hcsl ht (keys_rot hee)⟩

theorem hasQueued_modifyRx (s : GSim F) (t : ℕ) (f : F → F) (q : ℕ) :
    hasQueued { s with rxQ := s.rxQ.modify t f } q = hasQueued s q := by
  simp only [hasQueued_eq, isSome_modify]

theorem hasQueued_modifyRy (s : GSim F) (t : ℕ) (f : F → F) (q : ℕ) :
    hasQueued { s with ryQ := s.ryQ.modify t f } q = hasQueued s q := by
  simp only [hasQueued_eq, isSome_modify]

theorem shr_modifyRx (s : GSim F) (t : ℕ) (f : F → F) : Shr s { s with rxQ := s.rxQ.modify t f } :=
  shr_eff (fun q hq => by rw [hasQueued_modifyRx]; exact hq) (fun _ h => h)

theorem shr_modifyRy (s : GSim F) (t : ℕ) (f : F → F) : Shr s { s with ryQ := s.ryQ.modify t f } :=
  shr_eff (fun q hq => by rw [hasQueued_modifyRy]; exact hq) (fun _ h => h)

theorem queued_of_h {s : GSim F} {t : ℕ} (h : s.hFlag.testBit t = true) : hasQueued s t = true := by
  rw [hasQueued_eq, h]; rfl

theorem x_steps {s s' : GSim F} (hi : Inv s) {t : ℕ} (ht : (s.idMap.get t).isSome) (h : x N t s = .ok s') :
    Steps (fun f g => g = ctrlFlip [] t f) s s' := by
  have hd := Down.modifyRy hi t (fun a => N.mul a (N.neg N.one))
  refine Steps.after (shr_modifyRy s t (fun a => N.mul a (N.neg N.one))) ?_
  unfold x at h
  simp only at h
  split at h
  · rename_i hh
    exact (enqueueOp_diag hd.inv (single_ok ht) h rfl).ctrlFlip (queued_of_h hh) (by simp)
  · exact enqueueOp_flip hd.inv (single_ok ht) h rfl (by simp)

theorem y_steps {s s' : GSim F} (hi : Inv s) {t : ℕ} (ht : (s.idMap.get t).isSome) (h : y N t s = .ok s') :
    Steps (fun f g => g = ctrlFlip [] t f) s s' := by
  have hd := Down.modifyRx hi t (fun a => N.mul a (N.neg N.one))
  refine Steps.after (shr_modifyRx s t (fun a => N.mul a (N.neg N.one))) ?_
  exact enqueueOp_flip hd.inv (single_ok ht) h rfl (by simp)

theorem z_shr {s s' : GSim F} (hi : Inv s) {t : ℕ} (ht : (s.idMap.get t).isSome) (h : z N t s = .ok s') : Shr s s' := by
  have hd := Down.modifyRy hi t (fun a => N.mul a (N.neg N.one))
  have hd' := hd.trans (Down.modifyRx hd.inv t (fun a => N.mul a (N.neg N.one)))
  refine (shr_modifyRy s t (fun a => N.mul a (N.neg N.one))).trans (Shr.trans (shr_modifyRx _ t
    (fun a => N.mul a (N.neg N.one))) ?_)
  unfold z at h
  simp only at h
  split at h
  · rename_i hh
    exact enqueueOp_free hd'.inv (single_ok ht) h (queued_of_h hh)
  · exact enqueueOp_diag hd'.inv (single_ok ht) h rfl

/-! ### Flushing -/

/-- A gate on a pending qubit brings nothing new. -/
theorem Steps.free {s s' : GSim F} {t : ℕ} (h : Steps (Turn [] t) s s') (ht : hasQueued s t = true) : Shr s s' := by
  intro g hg
  obtain ⟨f, hf, rfl | ⟨_, rfl⟩⟩ := h g hg
  · exact hf
  · exact hf.free ht (fun q hq => toggle_ne hq f)

theorem flushH_shr {s s' : GSim F} (hi : Inv s) {t : ℕ} (h : flushH N t s = .ok s') : Shr s s' := by
  unfold flushH at h
  split at h
  · rename_i hh
    obtain ⟨s1, h1, h2⟩ := bind_ok h
    cases h2
    refine (Steps.free (applyMch_steps hi (single_ok (hi.h t hh)) h1 (by simp)) (queued_of_h hh)).trans
      (shr_eff (fun q hq => ?_) (fun _ h => h))
    rw [hasQueued_eq] at hq ⊢
    simp only [Bool.or_eq_false_iff] at hq ⊢
    refine ⟨⟨?_, hq.1.2⟩, hq.2⟩
    rw [testBit_setBit]
    split
    · rfl
    · exact hq.1.1
  · cases h; exact Shr.refl s

theorem flushRx_shr {s s' : GSim F} (hi : Inv s) {t : ℕ} (h : flushRx N t s = .ok s') : Shr s s' := by
  unfold flushRx at h
  split at h
  · rename_i θ hg
    have ht := hi.rx t (by rw [hg]; rfl)
    obtain ⟨s1, h1, h2⟩ := bind_ok h
    cases h2
    have hq : hasQueued s t = true := by rw [hasQueued_eq, hg]; simp
    refine (Steps.free (mcrotation_steps hi (single_ok ht) (x_goes hi ht) (fun s1 h1 => (x_steps hi ht h1).mono ?_)
      (by simp) h1) hq).trans (shr_eff (fun q hq => ?_) (fun _ h => h))
    · rintro f g rfl; exact turn_ctrlFlip _ _ _
    · rw [hasQueued_eq] at hq ⊢
      simp only [Bool.or_eq_false_iff] at hq ⊢
      refine ⟨⟨hq.1.1, ?_⟩, hq.2⟩
      rw [IMap.get_remove]
      split
      · rfl
      · exact hq.1.2
  · cases h; exact Shr.refl s

theorem flushRy_shr {s s' : GSim F} (hi : Inv s) {t : ℕ} (h : flushRy N t s = .ok s') : Shr s s' := by
  unfold flushRy at h
  split at h
  · rename_i θ hg
    have ht := hi.ry t (by rw [hg]; rfl)
    obtain ⟨s1, h1, h2⟩ := bind_ok h
    cases h2
    have hq : hasQueued s t = true := by rw [hasQueued_eq, hg]; simp
    refine (Steps.free (mcrotation_steps hi (single_ok ht) (y_goes hi ht) (fun s1 h1 => (y_steps hi ht h1).mono ?_)
      (by simp) h1) hq).trans (shr_eff (fun q hq => ?_) (fun _ h => h))
    · rintro f g rfl; exact turn_ctrlFlip _ _ _
    · rw [hasQueued_eq] at hq ⊢
      simp only [Bool.or_eq_false_iff] at hq ⊢
      refine ⟨hq.1, ?_⟩
      rw [IMap.get_remove]
      split
      · rfl
      · exact hq.2
  · cases h; exact Shr.refl s

theorem flushOne_shr {s s' : GSim F} (hi : Inv s) {level : FlushLevel} {t : ℕ} (h : flushOne N level t s = .ok s') :
    Shr s s' := by
  unfold flushOne at h
  obtain ⟨s1, h1, h2⟩ := bind_ok h
  have hd1 := ((flushH_goes hi t).get h1).1
  have hs1 := flushH_shr hi h1
  cases level with
  | H => cases h2; exact hs1
  | HRx => exact hs1.trans (flushRx_shr hd1.inv h2)
  | HRxRy =>
    obtain ⟨s2, h3, h4⟩ := bind_ok h2
    have hd2 := ((flushRx_goes hd1.inv t).get h3).1
    exact (hs1.trans (flushRx_shr hd1.inv h3)).trans (flushRy_shr hd2.inv h4)

theorem flushLoop_shr {level : FlushLevel} : ∀ {ids : List ℕ} {s s' : GSim F}, Inv s →
    flushLoop N level ids s = .ok s' → Shr s s'
  | [], s, s', _, h => by cases h; exact Shr.refl s
  | t :: ids, s, s', hi, h => by
    unfold flushLoop at h
    obtain ⟨s1, h1, h2⟩ := bind_ok h
    exact (flushOne_shr hi h1).trans (flushLoop_shr ((flushOne_goes hi level t).get h1).1.inv h2)

theorem flushQueue_shr {level : FlushLevel} {ids : List ℕ} {s s' : GSim F} (hi : Inv s)
    (h : flushQueue N ids level s = .ok s') : Shr s s' := by
  unfold flushQueue at h
  obtain ⟨s1, h1, h2⟩ := bind_ok h
  exact (flushLoop_shr hi h1).trans (flushOps_shr ((flushLoop_goes level ids hi).get h1).1.inv h2)

theorem maybeFlush_shr {level : FlushLevel} {ids : List ℕ} {s s' : GSim F} (hi : Inv s)
    (h : maybeFlush N ids level s = .ok s') : Shr s s' := by
  unfold maybeFlush at h
  split at h
  · exact flushQueue_shr hi h
  · cases h; exact Shr.refl s

theorem flushIf_shr {c : Bool} {level : FlushLevel} {ids : List ℕ} {s s' : GSim F} (hi : Inv s)
    (h : flushIf N c ids level s = .ok s') : Shr s s' := by
  unfold flushIf at h
  split at h
  · exact flushQueue_shr hi h
  · cases h; exact Shr.refl s

end Gen
end Qir
