import Verif.Props.GenericApplyDefs
import Verif.Proof.GenericApply
import Verif.Proof.Generic4
import Verif.Proof.Classical4

/-! # Histories with `apply` under an arbitrary arithmetic -/

namespace Qir
namespace Gen
open Function Spec
open Qir.Sim (resolveId checkForDuplicates findByLoc firstFree)

variable {F : Type} {N : Num F}

theorem controlled_rows' {U : ℕ → ℕ → Cx F} {cs ts : List ℕ} :
    (controlled N ⟨2 ^ ts.length, 2 ^ ts.length, U⟩ cs.length).rows = 2 ^ (cs ++ ts).length := by
  simp only [controlled, List.length_append, pow_add]
  rw [mul_comm]

/-- The extended matrix is the given one under controls. -/
theorem reaches_controlled (hz : N.nearlyZeroC ⟨N.zero, N.zero⟩ = true) {U : ℕ → ℕ → Cx F} {cs ts : List ℕ}
    {f g : ℕ → Bool}
    (h : Reaches N (controlled N ⟨2 ^ ts.length, 2 ^ ts.length, U⟩ cs.length).entry (cs ++ ts) f g) :
    MatrixActs N cs U ts f g := by
  obtain ⟨hoff, hent⟩ := h
  have hD : 2 ^ ts.length * 2 ^ cs.length - 2 ^ ts.length = (2 ^ cs.length - 1) * 2 ^ ts.length := by
    rw [Nat.sub_mul, one_mul, mul_comm]
  have hsplit : ∀ b : ℕ → Bool, ((2 ^ cs.length - 1) * 2 ^ ts.length ≤ rowOf (cs ++ ts) b ↔ ∀ c ∈ cs, b c = true) := by
    intro b
    have h3 := rowOf_lt ts b
    rw [rowOf_append, ← rowOf_all]
    constructor
    · intro h
      have h2 := rowOf_lt cs b
      by_contra hne
      have h4 : (rowOf cs b + 1) * 2 ^ ts.length ≤ (2 ^ cs.length - 1) * 2 ^ ts.length :=
        Nat.mul_le_mul_right _ (by omega)
      rw [Nat.add_mul, one_mul] at h4
      omega
    · intro h
      rw [h]; exact Nat.le_add_right _ _
  simp only [controlled, hD, hsplit] at hent
  unfold MatrixActs
  by_cases hf : ∀ c ∈ cs, f c = true
  · rw [if_pos hf]
    by_cases hg : ∀ c ∈ cs, g c = true
    · rw [if_pos ⟨hg, hf⟩, rowOf_append, rowOf_append, rowOf_all.2 hf, rowOf_all.2 hg, Nat.add_sub_cancel_left,
        Nat.add_sub_cancel_left] at hent
      refine ⟨fun q hq => ?_, hent⟩
      by_cases hc : q ∈ cs
      · rw [hf q hc, hg q hc]
      · exact hoff q (by simp [hc, hq])
    · rw [if_neg (fun h => hg h.1)] at hent
      split at hent
      · rename_i he
        have h1 := (hsplit g).not.2 hg
        rw [he] at h1
        exact absurd ((hsplit f).2 hf) h1
      · rw [hz] at hent; cases hent
  · rw [if_neg hf]
    rw [if_neg (fun h => hf h.2)] at hent
    split at hent
    · rename_i he
      funext q
      by_cases hq : q ∈ cs ++ ts
      · obtain ⟨i, hi, rfl⟩ := List.getElem_of_mem hq
        have h1 := testBit_rowOf (cs ++ ts) g ((cs ++ ts).length - 1 - i) (by omega)
        have h2 := testBit_rowOf (cs ++ ts) f ((cs ++ ts).length - 1 - i) (by omega)
        rw [he, h2] at h1
        have e : (cs ++ ts).length - 1 - ((cs ++ ts).length - 1 - i) = i := by omega
        simp only [e] at h1
        exact h1.symm
      · exact hoff q hq
    · rw [hz] at hent; cases hent

theorem apply_square (U : ℕ → ℕ → Cx F) (cs ts : List ℕ) (s : GSim F) :
    apply N ⟨2 ^ ts.length, 2 ^ ts.length, U⟩ ts (some cs) s =
      applyOn N (controlled N ⟨2 ^ ts.length, 2 ^ ts.length, U⟩ cs.length) (cs ++ ts) s := by
  unfold apply
  rw [if_neg (by simp), if_neg (by simp)]

theorem gap_iff {s : GSim F} {n : ℕ} : Gap s n ↔ ∃ l < n, ¬ Used s.idMap l := by
  unfold Gap Used
  simp

/-- What `apply` does, in a simulator in order. -/
theorem apply_goes {L : Finset ℕ} {s : GSim F} (hb : Books L s) {cs ts : List ℕ} (U : ℕ → ℕ → Cx F)
    (hn : (cs ++ ts).Nodup) (ht : ∀ q ∈ cs ++ ts, q ∈ L) :
    (Gap s (cs ++ ts).length → callX N (.apply cs U ts) s = .error .outOfBounds) ∧
    (¬ Gap s (cs ++ ts).length → ∃ s', Books L s' ∧ s'.rng = s.rng ∧ (∀ l, Used s'.idMap l ↔ Used s.idMap l) ∧
      callX N (.apply cs U ts) s = (if s'.state = [] then .error .assertion else .ok (.none, s')) ∧
      (N.nearlyZeroC ⟨N.zero, N.zero⟩ = true → Steps (MatrixActs N cs U ts) s s')) := by
  obtain ⟨h1, h2⟩ := applyOn_goes (N := N) hb.inv (ts := cs ++ ts)
    (u := controlled N ⟨2 ^ ts.length, 2 ^ ts.length, U⟩ cs.length) hn (fun i hi => (hb.ids i).2 (ht i hi)) controlled_rows'
  constructor
  · intro hg
    simp only [callX, apply_square, h1 (gap_iff.1 hg)]
    rfl
  · intro hg
    have hu : ∀ l < (cs ++ ts).length, Used s.idMap l := by
      intro l hl
      by_contra hc
      exact hg (gap_iff.2 ⟨l, hl, hc⟩)
    obtain ⟨s', hi, hsome, hr, hus, heq, hst⟩ := h2 hu
    refine ⟨s', ⟨hi, fun q => by rw [hsome]; exact hb.ids q⟩, hr, hus, ?_, fun hz => ?_⟩
    · simp only [callX, apply_square, heq]
      split <;> rfl
    · exact hst.mono fun f g h => reaches_controlled hz h

/-- On an empty state, `apply` panics. -/
theorem apply_empty {L : Finset ℕ} {s : GSim F} (hb : Books L s) {cs ts : List ℕ} (U : ℕ → ℕ → Cx F)
    (hn : (cs ++ ts).Nodup) (ht : ∀ q ∈ cs ++ ts, q ∈ L) (he : s.state = []) :
    (Gap s (cs ++ ts).length ∧ callX N (.apply cs U ts) s = .error .outOfBounds) ∨
      (¬ Gap s (cs ++ ts).length ∧ callX N (.apply cs U ts) s = .error .assertion) := by
  by_cases hg : Gap s (cs ++ ts).length
  · exact .inl ⟨hg, (apply_goes hb U hn ht).1 hg⟩
  · right
    refine ⟨hg, ?_⟩
    obtain ⟨_, h2⟩ := applyOn_goes (N := N) hb.inv (ts := cs ++ ts)
      (u := controlled N ⟨2 ^ ts.length, 2 ^ ts.length, U⟩ cs.length) hn (fun i hi => (hb.ids i).2 (ht i hi)) controlled_rows'
    have hu : ∀ l < (cs ++ ts).length, Used s.idMap l := by
      intro l hl
      by_contra hc
      exact hg (gap_iff.2 ⟨l, hl, hc⟩)
    obtain ⟨s', _, _, _, _, heq, hst⟩ := h2 hu
    have : s'.state = [] := by
      by_contra hne
      obtain ⟨e, he'⟩ := List.exists_mem_of_ne_nil _ hne
      obtain ⟨f, ⟨b, ⟨e', h', _⟩, _⟩, _⟩ := hst _ ⟨_, ⟨e, he', rfl⟩, fun _ _ => rfl⟩
      rw [he] at h'; simp at h'
    rw [if_pos this] at heq
    simp only [callX, apply_square, heq]
    rfl

/-- One call. -/
theorem callX_goes {L : Finset ℕ} {S : (ℕ → Bool) → Prop} {s : GSim F} (hb : Holds L S s) (c : GXCall F)
    (hv : AllowedX L c) :
    (∃ o s', callX N c s = .ok (o, s') ∧ AnswerX N L (s.rng 0) c o ∧ Books (liveNextX L c) s' ∧
      s'.rng = (fun n => s.rng (n + drawnX L c)) ∧
      (N.nearlyZeroC ⟨N.zero, N.zero⟩ = true →
        ShowsX L S c o ∧ Holds (liveNextX L c) (fun g => possibleX N L S g c o) s') ∧
      (∀ cs U ts, c = .apply cs U ts → ¬ Gap s (cs ++ ts).length ∧ s'.state ≠ [])) ∨
    ∃ cs U ts, c = .apply cs U ts ∧
      ((Gap s (cs ++ ts).length ∧ callX N c s = .error .outOfBounds) ∨
        (¬ Gap s (cs ++ ts).length ∧ callX N c s = .error .assertion)) := by
  cases c with
  | base c =>
    left
    obtain ⟨o, s', h1, h2, h3, h4⟩ := call_goes (N := N) hb.books c hv
    exact ⟨o, s', h1, h2, h3, h4, fun _ => call_holds hb hv h1, fun _ _ _ h => by cases h⟩
  | apply cs U ts =>
    obtain ⟨h1, h2⟩ := apply_goes (N := N) hb.books U hv.1 hv.2
    by_cases hg : Gap s (cs ++ ts).length
    · right
      exact ⟨cs, U, ts, rfl, .inl ⟨hg, h1 hg⟩⟩
    · obtain ⟨s', k1, k2, k3, k4, k5⟩ := h2 hg
      by_cases he : s'.state = []
      · right
        rw [if_pos he] at k4
        exact ⟨cs, U, ts, rfl, .inr ⟨hg, k4⟩⟩
      · left
        rw [if_neg he] at k4
        refine ⟨.none, s', k4, rfl, k1, k2, fun hz => ⟨trivial, k1, (k5 hz).image hb.poss⟩, ?_⟩
        intro cs' U' ts' h
        cases h
        exact ⟨hg, he⟩

/-- Whole histories. -/
theorem runX_goes (cs : List (GXCall F)) : ∀ {L : Finset ℕ} {s : GSim F}, Books L s → ValidX L cs →
    (∃ os s', runX N cs s = .ok (os, s') ∧ AnswersX N L s.rng cs os ∧ Books (liveAfterX L cs) s' ∧
      s'.rng = fun n => s.rng (n + drawnByX L cs)) ∨
    ∃ pre ks U ts post os s', cs = pre ++ .apply ks U ts :: post ∧ runX N pre s = .ok (os, s') ∧
      Books (liveAfterX L pre) s' ∧
      ((Gap s' (ks ++ ts).length ∧ runX N cs s = .error .outOfBounds) ∨
        (¬ Gap s' (ks ++ ts).length ∧ runX N cs s = .error .assertion)) := by
  induction cs with
  | nil => intro L s hb _; exact .inl ⟨[], s, rfl, rfl, hb, rfl⟩
  | cons c cs ih =>
    intro L s hb hv
    rcases callX_goes (N := N) (S := Poss s) ⟨hb, fun _ h => h⟩ c hv.1 with ⟨o, s1, h1, h2, h3, h4, _⟩ | ⟨ks, U, ts, rfl, h⟩
    · rcases ih h3 hv.2 with ⟨os, s2, g1, g2, g3, g4⟩ | ⟨pre, ks, U, ts, post, os, s2, rfl, g2, g3, g4⟩
      · left
        refine ⟨o :: os, s2, by simp only [runX, h1, ok_bind, g1]; rfl, ⟨o, os, rfl, h2, by rw [h4] at g2; exact g2⟩, g3, ?_⟩
        rw [g4, h4]
        funext n
        simp only [drawnByX]
        congr 1
        omega
      · right
        refine ⟨c :: pre, ks, U, ts, post, o :: os, s2, rfl, by simp only [runX, h1, ok_bind, g2]; rfl, g3, ?_⟩
        rcases g4 with ⟨g, e⟩ | ⟨g, e⟩
        · exact .inl ⟨g, by simp only [runX, h1, ok_bind, e]; rfl⟩
        · exact .inr ⟨g, by simp only [runX, h1, ok_bind, e]; rfl⟩
    · right
      refine ⟨[], ks, U, ts, cs, [], s, rfl, rfl, hb, ?_⟩
      rcases h with ⟨g, e⟩ | ⟨g, e⟩
      · exact .inl ⟨g, by simp only [runX, e]; rfl⟩
      · exact .inr ⟨g, by simp only [runX, e]; rfl⟩

theorem runX_holds (hz : N.nearlyZeroC ⟨N.zero, N.zero⟩ = true) (cs : List (GXCall F)) :
    ∀ {L : Finset ℕ} {S : (ℕ → Bool) → Prop} {s s' : GSim F} {os : List (GOut F)}, Holds L S s →
    ValidX L cs → runX N cs s = .ok (os, s') → AgreeX N L S cs os ∧ Holds (liveAfterX L cs) (reachedX N L S cs os) s' := by
  induction cs with
  | nil => intro L S s s' os hb _ h; cases h; exact ⟨rfl, hb⟩
  | cons c cs ih =>
    intro L S s s' os hb hv h
    obtain ⟨⟨o, s1⟩, h1, h⟩ := bind_ok h
    obtain ⟨⟨os2, s2⟩, h2, h⟩ := bind_ok h
    cases h
    rcases callX_goes (N := N) hb c hv.1 with ⟨o', s1', k1, _, _, _, k, _⟩ | ⟨ks, U, ts, rfl, k⟩
    · rw [h1] at k1; cases k1
      obtain ⟨ha, hh⟩ := k hz
      obtain ⟨g1, g2⟩ := ih hh hv.2 h2
      exact ⟨⟨o, os2, rfl, ha, g1⟩, g2⟩
    · rcases k with ⟨_, e⟩ | ⟨_, e⟩ <;> · rw [h1] at e; cases e

theorem runX_append (cs ds : List (GXCall F)) (s : GSim F) : runX N (cs ++ ds) s = do
    let (os, s) ← runX N cs s
    let (os', s) ← runX N ds s
    return (os ++ os', s) := by
  induction cs generalizing s with
  | nil =>
    simp only [List.nil_append, runX, ok_bind]
    cases runX N ds s <;> rfl
  | cons c cs ih =>
    simp only [List.cons_append, runX]
    cases callX N c s with
    | error e => rfl
    | ok r =>
      simp only [ok_bind, ih]
      cases runX N cs r.2 with
      | error e => rfl
      | ok r' =>
        simp only [ok_bind, pure_ok]
        cases runX N ds r'.2 <;> rfl

theorem validX_append (cs ds : List (GXCall F)) (L : Finset ℕ) :
    ValidX L (cs ++ ds) ↔ ValidX L cs ∧ ValidX (liveAfterX L cs) ds := by
  induction cs generalizing L with
  | nil => simp [ValidX, liveAfterX]
  | cons c cs ih =>
    simp only [List.cons_append, ValidX, ih, and_assoc]
    rfl

/-- A history of other calls is what it was. -/
theorem runX_base (cs : List (GCall F)) (s : GSim F) : runX N (cs.map .base) s = runCalls N cs s := by
  induction cs generalizing s with
  | nil => rfl
  | cons c cs ih =>
    simp only [List.map_cons, runX, runCalls, callX, ih]

/-! ### Where no qubit is released there is no gap -/

/-- The locations in use are the lowest ones. -/
def Dense (L : Finset ℕ) (s : GSim F) : Prop := ∀ l, Used s.idMap l ↔ l < L.card

theorem Dense.no_gap {L : Finset ℕ} {s : GSim F} (h : Dense L s) {qs : List ℕ} (hn : qs.Nodup) (hq : ∀ q ∈ qs, q ∈ L) :
    ¬ Gap s qs.length := by
  rw [gap_iff]
  rintro ⟨l, hl, hu⟩
  apply hu
  rw [h]
  have : qs.toFinset ⊆ L := fun q hm => hq q (List.mem_toFinset.1 hm)
  have := Finset.card_le_card this
  rw [List.toFinset_card_of_nodup hn] at this
  omega

theorem arrange_dense {s s1 s2 : GSim F} (hi : Inv s)
    (h1 : flushQueue N (s.idMap.iter.map Prod.fst) .HRxRy s = .ok s1)
    (h2 : relocate N 0 (s.idMap.iter.map Prod.fst) s1 = .ok s2) (l : ℕ) :
    Used s2.idMap l ↔ l < s.idMap.keys.length := by
  obtain ⟨s1', s2', g1, g2, hr, hb⟩ := arrange_goes (N := N) hi
  rw [h1] at g1; cases g1
  rw [h2] at g2; cases g2
  have h := hb (2 ^ l)
  constructor
  · intro hu
    have := h.1 (by intro j hj; rw [Nat.testBit_two_pow] at hj; simp at hj; rw [← hj]; exact hu)
    exact (Nat.pow_lt_pow_iff_right (by omega)).1 this
  · intro hl
    exact h.2 ((Nat.pow_lt_pow_iff_right (by omega)).2 hl) l (by simp)

theorem gateCall_map {s s' : GSim F} (hi : Inv s) {t : ℕ} (ht : (s.idMap.get t).isSome) {g : GGate F}
    (h : gateCall N t g s = .ok s') : s'.idMap = s.idMap := by
  cases g with
  | x => exact ((x_goes hi ht).get h).idMap
  | y => exact ((y_goes hi ht).get h).idMap
  | z => exact ((z_goes hi ht).get h).idMap
  | h =>
    unfold gateCall Gen.h at h
    simp only at h
    obtain ⟨s1, h1, h⟩ := bind_ok h
    cases h
    exact ((flushIf_down _ _ _ (Down.modifyRy hi t (fun a => N.mul a (N.neg N.one))).inv).get h1).idMap
  | s => exact ((diagGate_goes hi _ ht).get h).idMap
  | sadj => exact ((diagGate_goes hi _ ht).get h).idMap
  | t => exact ((diagGate_goes hi _ ht).get h).idMap
  | tadj => exact ((diagGate_goes hi _ ht).get h).idMap
  | rx θ =>
    unfold gateCall Gen.rx at h
    obtain ⟨s1, h1, h⟩ := bind_ok h
    cases h
    exact ((flushIf_down _ _ _ hi).get h1).idMap
  | ry θ => cases h; rfl
  | rz θ => exact ((diagGate_goes hi _ ht).get h).idMap

theorem ctrlCall_map {s s' : GSim F} (hi : Inv s) {cs : List ℕ} {t : ℕ} (hok : OpndsOk s.idMap cs t) {g : GGate F}
    (h : ctrlCall N cs t g s = .ok s') : s'.idMap = s.idMap := by
  have : Goes (Down s) (ctrlCall N cs t g s) := by
    cases g with
    | x => exact mcx_goes hi hok
    | y => exact mcy_goes hi hok
    | z => exact mcz_goes hi hok
    | h => exact mch_goes hi hok
    | rx θ => exact mcrx_goes hi θ hok
    | ry θ => exact mcry_goes hi θ hok
    | _ => exact mcDiagGate_goes hi _ hok
  exact (this.get h).idMap

theorem swap_used {s s' : GSim F} (hi : Inv s) {a b : ℕ} (ha : (s.idMap.get a).isSome) (hb : (s.idMap.get b).isSome)
    (h : swapQubitIds N a b s = .ok s') (l : ℕ) : Used s'.idMap l ↔ Used s.idMap l := by
  obtain ⟨s1, h1, hd, ho⟩ := flushOps_goes (N := N) hi
  obtain ⟨la, hla⟩ := Option.isSome_iff_exists.1 ha
  obtain ⟨lb, hlb⟩ := Option.isSome_iff_exists.1 hb
  rw [← hd.idMap] at hla hlb
  have hget : ∀ r, ((s1.idMap.modify a (fun _ => lb)).modify b (fun _ => la)).get r =
      s1.idMap.get (Equiv.swap a b r) := by
    intro r
    by_cases hrb : r = b
    · subst hrb
      rw [IMap.get_modify_same, IMap.get_modify, Equiv.swap_apply_right]
      by_cases hra : r = a
      · subst hra; simp [hla]
      · rw [if_neg hra, hlb, hla]; rfl
    · rw [IMap.get_modify, if_neg hrb, IMap.get_modify]
      by_cases hra : r = a
      · subst hra; rw [if_pos rfl, Equiv.swap_apply_left, hla, hlb]; rfl
      · rw [if_neg hra, Equiv.swap_apply_of_ne_of_ne hra hrb]
  have e : s'.idMap = (s1.idMap.modify a (fun _ => lb)).modify b (fun _ => la) := by
    unfold swapQubitIds at h
    simp only [h1, ok_bind, resolveId, hla, hlb] at h
    cases h
    rfl
  unfold Used
  rw [e, ← hd.idMap]
  simp only [hget]
  constructor
  · rintro ⟨i, hi⟩; exact ⟨_, hi⟩
  · rintro ⟨i, hi⟩; exact ⟨Equiv.swap a b i, by simpa using hi⟩

theorem allocate_used {L : Finset ℕ} {s : GSim F} (hb : Books L s) (hd : Dense L s) (l : ℕ) :
    Used (allocate s).2.idMap l ↔ l < L.card + 1 := by
  obtain ⟨hk, _⟩ := newKey_spec s.idMap
  obtain ⟨hf1, hf2⟩ := firstFree_spec (sorted_values hb.inv.core.inj)
  simp only [List.mem_mergeSort, mem_values] at hf1 hf2
  generalize hv : firstFree (s.idMap.values.mergeSort (fun a b => decide (a ≤ b))) = v at hf1 hf2
  have hv2 : v = L.card := by
    rcases Nat.lt_trichotomy v L.card with h | h | h
    · exact absurd ((hd v).2 h) hf1
    · exact h
    · exact absurd ((hd _).1 (hf2 _ h)) (lt_irrefl _)
  have hget : ∀ q, (allocate s).2.idMap.get q = if q = firstFree (s.idMap.iter.map Prod.fst) then some v else s.idMap.get q := by
    intro q
    simp only [allocate, IMap.get_insert, hv]
  constructor
  · rintro ⟨q, hq⟩
    rw [hget] at hq
    split at hq
    · cases hq; omega
    · have := (hd l).1 ⟨q, hq⟩; omega
  · intro hl
    by_cases h : l = v
    · subst h; exact ⟨_, by rw [hget, if_pos rfl]⟩
    · obtain ⟨q, hq⟩ := (hd l).2 (by omega)
      refine ⟨q, ?_⟩
      rw [hget, if_neg, hq]
      rintro rfl
      rw [hk] at hq; cases hq

/-- A call that gives back no qubit leaves no gap. -/
theorem call_dense {L : Finset ℕ} {s s' : GSim F} {o : GOut F} (hb : Books L s) (hd : Dense L s) {c : GCall F}
    (hv : Allowed L c) (hk : keeps (.base c) = true) (h : call N c s = .ok (o, s')) : Dense (liveNext L c) s' := by
  have alloc : ∀ {ids : List ℕ}, (∀ i ∈ ids, i ∈ L) → Alloc s.idMap ids := fun h i hi => (hb.ids i).2 (h i hi)
  have same : s'.idMap = s.idMap → ∀ l, Used s'.idMap l ↔ l < L.card := by
    intro e l; rw [e]; exact hd l
  have qt : ∀ {r : Except Panic (GSim F)}, quiet r = .ok (o, s') → r = .ok s' := by
    intro r h
    obtain ⟨s1, h1, h⟩ := bind_ok h
    cases h
    exact h1
  cases c with
  | gate g q => exact same (gateCall_map hb.inv ((hb.ids q).2 hv) (qt h))
  | ctrl g cs q => exact same (ctrlCall_map hb.inv (hb.opnds hv) (qt h))
  | phase cs φ q => exact same ((mcphase_goes hb.inv φ (hb.opnds hv)).get (qt h)).idMap
  | exp cs ps θ ts => exact same ((mcexp_goes hb.inv θ hv.1 (alloc hv.2.1) hv.2.2).get (qt h)).idMap
  | swap a b =>
    intro l
    rw [swap_used hb.inv ((hb.ids a).2 hv.1) ((hb.ids b).2 hv.2) (qt h)]
    exact hd l
  | allocate =>
    cases h
    intro l
    obtain ⟨_, h2, h3, _⟩ := allocate_inv hb.inv
    have hf : leastFree L = (allocate s).1 := by
      apply leastFree_unique
      · rw [← hb.ids, h2]; simp
      · intro j hj; exact (hb.ids j).1 (h3 j hj)
    have hni : leastFree L ∉ L := by rw [← hb.ids, hf, h2]; simp
    rw [allocate_used hb hd, liveNext, Finset.card_insert_of_notMem hni]
  | release q => cases hk
  | measure q =>
    obtain ⟨loc, hloc⟩ := Option.isSome_iff_exists.1 ((hb.ids q).2 hv)
    obtain ⟨p, s1, h1, h2, _⟩ := measure_goes (N := N) hb.inv hloc
    simp only [call, h1, ok_bind] at h
    cases h
    exact same h2.idMap
  | jointMeasure qs =>
    obtain ⟨p, s1, _, h1, h2, _⟩ := jointMeasure_goes (N := N) hb.inv hv.1 (alloc hv.2)
    simp only [call, h1, ok_bind] at h
    cases h
    exact same h2.idMap
  | jointProb qs =>
    obtain ⟨p, s1, h1, h2, _⟩ := jointProbability_goes (N := N) hb.inv hv.1 (alloc hv.2)
    simp only [call, h1, ok_bind] at h
    cases h
    exact same h2.idMap
  | isZero q =>
    obtain ⟨p, s1, h1, h2, _⟩ := jointProbability_goes (N := N) hb.inv (ids := [q]) (by simp) (alloc (by
      intro i hi; simp only [List.mem_singleton] at hi; subst hi; exact hv))
    simp only [call, qubitIsZero, h1, ok_bind] at h
    cases h
    exact same h2.idMap
  | collapse v q =>
    obtain ⟨p, s1, h1, h2, _⟩ := forceCollapse_goes (N := N) hb.inv v ((hb.ids q).2 hv)
    simp only [call, h1, ok_bind] at h
    cases h
    exact same h2.idMap
  | getState =>
    obtain ⟨s1, s2, h1, h2, _⟩ := arrange_goes (N := N) hb.inv
    simp only [call, getState, h1, h2, ok_bind] at h
    cases h
    intro l
    rw [arrange_dense hb.inv h1 h2, hb.card]; rfl
  | dump fmt =>
    obtain ⟨s1, s2, h1, h2, _⟩ := arrange_goes (N := N) hb.inv
    simp only [call, dump, h1, h2, ok_bind] at h
    cases h
    intro l
    show Used s2.idMap l ↔ _
    rw [arrange_dense hb.inv h1 h2, hb.card]; rfl

theorem callX_dense {L : Finset ℕ} {s s' : GSim F} {o : GOut F} (hb : Books L s) (hd : Dense L s) {c : GXCall F}
    (hv : AllowedX L c) (hk : keeps c = true) (h : callX N c s = .ok (o, s')) : Dense (liveNextX L c) s' := by
  cases c with
  | base c => exact call_dense hb hd hv hk h
  | apply cs U ts =>
    obtain ⟨s1, _, _, k3, k4, _⟩ := (apply_goes (N := N) hb U hv.1 hv.2).2 (hd.no_gap hv.1 hv.2)
    rw [h] at k4
    split at k4
    · cases k4
    · cases k4
      intro l
      rw [k3]; exact hd l

theorem runX_dense (cs : List (GXCall F)) : ∀ {L : Finset ℕ} {s s' : GSim F} {os : List (GOut F)}, Books L s → Dense L s →
    ValidX L cs → (∀ c ∈ cs, keeps c = true) → runX N cs s = .ok (os, s') → Dense (liveAfterX L cs) s' := by
  induction cs with
  | nil => intro L s s' os _ hd _ _ h; cases h; exact hd
  | cons c cs ih =>
    intro L s s' os hb hd hv hk h
    obtain ⟨⟨o, s1⟩, h1, h⟩ := bind_ok h
    obtain ⟨⟨os2, s2⟩, h2, h⟩ := bind_ok h
    cases h
    have hd1 := callX_dense hb hd hv.1 (hk c (by simp)) h1
    rcases callX_goes (N := N) (S := Poss s) ⟨hb, fun _ h => h⟩ c hv.1 with ⟨o', s1', k1, _, k3, _⟩ | ⟨ks, U, ts, rfl, k⟩
    · rw [h1] at k1; cases k1
      exact ih k3 hd1 hv.2 (fun c hc => hk c (by simp [hc])) h2
    · rcases k with ⟨_, e⟩ | ⟨_, e⟩ <;> · rw [h1] at e; cases e

theorem dense_new (rng : ℕ → F) : Dense ∅ (new N rng) := by
  intro l
  constructor
  · rintro ⟨q, hq⟩
    have := ((books_new (N := N) rng).ids q).1 (by rw [hq]; rfl)
    simp at this
  · intro h; simp at h

/-- Reading out the state leaves no gap. -/
theorem dense_after {L : Finset ℕ} {s s' : GSim F} {o : GOut F} (hb : Books L s) {c : GCall F}
    (hc : c = .getState ∨ ∃ fmt, c = .dump fmt) (h : call N c s = .ok (o, s')) : Dense L s' := by
  obtain ⟨s1, s2, h1, h2, _⟩ := arrange_goes (N := N) hb.inv
  rcases hc with rfl | ⟨fmt, rfl⟩
  · simp only [call, getState, h1, h2, ok_bind] at h
    cases h
    intro l
    rw [arrange_dense hb.inv h1 h2, hb.card]
  · simp only [call, dump, h1, h2, ok_bind] at h
    cases h
    intro l
    show Used s2.idMap l ↔ _
    rw [arrange_dense hb.inv h1 h2, hb.card]

/-! ### What `apply` refuses -/

theorem place_alloc (rest : List ℕ) : ∀ (n : ℕ) {s s' : GSim F}, Inv s → s.opQ = [] → place N n rest s = .ok s' →
    Alloc s.idMap rest := by
  induction rest with
  | nil => intro n s s' _ _ _ q hq; simp at hq
  | cons t rest ih =>
    intro n s s' hi ho h
    obtain ⟨s1, h1, h2⟩ := bind_ok h
    have h0 := h1
    obtain ⟨loc, hl, h1⟩ := bind_ok h1
    have hl' : s.idMap.get t = some loc := by
      unfold resolveId at hl
      split at hl
      · rename_i v hv; cases hl; exact hv
      · cases hl
    obtain ⟨sk, hs'⟩ : ∃ sk, findByLoc s.idMap n = some sk := by
      cases hf : findByLoc s.idMap n with
      | some sk => exact ⟨sk, rfl⟩
      | none => simp only [hf] at h1; cases h1
    obtain ⟨s1', k1, k2, _⟩ := placeOne_goes (N := N) hi ho hl' hs'
    rw [h0] at k1; cases k1
    intro q hq
    rcases List.mem_cons.1 hq with rfl | hq
    · rw [hl']; rfl
    · rw [← k2.some]; exact ih _ k2.inv k2.ops h2 q hq

theorem applyOn_ok {L : Finset ℕ} {s s' : GSim F} (hb : Books L s) {u : GMat F} {qs : List ℕ}
    (h : applyOn N u qs s = .ok s') : qs.Nodup ∧ ∀ q ∈ qs, q ∈ L := by
  unfold applyOn checkForDuplicates at h
  split at h
  · rename_i hn
    refine ⟨hn, ?_⟩
    obtain ⟨s1, h1, h⟩ := bind_ok (show (flushQueue N qs .HRxRy s >>= _) = _ from h)
    obtain ⟨s2, h2, h⟩ := bind_ok h
    obtain ⟨s1', k1, hd, ho, -⟩ := flushQueue_goes (N := N) .HRxRy qs hb.inv
    rw [h1] at k1; cases k1
    have := place_alloc _ _ hd.inv ho h2
    rw [hd.idMap] at this
    intro q hq
    exact (hb.ids q).1 (this q (by simpa using hq))
  · cases h

theorem apply_ok {L : Finset ℕ} {s s' : GSim F} (hb : Books L s) {u : GMat F} {ts : List ℕ} {ctrls : Option (List ℕ)}
    (h : apply N u ts ctrls s = .ok s') :
    u.rows = u.cols ∧ u.cols = 2 ^ ts.length ∧ (ctrls.getD [] ++ ts).Nodup ∧ ∀ q ∈ ctrls.getD [] ++ ts, q ∈ L := by
  unfold apply at h
  split at h
  · cases h
  · rename_i h1
    split at h
    · cases h
    · rename_i h2
      refine ⟨by simpa using Eq.symm (not_not.1 h1), by simpa using h2, ?_⟩
      cases ctrls with
      | none => exact applyOn_ok hb h
      | some cs => exact applyOn_ok hb h

/-! ### How many basis states there can be -/

theorem le_foldr_max (l : List ℕ) (a x : ℕ) (h : x ∈ l) : x ≤ l.foldr max a := by
  induction l with
  | nil => simp at h
  | cons b l ih =>
    rcases List.mem_cons.1 h with rfl | h
    · exact le_max_left _ _
    · exact (ih h).trans (le_max_right _ _)

theorem base_le_foldr_max (l : List ℕ) (a : ℕ) : a ≤ l.foldr max a := by
  induction l with
  | nil => exact le_rfl
  | cons b l ih => exact ih.trans (le_max_right _ _)

theorem growth_pos (c : GXCall F) : 1 ≤ growth N c := by
  cases c with
  | base c => simp only [growth]; split <;> omega
  | apply cs U ts => exact base_le_foldr_max _ _

theorem AtMost.matrix {n : ℕ} {S : (ℕ → Bool) → Prop} (h : AtMost n S) (cs : List ℕ) (U : ℕ → ℕ → Cx F) (ts : List ℕ) :
    AtMost (n * growth N (.apply cs U ts)) (fun g => ∃ f, S f ∧ MatrixActs N cs U ts f g) := by
  classical
  obtain ⟨T, hT, hm⟩ := h
  let next : (ℕ → Bool) → List (ℕ → Bool) := fun f =>
    if ∀ c ∈ cs, f c = true then
      ((List.range (2 ^ ts.length)).filter fun i => !N.nearlyZeroC (U i (rowOf ts f))).map fun i => setRow ts i f
    else [f]
  have hlen : ∀ f, (next f).length ≤ growth N (.apply cs U ts) := by
    intro f
    by_cases hf : ∀ c ∈ cs, f c = true
    · simp only [next, if_pos hf, List.length_map]
      apply le_foldr_max
      exact List.mem_map.2 ⟨rowOf ts f, List.mem_range.2 (rowOf_lt ts f), rfl⟩
    · simp only [next, if_neg hf]
      exact growth_pos _
  refine ⟨T.flatMap next, ?_, ?_⟩
  · rw [List.length_flatMap]
    have : (T.map fun f => (next f).length).sum ≤ T.length * growth N (.apply cs U ts) := by
      have := List.sum_le_card_nsmul (T.map fun f => (next f).length) (growth N (.apply cs U ts)) (by
        intro x hx
        obtain ⟨f, _, rfl⟩ := List.mem_map.1 hx
        exact hlen f)
      simpa using this
    exact this.trans (Nat.mul_le_mul_right _ hT)
  · rintro g ⟨f, hf, ha⟩
    refine List.mem_flatMap.2 ⟨f, hm f hf, ?_⟩
    unfold MatrixActs at ha
    by_cases hc : ∀ c ∈ cs, f c = true
    · rw [if_pos hc] at ha
      simp only [next, if_pos hc]
      refine List.mem_map.2 ⟨rowOf ts g, List.mem_filter.2 ⟨List.mem_range.2 (rowOf_lt ts g), by simp [ha.2]⟩, ?_⟩
      have : setRow ts (rowOf ts g) f = setRow ts (rowOf ts g) g := by
        funext q
        unfold setRow
        split
        · rfl
        · rename_i hq; exact (ha.1 q hq).symm
      rw [this, setRow_rowOf]
    · rw [if_neg hc] at ha
      simp only [next, if_neg hc, ha, List.mem_singleton]

theorem AtMost.reachedX (cs : List (GXCall F)) : ∀ {n : ℕ}, 1 ≤ n → ∀ {L : Finset ℕ}
    {S : (ℕ → Bool) → Prop} {os : List (GOut F)}, AtMost n S → AgreeX N L S cs os →
    AtMost (n * (cs.map (growth N)).prod) (reachedX N L S cs os) := by
  induction cs with
  | nil =>
    intro n hn L S os h ha
    simpa [Gen.reachedX] using h
  | cons c cs ih =>
    intro n hn L S os h ha
    obtain ⟨o, os', rfl, _, ha⟩ := ha
    have h1 : AtMost (n * growth N c) (fun g => possibleX N L S g c o) := by
      cases c with
      | base c =>
        refine (h.call (N := N) (L := L) hn c o).mono (le_of_eq ?_) (fun _ h => h)
        simp only [growth]
        split <;> simp
      | apply ks U ts => exact h.matrix ks U ts
    refine (ih (Nat.mul_pos hn (growth_pos c)) h1 ha).mono (le_of_eq ?_) (fun _ h => h)
    rw [List.map_cons, List.prod_cons, mul_assoc]

end Gen
end Qir
