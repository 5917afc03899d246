import Verif.Proof.Registers

/-!
# Probabilities on devices with and without registers
-/

noncomputable section
namespace Qir.Back.Regs
open Spec Sim Qir.Out Run

theorem clear_reg (v : Bool) (q : ℕ) (δ : Device) : (δ.clear v q).reg = δ.reg ∧ (δ.clear v q).touched = δ.touched := by
  unfold Device.clear
  split <;> exact ⟨rfl, rfl⟩

theorem found_reg (ps : List (Pauli × ℕ)) (v : Bool) (δ : Device) :
    (found ps v δ).reg = δ.reg ∧ (found ps v δ).touched = δ.touched := useAll_reg _ δ

theorem finding_reg {δ : Device} {c : QCall} (hc : usesRegister c = false) (v : Bool) :
    (finding v δ c).2.reg = δ.reg ∧ (finding v δ c).2.touched = δ.touched := by
  cases c <;> cases hc
  case reset q =>
    exact ⟨(clear_reg v q _).1.trans (found_reg _ v δ).1, (clear_reg v q _).2.trans (found_reg _ v δ).2⟩
  case release q =>
    exact ⟨(clear_reg v q _).1.trans (found_reg _ v δ).1, (clear_reg v q _).2.trans (found_reg _ v δ).2⟩
  all_goals first | exact ⟨rfl, rfl⟩ | exact found_reg _ v δ

theorem finding_touched {δ : Device} {c : QCall} {ps : List (Pauli × ℕ)} (hm : measures δ c = some ps) (v : Bool) :
    (finding v δ c).2.touched = usedAfter δ.touched c := by
  have hr : c ≠ .reinit := fun h => by subst h; cases hm
  have e : usedAfter δ.touched c = (δ.touched || usesRegister c) := by cases c <;> first | rfl | exact absurd rfl hr
  rw [e]
  by_cases hc : usesRegister c = true
  · rw [hc, Bool.or_true]
    cases c <;> first | rfl | (cases hm; done) | cases hc
  · rw [Bool.not_eq_true] at hc
    rw [hc, Bool.or_false]
    exact (finding_reg hc v).2

theorem finding_unused {δ : Device} (hu : Unused δ) {c : QCall} {ps : List (Pauli × ℕ)} (hm : measures δ c = some ps)
    (v : Bool) : Unused (finding v δ c).2 := by
  have hr : c ≠ .reinit := fun h => by subst h; cases hm
  intro ht
  have e : usedAfter δ.touched c = (δ.touched || usesRegister c) := by cases c <;> first | rfl | exact absurd rfl hr
  rw [finding_touched hm, e, Bool.or_eq_false_iff] at ht
  rw [(finding_reg ht.2 v).1]
  exact hu ht.1

theorem chanceOn_ordered (p : Prog QCall QAns) : ∀ {δ : Device}, Unused δ → Ordered δ.touched p → ∀ S,
    chance p δ S = chanceOn registerStep p δ S := by
  induction p with
  | done => intros; rfl
  | call c k ih =>
    intro δ hu h S
    simp only [chance, chanceOn]
    cases hm : measures δ c with
    | some ps =>
      dsimp only
      rw [ih _ (finding_unused hu hm true) (by rw [finding_touched hm]; exact h.2 _),
        ih _ (finding_unused hu hm false) (by rw [finding_touched hm]; exact h.2 _)]
    | none =>
      dsimp only
      rw [registerStep_ordered hu h.1]
      cases hs : δ.step c with
      | error m => rfl
      | ok x =>
        obtain ⟨a, es, δ'⟩ := x
        dsimp only
        rw [ih a (step_unused hu hs) (by rw [step_touched hs]; exact h.2 a)]

theorem chanceOn_registerless (p : Prog QCall QAns) : ∀ {δ : Device}, δ.touched = false → Registerless p → ∀ S,
    chance p δ S = chanceOn pointerStep p δ S := by
  induction p with
  | done => intros; rfl
  | call c k ih =>
    intro δ hu h S
    have e : pointerStep δ c = δ.step c := by
      cases c <;> first | rfl | skip
      all_goals
        show Except.ok _ = Except.ok _
        simp [Device.resultValue, hu, Device.pointer]
    have hut : usedAfter δ.touched c = false := by cases c <;> simp_all [usedAfter, Registerless]
    simp only [chance, chanceOn]
    cases hm : measures δ c with
    | some ps =>
      dsimp only
      rw [ih _ (by rw [finding_touched hm, hut]) (h.2 _), ih _ (by rw [finding_touched hm, hut]) (h.2 _)]
    | none =>
      dsimp only
      rw [e]
      cases hs : δ.step c with
      | error m => rfl
      | ok x =>
        obtain ⟨a, es, δ'⟩ := x
        dsimp only
        rw [ih a (by rw [step_touched hs, hut]) (h.2 a)]

/-! ### Priming -/

theorem measures_marked (t : Bool) (δ : Device) (c : QCall) : measures (withMark t δ) c = measures δ c := by
  cases c <;> rfl

theorem clear_marked (v : Bool) (q : ℕ) (t : Bool) (δ : Device) : (withMark t δ).clear v q = withMark t (δ.clear v q) := by
  unfold Device.clear
  split <;> rfl

theorem found_marked (ps : List (Pauli × ℕ)) (v t : Bool) (δ : Device) :
    found ps v (withMark t δ) = withMark t (found ps v δ) := by
  unfold found
  rw [useAll_marked]
  rfl

theorem finding_marked {t : Bool} {δ : Device} {c : QCall} {ps : List (Pauli × ℕ)} (hm : measures δ c = some ps) (v : Bool) :
    finding v (withMark t δ) c = ((finding v δ c).1, withMark (usedAfter t c) (finding v δ c).2) := by
  cases c <;> first | cases hm; done | skip
  all_goals
    simp only [finding, found_marked, clear_marked, usedAfter, usesRegister, Bool.or_false, Bool.or_true]
    try rfl

theorem chanceOn_marked (p : Prog QCall QAns) : ∀ (t : Bool) (δ : Device) S,
    chanceOn registerStep (primedAgain p) (withMark t δ) S = chanceOn registerStep p δ S := by
  induction p with
  | done => intros; rfl
  | call c k ih =>
    intro t δ S
    by_cases hr : c = .reinit
    · subst hr
      have e : (Device.init δ.rng).store 0 false = withMark true (Device.init δ.rng) := by
        unfold Device.store Device.init withMark
        simp
      show chanceOn registerStep (primedAgain (k .unit)) ((Device.init δ.rng).store 0 false) S =
        chanceOn registerStep (k .unit) (Device.init δ.rng) S
      rw [e, ih]
    · have e : primedAgain (.call c k) = .call c fun a => primedAgain (k a) := by
        cases c <;> first | rfl | exact absurd rfl hr
      rw [e]
      simp only [chanceOn, measures_marked]
      cases hm : measures δ c with
      | some ps =>
        dsimp only
        rw [finding_marked hm, finding_marked hm]
        dsimp only
        rw [ih, ih]
        rfl
      | none =>
        dsimp only
        rw [registerStep_marked]
        cases registerStep δ c with
        | error m => rfl
        | ok x =>
          obtain ⟨a, es, δ'⟩ := x
          exact ih a _ δ' _

theorem chanceOn_primed (p : Prog QCall QAns) (S : Set (List Event × Bool)) :
    chance (primed p) blank S = chanceOn registerStep p blank S := by
  rw [chanceOn_ordered (primed p) (δ := blank) (unused_init _) (primed_ordered p)]
  have e : blank.store 0 false = withMark true blank := by
    unfold Device.store blank Device.init withMark
    simp
  show chanceOn registerStep (primedAgain p) (blank.store 0 false) S = _
  rw [e, chanceOn_marked]

end Qir.Back.Regs
