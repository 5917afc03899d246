import Verif.Props.RegistersDefs
import Verif.Props.Chance

/-!
# Lemmas about results with and without registers
-/

noncomputable section
namespace Qir.Back
open Spec Sim Qir.Out Run

namespace Regs

/-- As long as no register has been used, all are zero. -/
def Unused (δ : Device) : Prop := δ.touched = false → ∀ r, δ.reg r = false

theorem unused_init (r : ℕ → ℝ) : Unused (Device.init r) := fun _ _ => rfl

theorem use_reg (q : ℕ) (δ : Device) : (δ.use q).reg = δ.reg ∧ (δ.use q).touched = δ.touched := by
  unfold Device.use
  split <;> exact ⟨rfl, rfl⟩

theorem useAll_reg (qs : List ℕ) : ∀ δ : Device, (δ.useAll qs).reg = δ.reg ∧ (δ.useAll qs).touched = δ.touched := by
  induction qs with
  | nil => intro δ; exact ⟨rfl, rfl⟩
  | cons q qs ih =>
    intro δ
    have := ih (δ.use q)
    exact ⟨this.1.trans (use_reg q δ).1, this.2.trans (use_reg q δ).2⟩

/-- A call that uses no register leaves them alone. -/
theorem step_reg {δ δ' : Device} {c : QCall} {a : QAns} {es : List Event} (hc : usesRegister c = false) (hr : c ≠ .reinit)
    (h : δ.step c = .ok (a, es, δ')) : δ'.reg = δ.reg ∧ δ'.touched = δ.touched := by
  cases c <;> cases hc
  case reinit => exact absurd rfl hr
  case fail => cases h
  case measure ps qs =>
    unfold Device.step at h
    dsimp only at h
    split at h <;> cases h
    exact useAll_reg _ δ
  case assertProb =>
    unfold Device.step at h
    dsimp only at h
    split at h
    · split at h <;> cases h
      exact useAll_reg _ δ
    · cases h
  case release =>
    unfold Device.step at h
    dsimp only at h
    split at h <;> cases h
    · exact ⟨rfl, rfl⟩
    · exact useAll_reg [_] δ
  case isZero q => cases h; exact use_reg q δ
  all_goals
    cases h
    first | exact ⟨rfl, rfl⟩ | exact useAll_reg _ δ

theorem step_touched {δ δ' : Device} {c : QCall} {a : QAns} {es : List Event} (h : δ.step c = .ok (a, es, δ')) :
    δ'.touched = usedAfter δ.touched c := by
  by_cases hr : c = .reinit
  · subst hr; cases h; rfl
  · have e : usedAfter δ.touched c = (δ.touched || usesRegister c) := by cases c <;> first | rfl | exact absurd rfl hr
    rw [e]
    by_cases hc : usesRegister c = true
    · rw [hc, Bool.or_true]
      cases c <;> first | (cases h; rfl) | cases hc
    · rw [Bool.not_eq_true] at hc
      rw [hc, Bool.or_false]
      exact (step_reg hc hr h).2

theorem step_unused {δ δ' : Device} {c : QCall} {a : QAns} {es : List Event} (hu : Unused δ)
    (h : δ.step c = .ok (a, es, δ')) : Unused δ' := by
  by_cases hr : c = .reinit
  · subst hr; cases h; exact unused_init _
  · intro ht
    have e : usedAfter δ.touched c = (δ.touched || usesRegister c) := by cases c <;> first | rfl | exact absurd rfl hr
    rw [step_touched h, e, Bool.or_eq_false_iff] at ht
    rw [(step_reg ht.2 hr h).1]
    exact hu ht.1

theorem runOn_ideal (p : Prog QCall QAns) : ∀ δ, idealRun p δ = runOn Device.step p δ := by
  induction p with
  | done => intro δ; rfl
  | call c k ih =>
    intro δ
    simp only [idealRun, runOn, ih]
    cases δ.step c with
    | error m => rfl
    | ok x =>
      dsimp only
      cases runOn Device.step (k x.1) x.2.2 <;> rfl

theorem shotsOn_ideal (p : Prog QCall QAns) (n : ℕ) : ∀ r, idealShots p n r = shotsOn Device.step p n r := by
  induction n with
  | zero => intro r; rfl
  | succ n ih =>
    intro r
    simp only [idealShots, shotsOn, runOn_ideal, ih]
    cases runOn Device.step p (Device.init r) with
    | error m => rfl
    | ok x =>
      dsimp only
      cases shotsOn Device.step p n x.2.rng <;> rfl

theorem shots_same {s s' : Device → QCall → Except (List Char) (QAns × List Event × Device)} {p p' : Prog QCall QAns}
    (h : ∀ r, (runOn s p (Device.init r)).map (fun x => (x.1, x.2.rng)) =
      (runOn s' p' (Device.init r)).map (fun x => (x.1, x.2.rng))) (n : ℕ) : ∀ r, shotsOn s p n r = shotsOn s' p' n r := by
  induction n with
  | zero => intro r; rfl
  | succ n ih =>
    intro r
    have := h r
    simp only [shotsOn]
    cases h1 : runOn s p (Device.init r) with
    | error e =>
      cases h2 : runOn s' p' (Device.init r) with
      | error e' => rw [h1, h2] at this; cases this; rfl
      | ok x => rw [h1, h2] at this; cases this
    | ok x =>
      cases h2 : runOn s' p' (Device.init r) with
      | error e' => rw [h1, h2] at this; cases this
      | ok y =>
        rw [h1, h2] at this
        obtain ⟨x1, x2⟩ := x
        obtain ⟨y1, y2⟩ := y
        simp only [Except.map, Except.ok.injEq, Prod.mk.injEq] at this
        obtain ⟨rfl, e⟩ := this
        simp only [e, ih]

theorem resultValue_ordered {δ : Device} (hu : Unused δ) {r : ℕ} (h : r = 1 → δ.touched = true) :
    δ.resultValue r = δ.reg r := by
  unfold Device.resultValue
  by_cases ht : δ.touched = true
  · rw [if_pos ht]
  · rw [if_neg ht, hu (Bool.not_eq_true _ ▸ ht) r]
    exact decide_eq_false fun e => ht (h e)

theorem registerStep_ordered {δ : Device} (hu : Unused δ) {c : QCall}
    (h : (∃ t, c = .recordResult 1 t) ∨ c = .legacyResult 1 → δ.touched = true) : registerStep δ c = δ.step c := by
  cases c <;> first | rfl | skip
  case recordResult r t =>
    show Except.ok _ = Except.ok _
    rw [resultValue_ordered hu fun e => h (.inl ⟨t, by rw [e]⟩)]
  case legacyResult r =>
    show Except.ok _ = Except.ok _
    rw [resultValue_ordered hu fun e => h (.inr (by rw [e]))]

theorem runOn_ordered (p : Prog QCall QAns) : ∀ {δ : Device}, Unused δ → Ordered δ.touched p →
    runOn Device.step p δ = runOn registerStep p δ := by
  induction p with
  | done => intros; rfl
  | call c k ih =>
    intro δ hu h
    simp only [runOn]
    rw [registerStep_ordered hu h.1]
    cases hs : δ.step c with
    | error m => rfl
    | ok x =>
      obtain ⟨a, es, δ'⟩ := x
      dsimp only
      rw [ih a (step_unused hu hs) (by rw [step_touched hs]; exact h.2 a)]

theorem runOn_registerless (p : Prog QCall QAns) : ∀ {δ : Device}, δ.touched = false → Registerless p →
    runOn Device.step p δ = runOn pointerStep p δ := by
  induction p with
  | done => intros; rfl
  | call c k ih =>
    intro δ hu h
    have e : pointerStep δ c = δ.step c := by
      cases c <;> first | rfl | skip
      all_goals
        show Except.ok _ = Except.ok _
        simp [Device.resultValue, hu, Device.pointer]
    simp only [runOn]
    rw [e]
    cases hs : δ.step c with
    | error m => rfl
    | ok x =>
      obtain ⟨a, es, δ'⟩ := x
      dsimp only
      rw [ih a (by rw [step_touched hs]; cases c <;> simp_all [usedAfter, Registerless]) (h.2 a)]

/-! ### Priming -/

theorem primedAgain_ordered (p : Prog QCall QAns) : Ordered true (primedAgain p) := by
  induction p with
  | done => trivial
  | call c k ih =>
    by_cases hr : c = .reinit
    · subst hr
      exact ⟨fun h => h.elim (fun h => by obtain ⟨_, h⟩ := h; cases h) (fun h => by cases h), fun a =>
        ⟨fun h => h.elim (fun h => by obtain ⟨_, h⟩ := h; cases h) (fun h => by cases h), fun _ => ih a⟩⟩
    · have e : primedAgain (.call c k) = .call c fun a => primedAgain (k a) := by
        cases c <;> first | rfl | exact absurd rfl hr
      have e' : usedAfter true c = true := by cases c <;> first | rfl | exact absurd rfl hr
      rw [e]
      exact ⟨fun _ => rfl, fun a => by rw [e']; exact ih a⟩

theorem primed_ordered (p : Prog QCall QAns) : Ordered false (primed p) :=
  ⟨fun h => h.elim (fun h => by obtain ⟨_, h⟩ := h; cases h) (fun h => by cases h), fun _ => primedAgain_ordered p⟩

/-- The same device, but for the mark that a register has been used. -/
def withMark (t : Bool) (δ : Device) : Device := { δ with touched := t }

theorem use_marked (q : ℕ) (t : Bool) (δ : Device) : (withMark t δ).use q = withMark t (δ.use q) := by
  unfold Device.use withMark
  dsimp only
  split <;> rfl

theorem useAll_marked (qs : List ℕ) (t : Bool) : ∀ δ : Device, (withMark t δ).useAll qs = withMark t (δ.useAll qs) := by
  induction qs with
  | nil => intro δ; rfl
  | cons q qs ih =>
    intro δ
    show ((withMark t δ).use q).useAll qs = withMark t ((δ.use q).useAll qs)
    rw [use_marked, ih]

theorem apply_marked (qs : List ℕ) (U : Wave → Wave) (t : Bool) (δ : Device) :
    (withMark t δ).apply qs U = withMark t (δ.apply qs U) := by
  unfold Device.apply
  rw [useAll_marked]
  rfl

theorem observed_marked (ps : List (Pauli × ℕ)) (t : Bool) (δ : Device) :
    (withMark t δ).observed ps = withMark t (δ.observed ps) := by
  unfold Device.observed
  rw [useAll_marked]
  rfl

theorem registerStep_marked (t : Bool) (δ : Device) (c : QCall) : registerStep (withMark t δ) c =
    (registerStep δ c).map fun x => (x.1, x.2.1, withMark (usedAfter t c) x.2.2) := by
  cases c
  case measure ps qs =>
    simp only [registerStep, Device.step]
    split
    · rw [observed_marked]; simp [Except.map, usedAfter, usesRegister]; rfl
    · rfl
  case assertProb ps qs r p m tol =>
    simp only [registerStep, Device.step]
    split
    · rw [useAll_marked]
      show (if |pauliProb (support ps qs) (decide (r ≠ 0)) δ.psi - p| ≤ tol then _ else _) = _
      split <;> simp [Except.map, usedAfter, usesRegister]
    · rfl
  case release q =>
    simp only [registerStep, Device.step]
    show (if δ.live = {q} then _ else _) = _
    rw [observed_marked]
    split <;> simp [Except.map, usedAfter, usesRegister] <;> rfl
  case isZero q =>
    simp only [registerStep, Device.step]
    rw [use_marked]
    simp [Except.map, usedAfter, usesRegister]
    rfl
  case reinit => rfl
  all_goals
    simp only [registerStep, Device.step, apply_marked, observed_marked, Except.map, usedAfter, usesRegister, Bool.or_false,
      Bool.or_true]
    try rfl

theorem runOn_marked (p : Prog QCall QAns) : ∀ (t : Bool) (δ : Device), ∃ t' : Bool,
    runOn registerStep (primedAgain p) (withMark t δ) =
      (runOn registerStep p δ).map fun x => (x.1, withMark t' x.2) := by
  induction p with
  | done => intro t δ; exact ⟨t, rfl⟩
  | call c k ih =>
    intro t δ
    by_cases hr : c = .reinit
    · subst hr
      have e : (Device.init δ.rng).store 0 false = withMark true (Device.init δ.rng) := by
        unfold Device.store Device.init withMark
        simp
      obtain ⟨t', h⟩ := ih .unit true (Device.init δ.rng)
      refine ⟨t', ?_⟩
      show (match (match runOn registerStep (primedAgain (k .unit)) ((Device.init δ.rng).store 0 false) with
          | .error es' => .error ([] ++ es')
          | .ok (es', δ) => .ok ([] ++ es', δ) : Except (List Event) (List Event × Device)) with
          | .error es' => .error ([] ++ es')
          | .ok (es', δ) => .ok ([] ++ es', δ)) = Except.map _ (match runOn registerStep (k .unit) (Device.init δ.rng) with
          | .error es' => .error ([] ++ es')
          | .ok (es', δ) => .ok ([] ++ es', δ))
      rw [e, h]
      cases runOn registerStep (k .unit) (Device.init δ.rng) <;> rfl
    · have e : primedAgain (.call c k) = .call c fun a => primedAgain (k a) := by
        cases c <;> first | rfl | exact absurd rfl hr
      rw [e]
      simp only [runOn]
      rw [registerStep_marked]
      cases registerStep δ c with
      | error m => exact ⟨t, rfl⟩
      | ok x =>
        obtain ⟨a, es, δ'⟩ := x
        obtain ⟨t', h⟩ := ih a (usedAfter t c) δ'
        simp only [Except.map]
        rw [h]
        cases h' : runOn registerStep (k a) δ' with
        | error m => exact ⟨t, rfl⟩
        | ok y => exact ⟨t', rfl⟩

theorem primed_shots (p : Prog QCall QAns) (n : ℕ) (r : ℕ → ℝ) :
    shotsOn registerStep (primed p) n r = shotsOn registerStep p n r := by
  refine shots_same (fun r => ?_) n r
  have e : (Device.init r).store 0 false = withMark true (Device.init r) := by
    unfold Device.store Device.init withMark
    simp
  obtain ⟨t', h⟩ := runOn_marked p true (Device.init r)
  have e' : runOn registerStep (primed p) (Device.init r) =
      (match runOn registerStep (primedAgain p) ((Device.init r).store 0 false) with
        | .error es' => .error ([] ++ es')
        | .ok (es', δ) => .ok ([] ++ es', δ)) := rfl
  rw [e', e, h]
  cases runOn registerStep p (Device.init r) <;> rfl

theorem valid_marked (t : Bool) (δ : Device) (c : QCall) : (withMark t δ).Valid c ↔ δ.Valid c := by
  cases c <;> exact Iff.rfl

theorem step_marked {t : Bool} {δ δ1 : Device} {c : QCall} {a : QAns} {es : List Event}
    (h : (withMark t δ).step c = .ok (a, es, δ1)) : ∃ es' δ', δ.step c = .ok (a, es', δ') ∧ δ1 = withMark (usedAfter t c) δ' := by
  have key : registerStep (withMark t δ) c = (withMark t δ).step c → registerStep δ c = δ.step c →
      ∃ es' δ', δ.step c = .ok (a, es', δ') ∧ δ1 = withMark (usedAfter t c) δ' := by
    intro h1 h2
    rw [← h1, registerStep_marked, h2] at h
    cases hs : δ.step c with
    | error m => rw [hs] at h; cases h
    | ok x => rw [hs] at h; cases h; exact ⟨_, _, rfl, rfl⟩
  cases c <;> first | exact key rfl rfl | skip
  all_goals
    cases h
    exact ⟨_, _, rfl, by simp [usedAfter, usesRegister]⟩

theorem meaningful_marked (p : Prog QCall QAns) : ∀ (t : Bool) {δ : Device}, Meaningful p δ →
    Meaningful (primedAgain p) (withMark t δ) := by
  induction p with
  | done => intros; trivial
  | call c k ih =>
    intro t δ h
    by_cases hr : c = .reinit
    · subst hr
      refine ⟨trivial, trivial, fun a es δ1 h1 => ?_⟩
      cases h1
      refine ⟨trivial, trivial, fun a es δ2 h2 => ?_⟩
      cases h2
      have e : (Device.init (withMark t δ).rng).store 0 false = withMark true (Device.init δ.rng) := by
        unfold Device.store Device.init withMark
        simp
      rw [e]
      exact ih _ _ (h.2.2 _ _ _ rfl)
    · have e : primedAgain (.call c k) = .call c fun a => primedAgain (k a) := by
        cases c <;> first | rfl | exact absurd rfl hr
      rw [e]
      refine ⟨(valid_marked t δ c).2 h.1, h.2.1, fun a es δ1 h1 => ?_⟩
      obtain ⟨es', δ', h2, rfl⟩ := step_marked h1
      exact ih a _ (h.2.2 _ _ _ h2)

theorem primed_meaningful {p : Prog QCall QAns} {r : ℕ → ℝ} (h : Meaningful p (Device.init r)) :
    Meaningful (primed p) (Device.init r) := by
  refine ⟨trivial, trivial, fun a es δ1 h1 => ?_⟩
  cases h1
  have e : (Device.init r).store 0 false = withMark true (Device.init r) := by
    unfold Device.store Device.init withMark
    simp
  rw [e]
  exact meaningful_marked p true h

theorem primed_noY {p : Prog QCall QAns} (h : NoYProg p) : NoYProg (primed p) := by
  refine ⟨trivial, fun _ => ?_⟩
  induction p with
  | done => trivial
  | call c k ih =>
    by_cases hr : c = .reinit
    · subst hr
      exact ⟨trivial, fun a => ⟨trivial, fun _ => ih a (h.2 a)⟩⟩
    · have e : primedAgain (.call c k) = .call c fun a => primedAgain (k a) := by
        cases c <;> first | rfl | exact absurd rfl hr
      rw [e]
      exact ⟨h.1, fun a => ih a (h.2 a)⟩

end Regs

end Qir.Back
