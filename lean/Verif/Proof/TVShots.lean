import Verif.Proof.TV
import Verif.Props.Chance

/-!
# The distribution of the shots of a session, with rounding
-/

noncomputable section
namespace Qir.RBack
open Spec Sim Qir.Out Run Rnd MeasureTheory
open Qir.Back (Backend Fmt Stop streams setOs blank blank_fit records failsWith resampled chance NoYProg NoY)

variable {A : Arith} {N W M : ℕ} {T : ℝ} {fmt : Fmt} {p : Prog QCall QAns}

/-- A backend nothing has been done to. -/
def idle : Backend := Backend.new (fun _ => 0) fun _ => 0

theorem like_idle : Like idle blank where
  wf := wf_new _
  live := by intro q; simp [idle, blank, Device.init, Backend.new, Sim.new]
  high := rfl
  low := by intro q h; simp [blank, Device.init] at h
  reg := fun _ => rfl
  touched := rfl

/-- The value `L` is the chance of the shot ending in `S`, whatever the words and what comes after. -/
def Law (A : Arith) (fmt : Fmt) (p : Prog QCall QAns) (S : Set (Bytes × Bool)) (L : ℝ) : Prop :=
  0 ≤ L ∧ L ≤ 1 ∧ ∀ o X, MeasurableSet X → (X = Set.univ ∨ ∀ o, (o, false) ∉ S) →
    MeasurableSet {r | Ends S X (speech (step A fmt) p (Backend.new r o))} ∧
      streams {r | Ends S X (speech (step A fmt) p (Backend.new r o))} = ENNReal.ofReal L * streams X

theorem one_shot (hf : Fine A) (hw : Within A N p blank W M T) (hT : A.u * T + A.eta ≤ A.eps)
    (htl : Turnless A fmt p idle) : Keeps A fmt p idle ∧ ∀ S, ∃ L, Law A fmt p S L ∧
      0 ≤ chance p blank (texts S) ∧ chance p blank (texts S) ≤ 1 ∧ |L - chance p blank (texts S)| ≤ gap A N W M := by
  have hc := fun S => close hf p (N := N) like_idle le_rfl (low_new _) (by simpa using hT) hw htl S
  refine ⟨(hc ∅).1, fun S => ?_⟩
  obtain ⟨hk, F, h1, h2, L, h3, h4, h5, h6⟩ := hc S
  have ha : Rnd.abs A idle.sim = ket zeroBasis := abs_new' _
  have e := h2 (ket zeroBasis) (Back.Fit.ket _)
  rw [ha, ← e] at h6
  have g := Back.Fit.ket zeroBasis
  refine ⟨L, ⟨h3, h4, h5⟩, (h1.nonneg g.fin).trans e.ge, e.le.trans ((h1.le g.fin).trans g.norm.le), h6.trans (le_of_eq ?_)⟩
  have h0 : off (ket zeroBasis) = 0 := by simp [off, (Back.Fit.ket zeroBasis).norm]
  have hl : idle.sim.opQ.length = 0 := rfl
  rw [h0, hl]
  unfold gap slip Rnd.cost Tol.unit Arith.v
  push_cast
  ring

/-! ### Sessions -/

/-- The shot ends well and writes something in `B`. -/
def good (B : Set Bytes) : Set (Bytes × Bool) := {o | o.1 ∈ B ∧ o.2 = true}

/-- The shot fails after writing something in `B`. -/
def bad (B : Set Bytes) : Set (Bytes × Bool) := {o | o.1 ∈ B ∧ o.2 = false}

theorem texts_good (B : Set Bytes) : texts (good B) = records {es | lines es ∈ B} := rfl

theorem texts_bad (B : Set Bytes) : texts (bad B) = failsWith {es | lines es ∈ B} := rfl

theorem written_succ (n : ℕ) (s : Backend) : written A fmt p (n + 1) s =
    match speech (step A fmt) p (Backend.new s.sim.rng s.os) with
    | .error o => .error ([], o)
    | .ok (out, s') => match written A fmt p n s' with
      | .error (outs, o) => .error (out :: outs, o)
      | .ok outs => .ok (out :: outs) := by
  unfold written
  rw [session, Back.reinit_eq]
  cases speech (step A fmt) p (Backend.new s.sim.rng s.os) with
  | error e => rfl
  | ok x =>
    dsimp only
    cases session (step A fmt) Back.reinit p n x.2 <;> rfl

theorem written_new (n : ℕ) (s : Backend) : written A fmt p n s = written A fmt p n (Backend.new s.sim.rng s.os) := by
  cases n with
  | zero => rfl
  | succ n => rw [written_succ, written_succ]; rfl

/-- The streams with which the shots write what is asked for. -/
def won (A : Arith) (fmt : Fmt) (p : Prog QCall QAns) (Bs : List (Set Bytes)) (o : ℕ → ℕ) : Set (ℕ → ℝ) :=
  {r | ∃ outs, written A fmt p Bs.length (Backend.new r o) = .ok outs ∧ List.Forall₂ (· ∈ ·) outs Bs}

theorem won_cons (hk : Keeps A fmt p idle) (B : Set Bytes) (Bs : List (Set Bytes)) (o : ℕ → ℕ) :
    won A fmt p (B :: Bs) o = {r | Ends (good B) (won A fmt p Bs o) (speech (step A fmt) p (Backend.new r o))} := by
  ext r
  simp only [won, List.length_cons, Set.mem_ofPred_eq, written_succ]
  show (∃ outs, (match speech (step A fmt) p (Backend.new r o) with
    | .error o => .error ([], o)
    | .ok (out, s') => match written A fmt p Bs.length s' with
      | .error (outs, o) => .error (out :: outs, o)
      | .ok outs => .ok (out :: outs)) = Except.ok outs ∧ _) ↔ _
  have hk := hk o r
  rw [show rs r (setOs o idle) = Backend.new r o from rfl] at hk
  cases hs : speech (step A fmt) p (Backend.new r o) with
  | error e => simp [Ends, good]
  | ok x =>
    obtain ⟨out, s'⟩ := x
    have ho := hk out s' hs
    dsimp only
    rw [written_new, ho]
    show _ ↔ (out ∈ B ∧ true = true) ∧ ∃ outs, _ ∧ _
    cases written A fmt p Bs.length (Backend.new s'.sim.rng o) with
    | error e => simp
    | ok outs => simp

/-- The streams with which the shots write what is asked for, and the next one fails. -/
def lost (A : Arith) (fmt : Fmt) (p : Prog QCall QAns) (n : ℕ) (Bs : List (Set Bytes)) (B : Set Bytes) (o : ℕ → ℕ) :
    Set (ℕ → ℝ) :=
  {r | ∃ outs e, written A fmt p n (Backend.new r o) = .error (outs, e) ∧ List.Forall₂ (· ∈ ·) outs Bs ∧ e ∈ B}

theorem lost_nil (n : ℕ) (B : Set Bytes) (o : ℕ → ℕ) :
    lost A fmt p (n + 1) [] B o = {r | Ends (bad B) Set.univ (speech (step A fmt) p (Backend.new r o))} := by
  ext r
  simp only [lost, Set.mem_ofPred_eq, written_succ]
  show (∃ outs e, (match speech (step A fmt) p (Backend.new r o) with
    | .error o => .error ([], o)
    | .ok (out, s') => match written A fmt p n s' with
      | .error (outs, o) => .error (out :: outs, o)
      | .ok outs => .ok (out :: outs)) = Except.error (outs, e) ∧ _) ↔ _
  cases hs : speech (step A fmt) p (Backend.new r o) with
  | error e => simp [Ends, bad]
  | ok x =>
    obtain ⟨out, s'⟩ := x
    dsimp only
    cases written A fmt p n s' with
    | error e =>
      obtain ⟨outs, e⟩ := e
      simp only [Except.error.injEq, Prod.mk.injEq, Ends, bad, Set.mem_ofPred_eq]
      constructor
      · rintro ⟨_, _, ⟨rfl, rfl⟩, h, _⟩
        cases h
      · simp
    | ok outs => simp [Ends, bad]

theorem lost_cons (hk : Keeps A fmt p idle) (n : ℕ) (B' : Set Bytes) (Bs : List (Set Bytes)) (B : Set Bytes) (o : ℕ → ℕ) :
    lost A fmt p (n + 1) (B' :: Bs) B o =
      {r | Ends (good B') (lost A fmt p n Bs B o) (speech (step A fmt) p (Backend.new r o))} := by
  ext r
  simp only [lost, Set.mem_ofPred_eq, written_succ]
  show (∃ outs e, (match speech (step A fmt) p (Backend.new r o) with
    | .error o => .error ([], o)
    | .ok (out, s') => match written A fmt p n s' with
      | .error (outs, o) => .error (out :: outs, o)
      | .ok outs => .ok (out :: outs)) = Except.error (outs, e) ∧ _) ↔ _
  have hk := hk o r
  rw [show rs r (setOs o idle) = Backend.new r o from rfl] at hk
  cases hs : speech (step A fmt) p (Backend.new r o) with
  | error e =>
    simp only [Except.error.injEq, Prod.mk.injEq, Ends, good, Set.mem_ofPred_eq]
    constructor
    · rintro ⟨_, _, ⟨rfl, rfl⟩, h, _⟩
      cases h
    · simp
  | ok x =>
    obtain ⟨out, s'⟩ := x
    have ho := hk out s' hs
    dsimp only
    rw [written_new, ho]
    show _ ↔ (out ∈ B' ∧ true = true) ∧ ∃ outs e, _ ∧ _
    cases written A fmt p n (Backend.new s'.sim.rng o) with
    | error e =>
      obtain ⟨outs, e⟩ := e
      simp only [Except.error.injEq, Prod.mk.injEq, and_true]
      constructor
      · rintro ⟨_, _, ⟨rfl, rfl⟩, h, h'⟩
        cases h with
        | cons h1 h2 => exact ⟨h1, _, _, ⟨rfl, rfl⟩, h2, h'⟩
      · rintro ⟨h1, _, _, ⟨rfl, rfl⟩, h2, h'⟩
        exact ⟨_, _, ⟨rfl, rfl⟩, .cons h1 h2, h'⟩
    | ok outs => simp

theorem good_only (B : Set Bytes) (o : Bytes) : (o, false) ∉ good B := fun h => by cases h.2

theorem won_law (hk : Keeps A fmt p idle) {L : Set Bytes → ℝ} (hL : ∀ B, Law A fmt p (good B) (L B)) (o : ℕ → ℕ) :
    ∀ Bs, MeasurableSet (won A fmt p Bs o) ∧ streams (won A fmt p Bs o) = (Bs.map fun B => ENNReal.ofReal (L B)).prod := by
  intro Bs
  induction Bs with
  | nil =>
    have : won A fmt p [] o = Set.univ := by
      ext r
      simp only [won, Set.mem_ofPred_eq, Set.mem_univ, iff_true]
      exact ⟨[], rfl, .nil⟩
    rw [this]
    exact ⟨.univ, by simp⟩
  | cons B Bs ih =>
    obtain ⟨m, e⟩ := (hL B).2.2 o _ ih.1 (.inr (good_only B))
    rw [won_cons hk]
    exact ⟨m, by rw [e, ih.2, List.map_cons, List.prod_cons]⟩

theorem lost_law (hk : Keeps A fmt p idle) {L L' : Set Bytes → ℝ} (hL : ∀ B, Law A fmt p (good B) (L B))
    (hL' : ∀ B, Law A fmt p (bad B) (L' B)) (o : ℕ → ℕ) (B : Set Bytes) (n : ℕ) : ∀ Bs : List (Set Bytes), Bs.length < n →
    MeasurableSet (lost A fmt p n Bs B o) ∧
      streams (lost A fmt p n Bs B o) = (Bs.map fun B => ENNReal.ofReal (L B)).prod * ENNReal.ofReal (L' B) := by
  induction n with
  | zero => intro Bs h; cases h
  | succ n ih =>
    intro Bs h
    cases Bs with
    | nil =>
      obtain ⟨m, e⟩ := (hL' B).2.2 o _ .univ (.inl rfl)
      rw [lost_nil]
      exact ⟨m, by rw [e]; simp⟩
    | cons B' Bs =>
      have ih := ih Bs (by simpa using h)
      obtain ⟨m, e⟩ := (hL B').2.2 o _ ih.1 (.inr (good_only B'))
      rw [lost_cons hk]
      exact ⟨m, by rw [e, ih.2, List.map_cons, List.prod_cons, mul_assoc]⟩

/-- Products of numbers in the unit interval differ by at most the sum of the differences. -/
theorem prod_near {f g : α → ℝ} {ε : ℝ} (h : ∀ x, 0 ≤ f x ∧ f x ≤ 1 ∧ 0 ≤ g x ∧ g x ≤ 1 ∧ |f x - g x| ≤ ε) (l : List α) :
    0 ≤ (l.map f).prod ∧ (l.map f).prod ≤ 1 ∧ 0 ≤ (l.map g).prod ∧ (l.map g).prod ≤ 1 ∧
      |(l.map f).prod - (l.map g).prod| ≤ l.length * ε := by
  induction l with
  | nil => simp
  | cons x l ih =>
    obtain ⟨a0, a1, b0, b1, hd⟩ := h x
    obtain ⟨c0, c1, d0, d1, he⟩ := ih
    simp only [List.map_cons, List.prod_cons, List.length_cons, Nat.cast_add, Nat.cast_one]
    refine ⟨mul_nonneg a0 c0, mul_le_one₀ a1 c0 c1, mul_nonneg b0 d0, mul_le_one₀ b1 d0 d1, ?_⟩
    rw [show f x * (l.map f).prod - g x * (l.map g).prod =
      f x * ((l.map f).prod - (l.map g).prod) + (f x - g x) * (l.map g).prod by ring]
    refine (abs_add_le _ _).trans ?_
    rw [abs_mul, abs_mul, abs_of_nonneg a0, abs_of_nonneg d0]
    have h1 : f x * |(l.map f).prod - (l.map g).prod| ≤ |(l.map f).prod - (l.map g).prod| :=
      mul_le_of_le_one_left (abs_nonneg _) a1
    have h2 : |f x - g x| * (l.map g).prod ≤ |f x - g x| := mul_le_of_le_one_right (abs_nonneg _) d1
    linarith

theorem Turnless.of_noY (h : NoYProg p) : ∀ s, Turnless A fmt p s := by
  induction p with
  | done => intro s; trivial
  | call c k ih =>
    intro s
    refine ⟨?_, fun r a out s' _ => ih a (h.2 a) s'⟩
    have h1 := h.1
    unfold NoY at h1
    unfold TurnOk
    split at h1 <;> first | exact h1.elim | skip
    split <;> first | trivial | simp_all

end Qir.RBack
