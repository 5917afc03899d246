import Verif.Proof.TVDraw
import Verif.Proof.TVShots

/-!
# The distribution of the shots of a session, with rounding, for programs that draw random numbers
-/

noncomputable section
namespace Qir.RBack
open Spec Sim Qir.Out Run Rnd MeasureTheory
open Qir.Back (Backend Fmt Stop sources sources_good setOs blank blank_fit supplied odds byWords drawn NoDraw winSet loseSet
  iter Lawful Proper withRng measures finding tailW nextWords odds_nonneg byWords_nonneg)

variable {A : Arith} {N W M : ℕ} {T : ℝ} {fmt : Fmt} {p : Prog QCall QAns}

/-- The value `L` is the chance of the shot ending in `S`, whatever comes after. -/
def LawD (A : Arith) (fmt : Fmt) (p : Prog QCall QAns) (S : Set (Bytes × Bool)) (L : ℝ) : Prop :=
  0 ≤ L ∧ L ≤ 1 ∧ ∀ X, MeasurableSet X → (X = Set.univ ∨ ∀ o, (o, false) ∉ S) →
    MeasurableSet (ranD A fmt p idle S X) ∧ sources (ranD A fmt p idle S X) = ENNReal.ofReal L * sources X

theorem one_shotD (hf : Fine A) (hw : WithinD A N p blank W M T) (hT : A.u * T + A.eta ≤ A.eps)
    (htl : TurnlessD A fmt p idle) (S : Set (Bytes × Bool)) : ∃ L, LawD A fmt p S L ∧
      0 ≤ odds byWords p blank (texts S) ∧ odds byWords p blank (texts S) ≤ 1 ∧
      |L - odds byWords p blank (texts S)| ≤ gap A N W M := by
  obtain ⟨F, h1, h2, L, h3, h4, h5, h6⟩ := closeD hf p (N := N) like_idle le_rfl (low_new _) (by simpa using hT) hw htl S
  have ha : Rnd.abs A idle.sim = ket zeroBasis := abs_new' _
  have e := h2 (ket zeroBasis) (Back.Fit.ket _)
  rw [ha, ← e] at h6
  have g := Back.Fit.ket zeroBasis
  refine ⟨L, ⟨h3, h4, h5⟩, (h1.nonneg g.fin).trans e.ge, e.le.trans ((h1.le g.fin).trans g.norm.le), h6.trans (le_of_eq ?_)⟩
  have h0 : off (ket zeroBasis) = 0 := by simp [off, (Back.Fit.ket zeroBasis).norm]
  have hl : idle.sim.opQ.length = 0 := rfl
  rw [h0, hl]
  unfold gap slip Rnd.cost Tol.unit Arith.v
  push_cast
  ring

/-! ### The words that are left are words -/

theorem step_words {c : QCall} {s s' : Backend} {a : QAns} {out : Bytes} (h : step A fmt c s = .ok (a, out, s'))
    (hw : ∀ n, s.os n < Std.words) : ∀ n, s'.os n < Std.words := by
  unfold step at h
  cases hq : qstep A fmt c s with
  | error e => simp [hq] at h
  | ok x =>
    simp only [hq, Except.ok.injEq] at h
    subst h
    by_cases hn : NoDraw c
    · have h1 := qstep_os (A := A) (fmt := fmt) c hn s.os s
      rw [show setOs s.os s = s from rfl, hq] at h1
      simp only [Except.map, Except.ok.injEq, Prod.mk.injEq] at h1
      have h2 := congrArg Backend.os h1.2.2
      intro n
      have h3 : s'.os = s.os := h2
      rw [h3]
      exact hw n
    · cases c <;> try exact absurd trivial hn
      all_goals
        simp only [qstep] at hq
        split at hq
        · cases hq
          exact fun n => hw (n + 2)
        · cases hq

theorem speech_words (p : Prog QCall QAns) : ∀ {s s' : Backend} {out : Bytes}, speech (step A fmt) p s = .ok (out, s') →
    (∀ n, s.os n < Std.words) → ∀ n, s'.os n < Std.words := by
  induction p with
  | done => intro s s' out h hw; cases h; exact hw
  | call c k ih =>
    intro s s' out h hw
    simp only [speech] at h
    cases hs : step A fmt c s with
    | error e => simp [hs] at h
    | ok x =>
      obtain ⟨a, o, s1⟩ := x
      simp only [hs] at h
      cases hk : speech (step A fmt) (k a) s1 with
      | error e => simp [hk] at h
      | ok y =>
        simp only [hk, Except.ok.injEq, Prod.mk.injEq] at h
        obtain ⟨_, rfl⟩ := h
        exact ih a hk (step_words hs hw)

/-! ### Sessions -/

open Classical in
/-- One shot as an experiment. -/
def shot (A : Arith) (fmt : Fmt) (p : Prog QCall QAns) (ω : Source) : Except Bytes (Bytes × Source) :=
  if ω ∈ worded then match speech (step A fmt) p (Backend.new ω.1 ω.2) with
    | .error o => .error o
    | .ok (out, s') => .ok (out, (s'.sim.rng, s'.os))
  else .error []

theorem win_shot (B : Set Bytes) (X : Set Source) : winSet (shot A fmt p) B X = ranD A fmt p idle (good B) X := by
  ext ω
  show (∃ e ω', shot A fmt p ω = .ok (e, ω') ∧ e ∈ B ∧ ω' ∈ X) ↔
    ω ∈ worded ∧ EndsD (good B) X (speech (step A fmt) p (Backend.new ω.1 ω.2))
  unfold shot
  by_cases hw : ω ∈ worded
  · rw [if_pos hw]
    cases speech (step A fmt) p (Backend.new ω.1 ω.2) with
    | error e => simp [EndsD, good]
    | ok x =>
      obtain ⟨out, s'⟩ := x
      simp only [Except.ok.injEq, Prod.mk.injEq]
      constructor
      · rintro ⟨_, _, ⟨rfl, rfl⟩, h1, h2⟩
        exact ⟨hw, ⟨h1, rfl⟩, h2⟩
      · rintro ⟨_, h1, h2⟩
        exact ⟨_, _, ⟨rfl, rfl⟩, h1.1, h2⟩
  · rw [if_neg hw]
    simp [hw]

theorem lose_shot (B : Set Bytes) :
    loseSet (shot A fmt p) B = ranD A fmt p idle (bad B) Set.univ ∪ {ω | ω ∉ worded ∧ [] ∈ B} := by
  ext ω
  show (∃ e, shot A fmt p ω = .error e ∧ e ∈ B) ↔
    (ω ∈ worded ∧ EndsD (bad B) Set.univ (speech (step A fmt) p (Backend.new ω.1 ω.2))) ∨ (ω ∉ worded ∧ [] ∈ B)
  unfold shot
  by_cases hw : ω ∈ worded
  · rw [if_pos hw]
    cases speech (step A fmt) p (Backend.new ω.1 ω.2) with
    | error e => simp [EndsD, bad, hw]
    | ok x => simp [EndsD, bad, hw]
  · rw [if_neg hw]
    simp [hw]

theorem shot_lawful {L L' : Set Bytes → ℝ} (hL : ∀ B, LawD A fmt p (good B) (L B)) (hL' : ∀ B, LawD A fmt p (bad B) (L' B)) :
    Lawful sources (shot A fmt p) L L' where
  nonneg B := (hL B).1
  nonneg_bad B := (hL' B).1
  win B X hX := by rw [win_shot]; exact ((hL B).2.2 X hX (.inr (good_only B))).1
  lose B := by
    rw [lose_shot]
    exact ((hL' B).2.2 _ .univ (.inl rfl)).1.union (measurable_worded.compl.inter (.const _))
  law B X hX := by rw [win_shot]; exact ((hL B).2.2 X hX (.inr (good_only B))).2
  law_bad B := by
    have h := ((hL' B).2.2 _ .univ (.inl rfl)).2
    rw [measure_univ, mul_one] at h
    rw [← h, lose_shot]
    refine measure_congr ?_
    filter_upwards [sources_good] with ω hω
    apply propext
    refine ⟨fun h => h.resolve_right fun h => h.1 hω.2, .inl⟩

theorem written_iter (n : ℕ) : ∀ (s : Backend) {ω : Source}, ω ∈ worded →
    written A fmt p n (supplied ω s) = iter (shot A fmt p) n ω := by
  induction n with
  | zero => intro s ω _; rfl
  | succ n ih =>
    intro s ω hw
    rw [written_succ]
    simp only [iter, shot, if_pos hw]
    show (match speech (step A fmt) p (Backend.new ω.1 ω.2) with
      | .error o => _
      | .ok (out, s') => _) = _
    cases hs : speech (step A fmt) p (Backend.new ω.1 ω.2) with
    | error e => rfl
    | ok x =>
      obtain ⟨out, s'⟩ := x
      dsimp only
      have h1 := ih s' (ω := (s'.sim.rng, s'.os)) (speech_words p hs hw)
      rw [show supplied (s'.sim.rng, s'.os) s' = s' from rfl] at h1
      rw [h1]
      cases iter (shot A fmt p) n (s'.sim.rng, s'.os) <;> rfl

/-! ### What follows from the hypotheses -/

theorem WithinD.proper : ∀ {p : Prog QCall QAns} {δ : Device} {W M : ℕ} {T : ℝ}, WithinD A N p δ W M T → ∀ r,
    Proper p (withRng r δ) := by
  intro p
  induction p with
  | done => intro δ W M T _ r; trivial
  | call c k ih =>
    intro δ W M T h r
    unfold WithinD at h
    unfold Proper
    cases hd : drawn c with
    | int min max =>
      rw [hd] at h
      exact ⟨h.1, h.2.1, fun n h1 h2 => ih _ (h.2.2 n h1 h2) r⟩
    | real min max =>
      rw [hd] at h
      exact fun n h1 h2 => ih _ (h n h1 h2) r
    | nothing =>
      rw [hd] at h
      obtain ⟨hv, hpl, _, _, h⟩ := h
      refine ⟨hv, by cases c <;> trivial, fun a es δ' hs => ?_⟩
      cases hm : measures δ c with
      | some ps =>
        rw [hm] at h
        rw [Back.step_measures hm] at hs
        cases hs
        exact ih _ (h.2 _).2.2 _
      | none =>
        rw [hm] at h
        rw [Back.step_calm hm] at hs
        cases hs' : δ.step c with
        | error e => rw [hs'] at hs; cases hs
        | ok x =>
          obtain ⟨a', es', δ''⟩ := x
          rw [hs'] at hs
          cases hs
          exact ih _ (h _ _ _ hs').2 _

theorem Within.draws : ∀ {p : Prog QCall QAns} {δ : Device} {W M : ℕ} {T : ℝ}, Within A N p δ W M T → WithinD A N p δ W M T := by
  intro p
  induction p with
  | done => intro δ W M T _; trivial
  | call c k ih =>
    intro δ W M T h
    unfold Within at h
    unfold WithinD
    obtain ⟨hv, hpl, hW, hT, h⟩ := h
    have hd : drawn c = .nothing := by cases c <;> first | rfl | exact hpl.elim
    rw [hd]
    refine ⟨hv, hpl, hW, hT, ?_⟩
    cases hm : measures δ c with
    | some ps => rw [hm] at h; exact ⟨h.1, fun v => ⟨(h.2 v).1, (h.2 v).2.1, ih _ (h.2 v).2.2⟩⟩
    | none => rw [hm] at h; exact fun a es δ' e => ⟨(h a es δ' e).1, ih _ (h a es δ' e).2⟩

theorem TurnlessD.of_noY (h : Back.NoYProg p) : ∀ s, TurnlessD A fmt p s := by
  induction p with
  | done => intro s; trivial
  | call c k ih =>
    intro s
    unfold TurnlessD
    cases hd : drawn c with
    | int min max => exact fun n _ _ => ih _ (h.2 _) s
    | real min max => exact fun n _ _ => ih _ (h.2 _) s
    | nothing =>
      refine ⟨?_, fun r a out s' _ => ih a (h.2 a) s'⟩
      have h1 := h.1
      unfold Back.NoY at h1
      unfold TurnOk
      split at h1 <;> first | exact h1.elim | skip
      split <;> first | trivial | simp_all

end Qir.RBack
