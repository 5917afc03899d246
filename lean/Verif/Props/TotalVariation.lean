import Verif.Proof.TVShots
import Verif.Props.Rounding

/-!
# How far rounding and the tolerance move the distribution of the output (C63)

`chance p blank` is the probability distribution of the ideal device (`Props/ChanceDefs.lean`).  `streams` is the measure
of independent uniform samples.  The code, with rounded arithmetic and the tolerance for amplitudes, is
`Model/RoundedBackend.lean`.
-/

noncomputable section
namespace Qir.RBack
open Spec Sim Qir.Out Run Rnd MeasureTheory
open Qir.Back (Backend Fmt streams blank records failsWith resampled chance NoYProg coin coin_noY bitLine coin_bit bellQ)

variable {A : Arith} {N W M : ℕ} {T : ℝ} {fmt : Fmt} {p : Prog QCall QAns}

/-- **C63**.  One shot: the probability that the code writes something in a set and ends as asked for is within `gap` of the
probability on the ideal device, for every set: the distributions differ by at most `gap` in total variation.  For every
arithmetic whose rounding errors are at most a thousandth of the tolerance; every program whose calls make sense whatever
is measured, with at most `N` qubits, `W` passes over the state vector, `M` measurements and angles up to `T`. -/
theorem C63_distance (h0 : 0 < A.eps) (h1 : A.eps ≤ 1 / 4) (h2 : 1000 * (A.u + A.eta) ≤ A.eps)
    (hw : Within A N p blank W M T) (hT : A.u * T + A.eta ≤ A.eps)
    (ht : Turnless A fmt p (Backend.new (fun _ => 0) fun _ => 0)) (os : ℕ → ℕ) (S : Set (Bytes × Bool)) :
    MeasurableSet {r | outcome A fmt p (Backend.new r os) ∈ S} ∧
    |streams.real {r | outcome A fmt p (Backend.new r os) ∈ S} - chance p blank (texts S)| ≤ gap A N W M := by
  obtain ⟨_, h⟩ := one_shot ⟨h0, h1, h2⟩ hw hT ht
  obtain ⟨L, ⟨l0, l1, hL⟩, _, _, hd⟩ := h S
  obtain ⟨m, e⟩ := hL os Set.univ .univ (.inl rfl)
  have hs : {r | outcome A fmt p (Backend.new r os) ∈ S} =
      {r | Ends S Set.univ (speech (step A fmt) p (Backend.new r os))} := by
    ext r
    simp only [Set.mem_ofPred_eq, outcome]
    cases speech (step A fmt) p (Backend.new r os) with
    | error e => rfl
    | ok x => simp [Ends]
  rw [hs]
  refine ⟨m, ?_⟩
  rw [measureReal_def, e]
  simpa [ENNReal.toReal_ofReal l0] using hd

/-- **C63**.  Sessions: the outputs of the shots are independent exactly, whatever the backend was used for before, and
identically distributed, with probabilities within `gap` of those of the ideal device. -/
theorem C63_shots (h0 : 0 < A.eps) (h1 : A.eps ≤ 1 / 4) (h2 : 1000 * (A.u + A.eta) ≤ A.eps)
    (hw : Within A N p blank W M T) (hT : A.u * T + A.eta ≤ A.eps)
    (ht : Turnless A fmt p (Backend.new (fun _ => 0) fun _ => 0)) :
    ∃ P Q : Set Bytes → ℝ,
      (∀ B, 0 ≤ P B ∧ P B ≤ 1 ∧ |P B - chance p blank (records {es | lines es ∈ B})| ≤ gap A N W M) ∧
      (∀ B, 0 ≤ Q B ∧ Q B ≤ 1 ∧ |Q B - chance p blank (failsWith {es | lines es ∈ B})| ≤ gap A N W M) ∧
      (∀ (s : Backend) (Bs : List (Set Bytes)),
        streams {r | ∃ outs, written A fmt p Bs.length (resampled r s) = .ok outs ∧ List.Forall₂ (· ∈ ·) outs Bs} =
          (Bs.map fun B => ENNReal.ofReal (P B)).prod) ∧
      ∀ (s : Backend) (Bs : List (Set Bytes)) (B : Set Bytes) (n : ℕ), Bs.length < n →
        streams {r | ∃ outs o, written A fmt p n (resampled r s) = .error (outs, o) ∧
            List.Forall₂ (· ∈ ·) outs Bs ∧ o ∈ B} =
          (Bs.map fun B => ENNReal.ofReal (P B)).prod * ENNReal.ofReal (Q B) := by
  obtain ⟨hk, h⟩ := one_shot ⟨h0, h1, h2⟩ hw hT ht
  choose P hP _ _ dP using fun B => h (good B)
  choose Q hQ _ _ dQ using fun B => h (bad B)
  refine ⟨P, Q, fun B => ⟨(hP B).1, (hP B).2.1, dP B⟩, fun B => ⟨(hQ B).1, (hQ B).2.1, dQ B⟩, fun s Bs => ?_, fun s Bs B n hn => ?_⟩
  · rw [← (won_law hk hP s.os Bs).2]
    congr 1
    ext r
    simp only [won, Set.mem_ofPred_eq, written_new _ (resampled r s)]
    rfl
  · rw [← (lost_law hk hP hQ s.os B n Bs hn).2]
    congr 1
    ext r
    simp only [lost, Set.mem_ofPred_eq, written_new _ (resampled r s)]
    rfl

/-- **C63**.  The probability of a sequence of outputs is within `gap` for each shot of that on the ideal device. -/
theorem C63_sessions (h0 : 0 < A.eps) (h1 : A.eps ≤ 1 / 4) (h2 : 1000 * (A.u + A.eta) ≤ A.eps)
    (hw : Within A N p blank W M T) (hT : A.u * T + A.eta ≤ A.eps)
    (ht : Turnless A fmt p (Backend.new (fun _ => 0) fun _ => 0)) (s : Backend) (Bs : List (Set Bytes)) :
    |streams.real {r | ∃ outs, written A fmt p Bs.length (resampled r s) = .ok outs ∧ List.Forall₂ (· ∈ ·) outs Bs} -
      (Bs.map fun B => chance p blank (records {es | lines es ∈ B})).prod| ≤ Bs.length * gap A N W M := by
  obtain ⟨P, _, hP, _, hs, _⟩ := C63_shots h0 h1 h2 hw hT ht
  obtain ⟨_, h⟩ := one_shot ⟨h0, h1, h2⟩ hw hT ht
  have hc : ∀ B, 0 ≤ chance p blank (records {es | lines es ∈ B}) ∧ chance p blank (records {es | lines es ∈ B}) ≤ 1 :=
    fun B => by obtain ⟨_, _, c0, c1, _⟩ := h (good B); exact ⟨c0, c1⟩
  have e : streams.real {r | ∃ outs, written A fmt p Bs.length (resampled r s) = .ok outs ∧
      List.Forall₂ (· ∈ ·) outs Bs} = (Bs.map P).prod := by
    rw [measureReal_def, hs s Bs]
    induction Bs with
    | nil => simp
    | cons B Bs ih =>
      rw [List.map_cons, List.prod_cons, ENNReal.toReal_mul, ih, ENNReal.toReal_ofReal (hP B).1, List.map_cons,
        List.prod_cons]
  rw [e]
  exact (prod_near (fun B => ⟨(hP B).1, (hP B).2.1, (hc B).1, (hc B).2, (hP B).2.2⟩) Bs).2.2.2.2

/-- The last hypothesis holds for programs without uncontrolled rotations about Y. -/
theorem C63_no_turn (h : NoYProg p) (s : Backend) : Turnless A fmt p s := .of_noY h s

/-- In double precision at the tolerance of the code, the pending angles may add up to 800000, and the bound is
`7e-9 · √(2 ^ N)` for each pass and `3e-13 · 2 ^ N` for each measurement. -/
theorem C63_binary64 (shuffle : List (ℕ × ℂ) → List (ℕ × ℂ)) (hs : ∀ l, (shuffle l).Perm l) :
    (∀ T ≤ 800000, (binary64 shuffle hs).u * T + (binary64 shuffle hs).eta ≤ (binary64 shuffle hs).eps) ∧
    ∀ N W M : ℕ, gap (binary64 shuffle hs) N W M ≤ 7e-9 * √(2 ^ N) * W + 3e-13 * 2 ^ N * M := by
  have h' : (2 : ℝ) ^ (-53 : ℤ) ≤ 1.2e-16 := by norm_num
  have h'' : (2 : ℝ) ^ (-1022 - 53 : ℤ) ≤ 1e-17 :=
    (zpow_le_zpow_right₀ (by norm_num) (by norm_num : (-1022 - 53 : ℤ) ≤ -60)).trans (by norm_num)
  have p1 : (0 : ℝ) < 2 ^ (-53 : ℤ) := by positivity
  have p2 : (0 : ℝ) < (2 : ℝ) ^ (-1022 - 53 : ℤ) := by positivity
  have hu : (binary64 shuffle hs).u = (2 : ℝ) ^ (-53 : ℤ) := rfl
  have hn : (binary64 shuffle hs).eta = (2 : ℝ) ^ (-1022 - 53 : ℤ) := rfl
  have he : (binary64 shuffle hs).eps = 1e-10 := rfl
  generalize (2 : ℝ) ^ (-53 : ℤ) = u at *
  generalize (2 : ℝ) ^ (-1022 - 53 : ℤ) = v at *
  constructor
  · intro T hT
    rw [hu, hn, he]
    nlinarith [mul_le_mul_of_nonneg_left hT p1.le]
  · intro N W M
    unfold gap
    rw [hu, hn, he]
    have h2 : √2 ≤ (1.4143 : ℝ) := by rw [Real.sqrt_le_left (by norm_num)]; norm_num
    have hN := Real.sqrt_nonneg ((2 : ℝ) ^ N)
    have hN' : (0 : ℝ) ≤ 2 ^ N := by positivity
    have hW : (0 : ℝ) ≤ W := by positivity
    have hM : (0 : ℝ) ≤ M := by positivity
    refine add_le_add (mul_le_mul_of_nonneg_right ?_ hW) (mul_le_mul_of_nonneg_right ?_ hM)
    · rw [← mul_assoc]
      exact mul_le_mul_of_nonneg_right (by linarith) hN
    · rw [mul_right_comm]
      exact mul_le_mul_of_nonneg_right (by linarith) hN'

/-! ### A concrete program -/

/-- The coin of `Props/Session.lean` (half a Bell pair, measured) takes two qubits, 67 passes and one measurement. -/
theorem coin_within (A : Arith) : Within A 2 coin blank 67 1 0 := by
  refine ⟨.inr ⟨rfl, le_refl _⟩, trivial, by decide, le_refl _, fun a es δ1 e1 => ?_⟩
  cases e1
  refine ⟨by decide, ⟨by decide, ?_⟩, trivial, by decide, by simp [turn], fun a es δ2 e2 => ?_⟩
  · intro i hi
    simp only [List.cons_append, List.nil_append, List.mem_cons, List.not_mem_nil, or_false] at hi
    rcases hi with rfl | rfl
    · exact .inl (by decide)
    · exact .inr ⟨rfl, by decide⟩
  cases e2
  have hh : ∀ v : Bool, (Back.finding v (Device.apply [1, 0] (ctrl [0] Gate.x.mat 1)
      (Device.apply [0] (ctrl [] Gate.h.mat 0) blank)) (.mz 0 0)).2.high = 2 := by
    intro v
    show (Device.useAll [0] (Device.useAll [1, 0] (Device.useAll [0] blank))).high = 2
    decide
  have hl : ∀ v : Bool, (Back.finding v (Device.apply [1, 0] (ctrl [0] Gate.x.mat 1)
      (Device.apply [0] (ctrl [] Gate.h.mat 0) blank)) (.mz 0 0)).2.live = {0, 1} := by
    intro v
    show (Device.useAll [0] (Device.useAll [1, 0] (Device.useAll [0] blank))).live = {0, 1}
    decide
  refine ⟨by decide, .inl (by decide), trivial, by decide, by simp [turn], le_refl _,
    fun v => ⟨by rw [hl]; decide, by decide, ?_⟩⟩
  have hl := hl v
  have hh := hh v
  generalize hd : (Back.finding v (Device.apply [1, 0] (ctrl [0] Gate.x.mat 1)
      (Device.apply [0] (ctrl [] Gate.h.mat 0) blank)) (.mz 0 0)).2 = δ at hl hh
  clear hd
  refine ⟨trivial, trivial, by decide, by simp [turn], fun a es δ3 e3 => ?_⟩
  cases e3
  refine ⟨hl.symm ▸ by decide, ?_⟩
  dsimp only
  split
  · refine ⟨.inl (hl.symm ▸ by decide), trivial, by decide, by simp [turn], fun a es δ4 e4 => ?_⟩
    cases e4
    have hl' : (Device.useAll [0] { δ with touched := true }).live = {0, 1} := by
      simp [Device.useAll, Device.use, hh, hl]
    refine ⟨(show (Device.useAll [0] { δ with touched := true }).live.card ≤ 2 from hl'.symm ▸ by decide), trivial, trivial,
      by decide, by simp [turn], fun a es δ5 e5 => ?_⟩
    cases e5
    exact ⟨(show (Device.useAll [0] { δ with touched := true }).live.card ≤ 2 from hl'.symm ▸ by decide), trivial⟩
  · refine ⟨trivial, trivial, by decide, by simp [turn], fun a es δ5 e5 => ?_⟩
    cases e5
    exact ⟨hl.symm ▸ by decide, trivial⟩

/-- **C63** for the coin, in double precision, whatever the order of iteration: each line has probability one half within
a millionth. -/
theorem C63_coin (shuffle : List (ℕ × ℂ) → List (ℕ × ℂ)) (hs : ∀ l, (shuffle l).Perm l) (os : ℕ → ℕ) (b : Bool) :
    |streams.real {r | outcome (binary64 shuffle hs) fmt coin (Backend.new r os) = (bitLine b, true)} - 1 / 2| ≤ 1e-6 := by
  obtain ⟨h0, h1, h2⟩ := C62_binary64 shuffle hs
  obtain ⟨hT, hg⟩ := C63_binary64 shuffle hs
  have h := (C63_distance (fmt := fmt) h0 h1 h2 (coin_within _) (hT 0 (by norm_num)) (C63_no_turn coin_noY _) os
    (good {bitLine b})).2
  rw [texts_good, coin_bit] at h
  have hset : {r | outcome (binary64 shuffle hs) fmt coin (Backend.new r os) = (bitLine b, true)} =
      {r | outcome (binary64 shuffle hs) fmt coin (Backend.new r os) ∈ good {bitLine b}} := by
    ext r
    simp [good, Prod.ext_iff]
  rw [hset]
  refine h.trans ((hg 2 67 1).trans ?_)
  have : √((2 : ℝ) ^ 2) = 2 := by rw [Real.sqrt_sq (by norm_num)]
  rw [this]
  norm_num

end Qir.RBack
