import Verif.Proof.Tally
import Verif.Props.Sampling
import Verif.Props.TotalVariation

/-!
# Finitely many shots of the code with rounding and its tolerance (C95)
-/

noncomputable section
namespace Qir.RBack
open Spec Sim Qir.Out Run Rnd MeasureTheory
open Qir.Back (Backend Fmt streams blank records failsWith resampled chance NoYProg coin coin_noY bitLine coin_bit)

variable {A : Arith} {N W M : ℕ} {T : ℝ} {fmt : Fmt} {p : Prog QCall QAns}

theorem written_length (n : ℕ) : ∀ (s : Backend) (outs : List Bytes), written A fmt p n s = .ok outs → outs.length = n := by
  induction n with
  | zero => intro s outs h; cases h; rfl
  | succ n ih =>
    intro s outs h
    rw [written_succ] at h
    cases hx : speech (step A fmt) p (Backend.new s.sim.rng s.os) with
    | error e => simp [hx] at h
    | ok x =>
      obtain ⟨out, s'⟩ := x
      cases hy : written A fmt p n s' with
      | error e => simp [hx, hy] at h
      | ok outs' =>
        simp only [hx, hy, Except.ok.injEq] at h
        rw [← h, List.length_cons, ih _ _ hy]

theorem shots_lawful (h0 : 0 < A.eps) (h1 : A.eps ≤ 1 / 4) (h2 : 1000 * (A.u + A.eta) ≤ A.eps)
    (hw : Within A N p blank W M T) (hT : A.u * T + A.eta ≤ A.eps)
    (ht : Turnless A fmt p (Backend.new (fun _ => 0) fun _ => 0)) : ∃ P : Set Bytes → ℝ,
      (∀ B, 0 ≤ P B ∧ P B ≤ 1 ∧ |P B - chance p blank (records {es | lines es ∈ B})| ≤ gap A N W M) ∧
      ∀ (s : Backend) (Bs : List (Set Bytes)),
        MeasurableSet (Tally.inSets (fun n r => written A fmt p n (resampled r s)) Bs) ∧
        streams (Tally.inSets (fun n r => written A fmt p n (resampled r s)) Bs) =
          (Bs.map fun B => ENNReal.ofReal (P B)).prod := by
  obtain ⟨hk, h⟩ := one_shot ⟨h0, h1, h2⟩ hw hT ht
  choose P hP _ _ dP using fun B => h (good B)
  refine ⟨P, fun B => ⟨(hP B).1, (hP B).2.1, dP B⟩, fun s Bs => ?_⟩
  have e : Tally.inSets (fun n r => written A fmt p n (resampled r s)) Bs = won A fmt p Bs s.os := by
    ext r
    simp only [won, Tally.inSets, Set.mem_ofPred_eq, written_new _ (resampled r s)]
    rfl
  rw [e]
  exact won_law hk hP s.os Bs

open Classical in
/-- **C95**, the code with rounded arithmetic and its tolerance: the number of shots that write something in a set is
distributed binomially exactly, with probabilities within `gap` of those of the ideal device (see C63). -/
theorem C95_rounded_count (h0 : 0 < A.eps) (h1 : A.eps ≤ 1 / 4) (h2 : 1000 * (A.u + A.eta) ≤ A.eps)
    (hw : Within A N p blank W M T) (hT : A.u * T + A.eta ≤ A.eps)
    (ht : Turnless A fmt p (Backend.new (fun _ => 0) fun _ => 0)) (B : Set Bytes) : ∃ a b : ℝ,
      0 ≤ a ∧ 0 ≤ b ∧ |a - chance p blank (records {es | lines es ∈ B})| ≤ gap A N W M ∧
      |b - chance p blank (records {es | lines es ∉ B})| ≤ gap A N W M ∧
      ∀ (s : Backend) (n k : ℕ),
        streams {r | ∃ outs, written A fmt p n (resampled r s) = .ok outs ∧ outs.countP (· ∈ B) = k} =
          ENNReal.ofReal (n.choose k * a ^ k * b ^ (n - k)) := by
  obtain ⟨P, hP, h⟩ := shots_lawful h0 h1 h2 hw hT ht
  refine ⟨P B, P Bᶜ, (hP B).1, (hP Bᶜ).1, (hP B).2.2, (hP Bᶜ).2.2, fun s n k => ?_⟩
  have e := (Tally.tallied_law (h s) (fun B => (hP B).1) B n k []).2
  rw [Tally.tallied_nil (fun n r outs => written_length n _ outs)] at e
  simpa using e

open Classical in
/-- **C95**, the code with rounded arithmetic and its tolerance: if the program ends well with probability one on the ideal
device, the relative frequency of a set of outputs among `n` shots is off by `t + gap` or more (or a shot fails) with
probability at most `2 exp (-2 n t²) + n gap`. -/
theorem C95_rounded (h0 : 0 < A.eps) (h1 : A.eps ≤ 1 / 4) (h2 : 1000 * (A.u + A.eta) ≤ A.eps)
    (hw : Within A N p blank W M T) (hT : A.u * T + A.eta ≤ A.eps)
    (ht : Turnless A fmt p (Backend.new (fun _ => 0) fun _ => 0)) (hf : chance p blank (records Set.univ) = 1)
    (s : Backend) (B : Set Bytes) {n : ℕ} (hn : 0 < n) {t : ℝ} (ht0 : 0 ≤ t) :
    streams.real {r | ¬ ∃ outs, written A fmt p n (resampled r s) = .ok outs ∧
      |(outs.countP (· ∈ B) : ℝ) / n - chance p blank (records {es | lines es ∈ B})| < t + gap A N W M} ≤
        2 * Real.exp (-2 * n * t ^ 2) + n * gap A N W M := by
  obtain ⟨P, hP, h⟩ := shots_lawful h0 h1 h2 hw hT ht
  have hoff := Tally.off (h s) (fun B => (hP B).1) (fun n r outs => written_length n _ outs) B hn ht0
  have hu : 1 - gap A N W M ≤ P Set.univ := by
    have := (hP Set.univ).2.2
    rw [show {es | lines es ∈ (Set.univ : Set Bytes)} = Set.univ from rfl, hf] at this
    linarith [(abs_le.1 this).1]
  have hb : 1 - P Set.univ ^ n ≤ n * gap A N W M := by
    have h3 := one_add_mul_le_pow (a := P Set.univ - 1) (by linarith [(hP Set.univ).1]) n
    rw [add_sub_cancel] at h3
    have h4 : (n : ℝ) * (1 - P Set.univ) ≤ n * gap A N W M := mul_le_mul_of_nonneg_left (by linarith) (by positivity)
    linarith
  refine (measureReal_mono ?_).trans (hoff.trans (by linarith))
  intro r hr ⟨outs, e, hc⟩
  refine hr ⟨outs, e, ?_⟩
  have h5 := abs_sub_le ((outs.countP (· ∈ B) : ℝ) / n) (P B) (chance p blank (records {es | lines es ∈ B}))
  linarith [(hP B).2.2]

theorem thousand : Real.exp (-2 * (1000 : ℕ) * (6 / 100) ^ 2) ≤ 1 / 1000 := by
  have h7 : (1000 : ℝ) ≤ Real.exp 7 := by
    have h1 : (2.7182818283 : ℝ) < Real.exp 1 := Real.exp_one_gt_d9
    have h2 : Real.exp 7 = Real.exp 1 ^ 7 := by rw [← Real.exp_nat_mul]; norm_num
    rw [h2]
    exact (by norm_num : (1000 : ℝ) ≤ 2.7182818283 ^ 7).trans (pow_le_pow_left₀ (by norm_num) h1.le 7)
  have h8 : Real.exp (-2 * (1000 : ℕ) * (6 / 100) ^ 2) ≤ Real.exp (-7) := Real.exp_le_exp.2 (by norm_num)
  have h9 : Real.exp (-7) ≤ 1 / 1000 := by
    rw [Real.exp_neg, ← one_div]
    exact one_div_le_one_div_of_le (by norm_num) h7
  exact h8.trans h9

/-- **C95** for the coin in double precision, whatever the order of iteration: with 1000 shots the fraction of ones is
between 0.439 and 0.561 except with a probability of at most 0.003. -/
theorem C95_rounded_coin (shuffle : List (ℕ × ℂ) → List (ℕ × ℂ)) (hs : ∀ l, (shuffle l).Perm l) (s : Backend) :
    streams.real {r | ¬ ∃ outs, written (binary64 shuffle hs) fmt coin 1000 (resampled r s) = .ok outs ∧
      |(outs.count (bitLine true) : ℝ) / 1000 - 1 / 2| < 61 / 1000} ≤ 3 / 1000 := by
  classical
  obtain ⟨h0, h1, h2⟩ := C62_binary64 shuffle hs
  obtain ⟨hT, hg⟩ := C63_binary64 shuffle hs
  have hone : chance coin blank (records Set.univ) = 1 := by
    have h := Back.C57_total (p := coin) fun r _ => Back.coin_meaningful r
    rw [Back.coin_sure] at h
    linarith
  have h := C95_rounded (fmt := fmt) h0 h1 h2 (coin_within _) (hT 0 (by norm_num)) (C63_no_turn coin_noY _) hone s
    {bitLine true} (n := 1000) (by norm_num) (t := 6 / 100) (by norm_num)
  rw [coin_bit] at h
  simp only [Back.countP_single _ _ rfl] at h
  have hgap : gap (binary64 shuffle hs) 2 67 1 ≤ 1e-6 := by
    refine (hg 2 67 1).trans ?_
    have : √((2 : ℝ) ^ 2) = 2 := by rw [Real.sqrt_sq (by norm_num)]
    rw [this]
    norm_num
  refine (measureReal_mono ?_).trans (h.trans ?_)
  · intro r hr ⟨outs, e, hc⟩
    refine hr ⟨outs, e, ?_⟩
    push_cast at hc
    linarith
  · have := thousand
    push_cast at this ⊢
    linarith

end Qir.RBack
