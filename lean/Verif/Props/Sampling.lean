import Verif.Proof.Sampling
import Verif.Props.Chance
import Mathlib.Analysis.Complex.ExponentialBounds

/-!
# Finitely many shots (C95)

C58 says that the relative frequencies of the outputs converge to the probabilities.  Here the number of shots is finite:
the number of shots with a given output is distributed binomially, and Hoeffding's inequality says how many shots are
enough for a given precision.
-/

noncomputable section
namespace Qir.Back
open Spec Sim Qir.Out Run MeasureTheory

variable {env : Env} {fmt : Fmt} {p : Prog QCall QAns}

open Classical in
theorem Writes.count {p' : Prog QCall QAns} (hw : Writes env fmt p p')
    (hm : ∀ r, InUnit r → Meaningful p' (Device.init r)) (s : Backend) (B : Set Bytes) (n k : ℕ) :
    streams {r | ∃ outs, written env fmt p n (resampled r s) = .ok outs ∧ outs.countP (· ∈ B) = k} =
      ENNReal.ofReal (n.choose k * chance p' blank (records {es | lines es ∈ B}) ^ k *
        chance p' blank (records {es | lines es ∉ B}) ^ (n - k)) := by
  refine (measure_congr ?_).trans (Samp.counted_law hm {es | lines es ∈ B} n k)
  filter_upwards [streams_unit] with r hr
  apply propext
  show (∃ outs, written env fmt p n (resampled r s) = .ok outs ∧ outs.countP (· ∈ B) = k) ↔
    ∃ ess, idealShots p' n r = .ok ess ∧ ess.countP (· ∈ {es | lines es ∈ B}) = k
  rw [hw _ (resampled r s) hr]
  show (∃ outs, (match idealShots p' n r with
      | .ok ess => .ok (ess.map lines)
      | .error (ess, es) => .error (ess.map lines, lines es)) = Except.ok outs ∧ _) ↔ _
  cases hi : idealShots p' n r with
  | error e => simp
  | ok ess => simp [List.countP_map, Function.comp_def]

open Classical in
theorem hits_count {p' : Prog QCall QAns} (B : Set Bytes) (r : ℕ → ℝ) (n : ℕ) :
    ((((List.range n).map fun i => shot p' i r).map lines).countP (· ∈ B) : ℝ) =
      ∑ i ∈ Finset.range n, Samp.hit p' {es | lines es ∈ B} i r := by
  induction n with
  | zero => simp
  | succ n ih =>
    rw [Finset.sum_range_succ, ← ih, List.range_succ]
    simp [List.countP_append, List.countP_cons, Samp.hit]

open Classical in
theorem countP_single (B : Set Bytes) (b : Bytes) (hB : B = {b}) (outs : List Bytes) :
    outs.countP (· ∈ B) = outs.count b := by
  subst hB
  exact List.countP_congr fun x _ => by simp

open Classical in
theorem Writes.tail {p' : Prog QCall QAns} (hw : Writes env fmt p p')
    (hm : ∀ r, InUnit r → Meaningful p' (Device.init r))
    (hf : chance p' blank (failsWith Set.univ) = 0) (s : Backend) (B : Set Bytes) {n : ℕ} (hn : 0 < n) {t : ℝ}
    (ht : 0 ≤ t) :
    streams {r | ¬ ∃ outs, written env fmt p n (resampled r s) = .ok outs ∧
      |(outs.countP (· ∈ B) : ℝ) / n - chance p' blank (records {es | lines es ∈ B})| < t} ≤
        ENNReal.ofReal (2 * Real.exp (-2 * n * t ^ 2)) := by
  have h1 : chance p' blank (records Set.univ) = 1 := by have := C57_total hm; linarith
  have h := Samp.hits_tail hm h1 {es | lines es ∈ B} n ht
  rw [Measure.real, ← ENNReal.le_ofReal_iff_toReal_le (measure_ne_top _ _) (by positivity)] at h
  refine (measure_mono_ae ?_).trans h
  filter_upwards [streams_unit, shots_ok hm h1] with r hr hok
  obtain ⟨ess, e⟩ := hok n
  have hx : written env fmt p n (resampled r s) = .ok (ess.map lines) := by
    rw [hw _ (resampled r s) hr]
    have e' : idealShots p' n (resampled r s).sim.rng = .ok ess := e
    simp only [e']
  intro hb
  have hb : ¬ ∃ outs, written env fmt p n (resampled r s) = .ok outs ∧
      |(outs.countP (· ∈ B) : ℝ) / n - chance p' blank (records {es | lines es ∈ B})| < t := hb
  show n * t ≤ |∑ i ∈ Finset.range n, Samp.hit p' {es | lines es ∈ B} i r -
    n * chance p' blank (records {es | lines es ∈ B})|
  have hc : ((ess.map lines).countP (· ∈ B) : ℝ) =
      ∑ i ∈ Finset.range n, Samp.hit p' {es | lines es ∈ B} i r := by
    rw [shots_eq n e]
    exact hits_count B r n
  rw [← hc]
  have h2 : t ≤ |((ess.map lines).countP (· ∈ B) : ℝ) / n - chance p' blank (records {es | lines es ∈ B})| :=
    not_lt.1 fun h => hb ⟨_, hx, h⟩
  have h0 : (0 : ℝ) < n := by exact_mod_cast hn
  have h3 := mul_le_mul_of_nonneg_left h2 h0.le
  rwa [← abs_of_pos h0, ← abs_mul, abs_of_pos h0, mul_sub, mul_div_cancel₀ _ h0.ne'] at h3

open Classical in
/-- **C95**.  The number of shots that write something in a given set of byte strings is distributed binomially: with
probability `n choose k` times the product of the probabilities all shots succeed and exactly `k` of them write something
in the set. -/
theorem C95_count (he : env.eps = 0) (hm : ∀ r, InUnit r → Meaningful p (Device.init r))
    (hn : ∀ (r : ℕ → ℝ) (os : ℕ → ℕ), InUnit r → NoTurn env fmt p (Backend.new r os)) (s : Backend)
    (B : Set Bytes) (n k : ℕ) :
    streams {r | ∃ outs, written env fmt p n (resampled r s) = .ok outs ∧ outs.countP (· ∈ B) = k} =
      ENNReal.ofReal (n.choose k * chance p blank (records {es | lines es ∈ B}) ^ k *
        chance p blank (records {es | lines es ∉ B}) ^ (n - k)) :=
  (written_ideal he hm hn).count hm s B n k

/-- **C95**, success: all of `n` shots succeed with the `n`-th power of the probability that the program does not fail. -/
theorem C95_succeeds (he : env.eps = 0) (hm : ∀ r, InUnit r → Meaningful p (Device.init r))
    (hn : ∀ (r : ℕ → ℝ) (os : ℕ → ℕ), InUnit r → NoTurn env fmt p (Backend.new r os)) (s : Backend) (n : ℕ) :
    streams {r | ∃ outs, written env fmt p n (resampled r s) = .ok outs} =
      ENNReal.ofReal ((1 - chance p blank (failsWith Set.univ)) ^ n) := by
  classical
  have h := C95_count he hm hn s Set.univ n n
  rw [← eq_sub_of_add_eq (C57_total hm)]
  refine (measure_congr ?_).trans (h.trans ?_)
  · filter_upwards [streams_unit] with r hr
    apply propext
    refine ⟨fun ⟨outs, e⟩ => ⟨outs, e, ?_⟩, fun ⟨outs, e, _⟩ => ⟨outs, e⟩⟩
    have hw := (written_ideal he hm hn n (resampled r s) hr).symm.trans e
    cases hi : idealShots p n (resampled r s).sim.rng with
    | error x => simp [hi] at hw
    | ok ess =>
      simp only [hi, Except.ok.injEq] at hw
      rw [← hw, shots_eq n hi]
      simp
  · simp only [Nat.choose_self, Nat.sub_self, pow_zero, mul_one, Nat.cast_one, one_mul, Set.mem_univ]
    rfl

open Classical in
/-- **C95**, precision.  If the program fails with probability zero, then for every number of shots the relative frequency
of any set of outputs is off by `t` or more with probability at most `2 exp (-2 n t²)`. -/
theorem C95_tail (he : env.eps = 0) (hm : ∀ r, InUnit r → Meaningful p (Device.init r))
    (hn : ∀ (r : ℕ → ℝ) (os : ℕ → ℕ), InUnit r → NoTurn env fmt p (Backend.new r os))
    (hf : chance p blank (failsWith Set.univ) = 0) (s : Backend) (B : Set Bytes) {n : ℕ} (h0 : 0 < n) {t : ℝ}
    (ht : 0 ≤ t) :
    streams {r | ¬ ∃ outs, written env fmt p n (resampled r s) = .ok outs ∧
      |(outs.countP (· ∈ B) : ℝ) / n - chance p blank (records {es | lines es ∈ B})| < t} ≤
        ENNReal.ofReal (2 * Real.exp (-2 * n * t ^ 2)) :=
  (written_ideal he hm hn).tail hm hf s B h0 ht

open Classical in
/-- **C95**, how many shots are enough: with `log (2 / δ) / (2 t²)` shots or more, the relative frequency is within `t` of
the probability except with probability `δ`. -/
theorem C95_enough (he : env.eps = 0) (hm : ∀ r, InUnit r → Meaningful p (Device.init r))
    (hn : ∀ (r : ℕ → ℝ) (os : ℕ → ℕ), InUnit r → NoTurn env fmt p (Backend.new r os))
    (hf : chance p blank (failsWith Set.univ) = 0) (s : Backend) (B : Set Bytes) {n : ℕ} (h0 : 0 < n) {t d : ℝ}
    (ht : 0 < t) (hd : 0 < d) (hs : Real.log (2 / d) / (2 * t ^ 2) ≤ n) :
    streams {r | ¬ ∃ outs, written env fmt p n (resampled r s) = .ok outs ∧
      |(outs.countP (· ∈ B) : ℝ) / n - chance p blank (records {es | lines es ∈ B})| < t} ≤ ENNReal.ofReal d := by
  refine (C95_tail he hm hn hf s B h0 ht.le).trans (ENNReal.ofReal_le_ofReal ?_)
  rw [div_le_iff₀ (by positivity)] at hs
  have h : Real.exp (-2 * n * t ^ 2) ≤ Real.exp (-Real.log (2 / d)) := Real.exp_le_exp.2 (by linarith)
  rw [Real.exp_neg, Real.exp_log (by positivity), inv_div] at h
  linarith

/-! ### The coin -/

/-- **C95** for the coin: the number of ones is distributed as by coin tosses. -/
theorem C95_coin (he : env.eps = 0) (s : Backend) (n k : ℕ) :
    streams {r | ∃ outs, written env fmt coin n (resampled r s) = .ok outs ∧ outs.count (bitLine true) = k} =
      ENNReal.ofReal (n.choose k * (1 / 2) ^ n) := by
  classical
  have h := C95_count (fmt := fmt) he (fun r _ => coin_meaningful r) (fun r os _ => coin_noY.noTurn _) s
    {bitLine true} n k
  have hz : chance coin blank (records {es | lines es ∉ ({bitLine true} : Set Bytes)}) = 1 / 2 := by
    rw [coin_chance]
    simp only [Set.mem_ofPred_eq, coin_lines, Set.mem_singleton_iff]
    have h : bitLine false ≠ bitLine true := fun h => by cases bitLine_inj h
    simp [h]
  rw [coin_bit, hz] at h
  simp only [countP_single _ _ rfl] at h
  rw [h]
  congr 1
  rcases Nat.lt_or_ge n k with hk | hk
  · simp [Nat.choose_eq_zero_of_lt hk]
  · rw [mul_assoc, ← pow_add, Nat.add_sub_cancel' hk]

/-- With 1000 shots the fraction of ones is between 0.44 and 0.56 except with a probability below 0.002. -/
example (he : env.eps = 0) (s : Backend) :
    streams {r | ¬ ∃ outs, written env fmt coin 1000 (resampled r s) = .ok outs ∧
      |(outs.count (bitLine true) : ℝ) / 1000 - 1 / 2| < 6 / 100} ≤ ENNReal.ofReal (2 / 1000) := by
  classical
  have h := C95_tail (fmt := fmt) he (fun r _ => coin_meaningful r) (fun r os _ => coin_noY.noTurn _) coin_sure s
    {bitLine true} (n := 1000) (by norm_num) (t := 6 / 100) (by norm_num)
  rw [coin_bit] at h
  simp only [countP_single _ _ rfl] at h
  refine h.trans (ENNReal.ofReal_le_ofReal ?_)
  have h7 : (1000 : ℝ) ≤ Real.exp 7 := by
    have h1 : (2.7182818283 : ℝ) < Real.exp 1 := Real.exp_one_gt_d9
    have h2 : Real.exp 7 = Real.exp 1 ^ 7 := by rw [← Real.exp_nat_mul]; norm_num
    rw [h2]
    exact (by norm_num : (1000 : ℝ) ≤ 2.7182818283 ^ 7).trans (pow_le_pow_left₀ (by norm_num) h1.le 7)
  have h8 : Real.exp (-2 * (1000 : ℕ) * (6 / 100) ^ 2) ≤ Real.exp (-7) := Real.exp_le_exp.2 (by norm_num)
  have h9 : Real.exp (-7) ≤ 1 / 1000 := by
    rw [Real.exp_neg, ← one_div]
    exact one_div_le_one_div_of_le (by norm_num) h7
  linarith

end Qir.Back
