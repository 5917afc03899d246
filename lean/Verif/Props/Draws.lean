import Verif.Props.Math
import Mathlib.Data.Set.Card
import Mathlib.Order.Interval.Finset.Nat
import Mathlib.Data.Int.Interval
import Mathlib.Algebra.BigOperators.Group.Finset.Basic
import Mathlib.Algebra.Order.BigOperators.Group.Finset
import Mathlib.Data.Nat.Prime.Basic

/-!
# How evenly integers are drawn (C59)

`random_range` does not reject words, so the values of a range whose size does not divide the number of pairs of words
cannot be drawn equally often.  The theorems say how uneven the drawing is.
-/

namespace Qir.Std

/-- Specification: the number of pairs of words for which `k` is drawn. -/
noncomputable def draws (min max k : ℤ) : ℕ :=
  {w : ℕ × ℕ | (w.1 < words ∧ w.2 < words) ∧ drawRandomInt min max w.1 w.2 = .ok k}.ncard

/-! ### Counting -/

/-- The words at which a product passes from below `j` times the modulus to at least that. -/
theorem count_interval {M r : ℕ} (hr : 0 < r) (j : ℕ) (hj : j < r) :
    ∃ n : ℕ, ((Finset.range M).filter fun W => r * W / M = j).card = n ∧ n * r < M + r ∧ M < n * r + r := by
  rcases Nat.eq_zero_or_pos M with rfl | hM
  · exact ⟨0, by simp, by omega, by omega⟩
  obtain ⟨a, ha⟩ : ∃ a, a = (j * M + (r - 1)) / r := ⟨_, rfl⟩
  obtain ⟨b, hb⟩ : ∃ b, b = ((j + 1) * M + (r - 1)) / r := ⟨_, rfl⟩
  have da := Nat.div_add_mod (j * M + (r - 1)) r
  have ma := Nat.mod_lt (j * M + (r - 1)) hr
  have db := Nat.div_add_mod ((j + 1) * M + (r - 1)) r
  have mb := Nat.mod_lt ((j + 1) * M + (r - 1)) hr
  rw [← ha] at da
  rw [← hb] at db
  have hsucc : (j + 1) * M = j * M + M := by ring
  have hab : a ≤ b := by
    rw [ha, hb]
    exact Nat.div_le_div_right (by omega)
  have hset : ((Finset.range M).filter fun W => r * W / M = j) = Finset.Ico a b := by
    ext W
    rw [Finset.mem_filter, Finset.mem_range, Finset.mem_Ico, Nat.div_eq_iff hM]
    have e1 : a ≤ W ↔ j * M ≤ r * W := by
      rw [ha, ← Nat.lt_succ_iff, Nat.div_lt_iff_lt_mul hr]
      have : W.succ * r = r * W + r := by rw [Nat.succ_mul, mul_comm]
      omega
    have e2 : W < b ↔ r * W < (j + 1) * M := by
      rw [hb, Nat.lt_iff_add_one_le, Nat.le_div_iff_mul_le hr]
      have : (W + 1) * r = r * W + r := by rw [Nat.succ_mul, mul_comm]
      omega
    rw [e1, e2]
    constructor
    · rintro ⟨_, h1, h2⟩
      omega
    · rintro ⟨h1, h2⟩
      refine ⟨?_, h1, by omega⟩
      by_contra hge
      have h3 : r * M ≤ r * W := Nat.mul_le_mul_left _ (by omega)
      have h4 : (j + 1) * M ≤ r * M := Nat.mul_le_mul_right _ (by omega)
      omega
  refine ⟨b - a, by rw [hset, Nat.card_Ico], ?_, ?_⟩
  · have : (b - a) * r = r * b - r * a := by rw [mul_comm, Nat.mul_sub]
    omega
  · have : (b - a) * r = r * b - r * a := by rw [mul_comm, Nat.mul_sub]
    have h5 : r * a ≤ r * b := Nat.mul_le_mul_left _ hab
    omega

/-- A pair of words is a number below the square of the number of words. -/
theorem pairs_card {N : ℕ} (hN : 0 < N) (P : ℕ → Prop) [DecidablePred P] :
    ((Finset.range N ×ˢ Finset.range N).filter fun w => P (w.1 * N + w.2)).card =
      ((Finset.range (N * N)).filter P).card := by
  refine Finset.card_nbij' (fun w => w.1 * N + w.2) (fun W => (W / N, W % N)) ?_ ?_ ?_ ?_
  · rintro ⟨a, b⟩ h
    simp only [Finset.coe_filter, Finset.mem_product, Finset.mem_range, Set.mem_ofPred_eq] at h ⊢
    obtain ⟨⟨ha, hb⟩, hP⟩ := h
    refine ⟨?_, hP⟩
    have : (a + 1) * N ≤ N * N := Nat.mul_le_mul_right _ (by omega)
    have : (a + 1) * N = a * N + N := by ring
    omega
  · intro W h
    simp only [Finset.coe_filter, Finset.mem_product, Finset.mem_range] at h ⊢
    refine ⟨⟨(Nat.div_lt_iff_lt_mul hN).2 h.1, Nat.mod_lt _ hN⟩, ?_⟩
    rw [Nat.div_add_mod' W N]
    exact h.2
  · rintro ⟨a, b⟩ h
    simp only [Finset.coe_filter, Finset.mem_product, Finset.mem_range] at h
    have hb := h.1.2
    simp only [Prod.mk.injEq]
    constructor
    · rw [mul_comm, Nat.mul_add_div hN, Nat.div_eq_of_lt hb, add_zero]
    · rw [mul_comm, Nat.mul_add_mod, Nat.mod_eq_of_lt hb]
  · intro W _
    exact Nat.div_add_mod' W N

theorem ncard_pairs (N : ℕ) (P : ℕ × ℕ → Prop) [DecidablePred P] : {w : ℕ × ℕ | (w.1 < N ∧ w.2 < N) ∧ P w}.ncard =
    ((Finset.range N ×ˢ Finset.range N).filter P).card := by
  rw [← Set.ncard_coe_finset]
  congr 1
  ext ⟨a, b⟩
  simp

/-- The values a scaled position takes. -/
theorem count_scaled {N r : ℕ} (hN : 0 < N) (hr : 0 < r) (j : ℕ) (hj : j < r) :
    ∃ n : ℕ, {w : ℕ × ℕ | (w.1 < N ∧ w.2 < N) ∧ r * (w.1 * N + w.2) / (N * N) = j}.ncard = n ∧
      n * r < N * N + r ∧ N * N < n * r + r := by
  obtain ⟨n, h1, h2⟩ := count_interval (M := N * N) hr j hj
  refine ⟨n, ?_, h2⟩
  rw [ncard_pairs N fun w => r * (w.1 * N + w.2) / (N * N) = j]
  exact (pairs_card hN fun W => r * W / (N * N) = j).trans h1

theorem count_first (N c : ℕ) (hc : c < N) : {w : ℕ × ℕ | (w.1 < N ∧ w.2 < N) ∧ w.1 = c}.ncard = N := by
  rw [ncard_pairs N fun w => w.1 = c,
    show ((Finset.range N ×ˢ Finset.range N).filter fun w => w.1 = c) = {c} ×ˢ Finset.range N by
      ext ⟨a, b⟩
      simp only [Finset.mem_filter, Finset.mem_product, Finset.mem_range, Finset.mem_singleton]
      constructor
      · rintro ⟨⟨_, h⟩, rfl⟩; exact ⟨rfl, h⟩
      · rintro ⟨rfl, h⟩; exact ⟨⟨hc, h⟩, rfl⟩]
  simp

theorem count_total (N : ℕ) (g : ℕ × ℕ → ℤ) (lo hi : ℤ) (h : ∀ w : ℕ × ℕ, w.1 < N → w.2 < N → lo ≤ g w ∧ g w ≤ hi) :
    ∑ k ∈ Finset.Icc lo hi, {w : ℕ × ℕ | (w.1 < N ∧ w.2 < N) ∧ g w = k}.ncard = N * N := by
  have h' : Set.MapsTo g (Finset.range N ×ˢ Finset.range N : Finset (ℕ × ℕ)) (Finset.Icc lo hi : Finset ℤ) := by
    intro w hw
    simp only [Finset.coe_product, Finset.coe_range, Set.mem_prod, Set.mem_Iio] at hw
    rw [Finset.coe_Icc]
    exact h w hw.1 hw.2
  have := Finset.card_eq_sum_card_fiberwise h'
  rw [Finset.card_product, Finset.card_range] at this
  rw [this]
  exact Finset.sum_congr rfl fun k _ => ncard_pairs N fun w => g w = k

/-- The value drawn is the position of the pair of words, scaled to the range. -/
theorem sample_scaled {low high : ℤ} (hl : IsI64 low) (hh : IsI64 high) {r : ℕ} (hr : high - low + 1 = r) (hr0 : 0 < r)
    (hrw : r < words) {w1 w2 : ℕ} (h1 : w1 < words) (h2 : w2 < words) :
    sampleInclusive low high w1 w2 = low + (r * (w1 * words + w2) / (words * words) : ℕ) := by
  have hw : 0 < words := by unfold words; omega
  have hrange : ((high - low + 1) % 18446744073709551616).toNat = r := by
    unfold words at hrw; omega
  have hb := sample_bounds hl hh (by omega) h1 (w2 := w2)
  unfold sampleInclusive at hb ⊢
  simp only [] at hb ⊢
  rw [hrange, if_neg hr0.ne'] at hb ⊢
  rw [Nat.mod_eq_of_lt (show words - r < words by omega)] at hb ⊢
  have hq : r * (w1 * words + w2) / (words * words) =
      (w1 * r / words) + (if w1 * r % words + w2 * r / words ≥ words then 1 else 0) := by
    rw [← Nat.div_div_eq_div_mul, show r * (w1 * words + w2) = words * (w1 * r) + w2 * r by ring,
      Nat.mul_add_div hw]
    have hd := Nat.div_add_mod (w1 * r) words
    have hm := Nat.mod_lt (w1 * r) hw
    have hc : w2 * r / words < words := by
      rw [Nat.div_lt_iff_lt_mul hw]
      exact Nat.mul_lt_mul'' h2 hrw
    generalize w2 * r / words = c at *
    generalize w1 * r % words = lo at *
    generalize w1 * r / words = q at *
    rw [← hd, add_assoc, Nat.mul_add_div hw]
    congr 1
    split_ifs with h
    · rw [Nat.div_eq_iff hw]; omega
    · exact Nat.div_eq_of_lt (by omega)
  have hc : w2 * r / words < r := by
    rw [Nat.div_lt_iff_lt_mul hw, mul_comm r]
    exact Nat.mul_lt_mul_of_pos_right h2 hr0
  have hlt : r * (w1 * words + w2) / (words * words) < r := by
    rw [Nat.div_lt_iff_lt_mul (Nat.mul_pos hw hw)]
    refine Nat.mul_lt_mul_of_pos_left ?_ hr0
    have e1 : (w1 + 1) * words ≤ words * words := Nat.mul_le_mul_right _ (by omega)
    have e2 : (w1 + 1) * words = w1 * words + words := by ring
    omega
  rw [hq] at hlt ⊢
  have hq1 : w1 * r / words < r := by
    rw [Nat.div_lt_iff_lt_mul hw, mul_comm r]
    exact Nat.mul_lt_mul_of_pos_right h1 hr0
  have key : ∀ e : ℕ, e < r → wrap64 (low + (e : ℤ)) = low + e := fun e he =>
    wrap64_id (by unfold IsI64 at *; omega)
  generalize w1 * r % words = lo at *
  generalize w2 * r / words = c at *
  generalize w1 * r / words = q at *
  split_ifs at hlt ⊢ with h3 h4 h4
  · exact key _ hlt
  · exact key _ hlt
  · omega
  · exact key _ hq1

/-- **C59**.  For how many pairs of words a value is drawn: the number of pairs divided by the size of the range, rounded
up or down. -/
theorem C59_count (min max k : ℤ) (hmin : IsI64 min) (hmax : IsI64 max) (hk : min ≤ k ∧ k ≤ max) :
    (draws min max k : ℤ) * (max - min + 1) < words ^ 2 + (max - min + 1) ∧
      (words : ℤ) ^ 2 < draws min max k * (max - min + 1) + (max - min + 1) := by
  have hw : 0 < words := by unfold words; omega
  obtain ⟨r, hr⟩ : ∃ r : ℕ, max - min + 1 = r := ⟨(max - min + 1).toNat, by omega⟩
  have hr0 : 0 < r := by omega
  obtain ⟨j, hj⟩ : ∃ j : ℕ, k - min = j := ⟨(k - min).toNat, by omega⟩
  have hdraw : ∀ w : ℕ × ℕ, drawRandomInt min max w.1 w.2 = .ok k ↔ sampleInclusive min max w.1 w.2 = k := by
    intro w
    unfold drawRandomInt
    rw [if_neg (by omega)]
    simp
  unfold draws
  simp only [hdraw]
  by_cases hrw : r < words
  · have hset : {w : ℕ × ℕ | (w.1 < words ∧ w.2 < words) ∧ sampleInclusive min max w.1 w.2 = k} =
        {w : ℕ × ℕ | (w.1 < words ∧ w.2 < words) ∧ r * (w.1 * words + w.2) / (words * words) = j} := by
      ext ⟨w1, w2⟩
      refine and_congr_right fun h => ?_
      rw [sample_scaled hmin hmax hr hr0 hrw h.1 h.2]
      generalize r * (w1 * words + w2) / (words * words) = e
      omega
    obtain ⟨n, h1, h2, h3⟩ := count_scaled hw hr0 j (by omega)
    rw [hset, h1, hr, pow_two]
    exact ⟨by exact_mod_cast h2, by exact_mod_cast h3⟩
  · have hrw' : r = words := by unfold IsI64 at *; unfold words at *; omega
    have hfull : ((max - min + 1) % 18446744073709551616).toNat = 0 := by
      rw [hr, hrw']; unfold words; omega
    have hset : {w : ℕ × ℕ | (w.1 < words ∧ w.2 < words) ∧ sampleInclusive min max w.1 w.2 = k} =
        {w : ℕ × ℕ | (w.1 < words ∧ w.2 < words) ∧ w.1 = (k % 18446744073709551616).toNat} := by
      ext ⟨w1, w2⟩
      refine and_congr_right fun h => ?_
      have h1 := h.1
      simp only at h1
      unfold sampleInclusive
      simp only [hfull, if_true]
      unfold wrap64 IsI64 at *
      unfold words at h1
      omega
    rw [hset, count_first words _ (by unfold words; omega), hr, hrw', pow_two]
    have : (0 : ℤ) < words := by exact_mod_cast hw
    constructor <;> linarith

/-- **C59**, as probabilities: with two uniform words every value between the bounds is drawn with a probability that
differs from that of the uniform distribution by less than `2 ^ (-128)`. -/
theorem C59_nearly_uniform (min max k : ℤ) (hmin : IsI64 min) (hmax : IsI64 max) (hk : min ≤ k ∧ k ≤ max) :
    |(draws min max k : ℝ) / (words : ℝ) ^ 2 - 1 / (max - min + 1)| < 1 / 2 ^ 128 := by
  obtain ⟨h1, h2⟩ := C59_count min max k hmin hmax hk
  have hr : (0 : ℝ) < max - min + 1 := by
    have : (0 : ℤ) < max - min + 1 := by omega
    exact_mod_cast this
  have hw : (words : ℝ) ^ 2 = 2 ^ 128 := by unfold words; norm_num
  have h1' : (draws min max k : ℝ) * (max - min + 1) < (words : ℝ) ^ 2 + (max - min + 1) := by exact_mod_cast h1
  have h2' : (words : ℝ) ^ 2 < (draws min max k : ℝ) * (max - min + 1) + (max - min + 1) := by exact_mod_cast h2
  rw [hw] at h1' h2' ⊢
  generalize (draws min max k : ℝ) = n at *
  generalize (max : ℝ) - min + 1 = r at *
  have hM : (0 : ℝ) < 2 ^ 128 := by positivity
  generalize (2 : ℝ) ^ 128 = M at *
  rw [show n / M - 1 / r = (n * r - M) / (M * r) by field_simp, abs_div, abs_of_pos (mul_pos hM hr),
    div_lt_div_iff₀ (mul_pos hM hr) hM, one_mul, mul_comm]
  exact mul_lt_mul_of_pos_left (abs_lt.2 ⟨by linarith, by linarith⟩) hM

/-- Every pair of words draws one value between the bounds. -/
theorem draws_total (min max : ℤ) (hmin : IsI64 min) (hmax : IsI64 max) (hle : min ≤ max) :
    ∑ k ∈ Finset.Icc min max, draws min max k = words ^ 2 := by
  rw [pow_two, ← count_total words (fun w => sampleInclusive min max w.1 w.2) min max
    fun w h1 _ => sample_bounds hmin hmax hle h1]
  refine Finset.sum_congr rfl fun k _ => ?_
  unfold draws drawRandomInt
  simp only [gt_iff_lt, show ¬ max < min by omega, if_false, Except.ok.injEq]

/-- **C59**: all values are equally likely if and only if the size of the range is a power of two. -/
theorem C59_uniform_iff (min max : ℤ) (hmin : IsI64 min) (hmax : IsI64 max) (hle : min ≤ max) :
    (∀ k l, min ≤ k → k ≤ max → min ≤ l → l ≤ max → draws min max k = draws min max l) ↔
      ∃ n : ℕ, max - min + 1 = 2 ^ n := by
  have hM : words ^ 2 = 2 ^ 128 := by unfold words; norm_num
  obtain ⟨r, hr⟩ : ∃ r : ℕ, max - min + 1 = r := ⟨(max - min + 1).toNat, by omega⟩
  constructor
  · intro h
    have hs := draws_total min max hmin hmax hle
    rw [Finset.sum_congr rfl (g := fun _ => draws min max min) (fun k hk => by
      rw [Finset.mem_Icc] at hk
      exact h k min hk.1 hk.2 le_rfl hle), Finset.sum_const, Int.card_Icc, smul_eq_mul, hM,
      show (max + 1 - min).toNat = r by omega] at hs
    obtain ⟨n, _, hn⟩ := (Nat.dvd_prime_pow Nat.prime_two).1 (Dvd.intro _ hs)
    exact ⟨n, by rw [hr, hn]; norm_cast⟩
  · rintro ⟨n, hn⟩
    have hrn : r = 2 ^ n := by
      have : (r : ℤ) = ((2 ^ n : ℕ) : ℤ) := by rw [← hr, hn]; norm_cast
      exact_mod_cast this
    have hn' : n ≤ 64 := by
      by_contra hlt
      have : 2 ^ 65 ≤ 2 ^ n := Nat.pow_le_pow_right (by norm_num) (by omega)
      rw [← hrn] at this
      unfold IsI64 at *
      omega
    have key : ∀ k, min ≤ k → k ≤ max → draws min max k * r = words ^ 2 := by
      intro k h1 h2
      obtain ⟨h3, h4⟩ := C59_count min max k hmin hmax ⟨h1, h2⟩
      rw [hr] at h3 h4
      have h3' : draws min max k * r < words ^ 2 + r := by exact_mod_cast h3
      have h4' : words ^ 2 < draws min max k * r + r := by exact_mod_cast h4
      obtain ⟨c, hc⟩ : r ∣ words ^ 2 := by rw [hM, hrn]; exact pow_dvd_pow 2 (by omega)
      rw [hc] at h3' h4' ⊢
      generalize draws min max k = d at *
      have hr0 : 0 < r := by omega
      have e1 : d < c + 1 := by
        by_contra h
        have : r * (c + 1) ≤ r * d := Nat.mul_le_mul_left _ (by omega)
        have e : r * (c + 1) = r * c + r := by ring
        rw [mul_comm d] at h3'
        omega
      have e2 : c < d + 1 := by
        by_contra h
        have : r * (d + 1) ≤ r * c := Nat.mul_le_mul_left _ (by omega)
        have e : r * (d + 1) = d * r + r := by ring
        omega
      rw [show d = c by omega, mul_comm]
    intro k l hk1 hk2 hl1 hl2
    have hr0 : 0 < r := by omega
    exact Nat.eq_of_mul_eq_mul_right hr0 ((key k hk1 hk2).trans (key l hl1 hl2).symm)

/-- A coin is fair, a die is not quite. -/
example : (∀ k l, 0 ≤ k → k ≤ 1 → 0 ≤ l → l ≤ 1 → draws 0 1 k = draws 0 1 l) ∧
    ¬ ∀ k l, 1 ≤ k → k ≤ 6 → 1 ≤ l → l ≤ 6 → draws 1 6 k = draws 1 6 l := by
  rw [C59_uniform_iff 0 1 (by unfold IsI64; omega) (by unfold IsI64; omega) (by omega),
    C59_uniform_iff 1 6 (by unfold IsI64; omega) (by unfold IsI64; omega) (by omega)]
  refine ⟨⟨1, by norm_num⟩, ?_⟩
  rintro ⟨n, hn⟩
  have h3 : (3 : ℕ) ∣ 2 ^ n := ⟨2, by
    have : (2 : ℤ) ^ n = 6 := by rw [← hn]; norm_num
    exact_mod_cast this⟩
  have := Nat.Prime.dvd_of_dvd_pow Nat.prime_three h3
  omega

end Qir.Std
