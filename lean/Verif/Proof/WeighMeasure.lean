import Verif.Proof.Weigh

/-!
# What a measurement with rounded arithmetic does to probabilities
-/

noncomputable section
namespace Qir.Rnd
open Spec Sim Tol

variable {A : Arith} {N : ℕ}

/-- The computed factor makes up for the square root of the computed probability, unless this is very small. -/
theorem gain (hf : Fine A) {c : ℝ} (hc : 720 * A.v ≤ c) (hc0 : 0 < c) (hc1 : c ≤ 5 / 2) :
    |A.fl (1 / A.fl (√c)) * √c - 1| * c ≤ 6 * A.v := by
  have hv0 := A.v_nonneg
  have hu0 := A.u_nonneg
  have he0 := A.eta_nonneg
  have hue : A.u + A.eta = A.v := rfl
  have hs := hf.small
  obtain ⟨x, hx⟩ : ∃ x, x = √c := ⟨_, rfl⟩
  rw [← hx]
  have hx0 : 0 < x := by rw [hx]; exact Real.sqrt_pos.2 hc0
  have hx2 : x * x = c := by rw [hx]; exact Real.mul_self_sqrt hc0.le
  have hx1 : x ≤ 8 / 5 := by nlinarith
  have h1 := A.fl_err x
  rw [abs_of_pos hx0] at h1
  generalize A.fl x = y at h1
  have he : A.eta ≤ x / 450 := by nlinarith
  have hu : A.u ≤ 1 / 4000 := by linarith
  have hy : |y - x| ≤ x / 400 := by nlinarith
  have hy1 := (abs_le.1 hy).1
  have hy0 : 0 < y := by linarith
  have h2 := A.fl_err (1 / y)
  rw [abs_of_pos (by positivity : 0 < 1 / y)] at h2
  generalize A.fl (1 / y) = f at h2
  obtain ⟨z, hz⟩ : ∃ z, z = x / y := ⟨_, rfl⟩
  have hz0 : 0 < z := by rw [hz]; positivity
  have hz1 : z ≤ 1003 / 1000 := by rw [hz, div_le_iff₀ hy0]; linarith
  have hzy : z * y = x := by rw [hz]; field_simp
  have e : f * x - 1 = (f - 1 / y) * x + (x - y) * (1 / y) := by field_simp; ring
  have h3 : |f * x - 1| ≤ (A.u * (1 / y) + A.eta) * x + (A.u * x + A.eta) * (1 / y) := by
    rw [e]
    refine (abs_add_le _ _).trans ?_
    rw [abs_mul, abs_mul, abs_of_pos hx0, abs_of_pos (by positivity : 0 < 1 / y), abs_sub_comm x y]
    exact add_le_add (mul_le_mul_of_nonneg_right h2 hx0.le) (mul_le_mul_of_nonneg_right h1 (by positivity))
  have h4 : ((A.u * (1 / y) + A.eta) * x + (A.u * x + A.eta) * (1 / y)) * c =
      A.u * z * c + A.eta * x * c + (A.u * z * c + A.eta * z * x) := by
    rw [← hx2, ← hzy]; field_simp
  have h5 : A.u * z * c ≤ A.u * (1003 / 1000) * (5 / 2) := by gcongr
  have h6 : A.eta * x * c ≤ A.eta * (8 / 5) * (5 / 2) := by gcongr
  have h7 : A.eta * z * x ≤ A.eta * (1003 / 1000) * (8 / 5) := by gcongr
  have h8 := mul_le_mul_of_nonneg_right h3 hc0.le
  rw [h4] at h8
  linarith

theorem gain_sq {g c v : ℝ} (hc : 720 * v ≤ c) (hc0 : 0 < c) (h : |g - 1| * c ≤ 6 * v) :
    |g ^ 2 - 1| ≤ 1 / 10 ∧ |g ^ 2 - 1| * c ≤ 13 * v := by
  have h1 : |g - 1| ≤ 1 / 120 := by
    by_contra hh
    have := mul_lt_mul_of_pos_right (not_le.1 hh) hc0
    linarith
  have e : |g ^ 2 - 1| = |g - 1| * |g + 1| := by rw [← abs_mul]; congr 1; ring
  have h2 : |g + 1| ≤ 13 / 6 := by
    have := abs_le.1 h1
    rw [abs_le]; constructor <;> linarith [this.1, this.2]
  have h0 := abs_nonneg (g - 1)
  have h3 : |g - 1| * |g + 1| ≤ |g - 1| * (13 / 6) := mul_le_mul_of_nonneg_left h2 h0
  rw [e]
  constructor
  · linarith
  · have := mul_le_mul_of_nonneg_right h3 hc0.le
    linarith

/-- One outcome of a measurement that is not very improbable.  `a` is its exact weight, `c` its computed probability, `q`
the probability with which it comes up, `s` the square of the gain. -/
theorem branch {F : Wave → ℝ} (hF : Weight F) {ψ φ : Wave} (h : FinSupp ψ) {f a c q s v k E L : ℝ}
    (ha : a = Spec.normSq ψ) (hc : 0 < c) (hac : a ≤ 3 / 2 * c) (hq : 0 ≤ q) (hk : k ≤ 1 / 10)
    (hs : s = f ^ 2 * c) (hs1 : |s - 1| ≤ 1 / 10) (hs2 : |s - 1| * c ≤ 13 * v)
    (hn : len ((f : ℂ) • ψ) + k ≤ 3 / 2 → Near k φ ((f : ℂ) • ψ))
    (hL : |L - F φ| ≤ 5 * off φ + E) :
    |q * L - F ψ| ≤ q * E + 18 * k * q + 5 * |a - c| + 120 * v + 5 * max (q - c) 0 + 2 * |q - c| := by
  have ha0 : 0 ≤ a := ha ▸ normSq_nonneg ψ
  have hs' := abs_le.1 hs1
  have hnf : Spec.normSq ((f : ℂ) • ψ) = f ^ 2 * a := by
    rw [Tol.normSq_smul, Complex.normSq_ofReal, ha]; ring
  have hfa : f ^ 2 * a = s * (a / c) := by rw [hs]; field_simp
  have hd0 : 0 ≤ a / c := div_nonneg ha0 hc.le
  have hd1 : a / c ≤ 3 / 2 := by rw [div_le_iff₀ hc]; exact hac
  have hlen : len ((f : ℂ) • ψ) ≤ 13 / 10 := by
    apply len_le_of (by norm_num)
    rw [hnf, hfa]
    nlinarith
  obtain ⟨c1, c2⟩ := hF.close (hn (by linarith)) (by linarith)
  have hFf : F ((f : ℂ) • ψ) = f ^ 2 * F ψ := by rw [hF.smul, Complex.normSq_ofReal]; ring
  rw [hFf] at c1
  have hF0 := hF.nonneg h
  have hF1 := hF.le h
  rw [← ha] at hF1
  -- the length after the measurement
  have o1 : off ((f : ℂ) • ψ) = |s * (a / c) - 1| := by unfold off; rw [hnf, hfa]
  have o2 : |s * (a / c) - 1| ≤ 1 := by rw [abs_le]; constructor <;> nlinarith
  have o3 : c * |s * (a / c) - 1| ≤ |a - c| + 39 / 2 * v := by
    rw [← abs_of_pos hc, ← abs_mul, abs_of_pos hc]
    have e : c * (s * (a / c) - 1) = (a - c) + (s - 1) * c * (a / c) := by field_simp; ring
    rw [e]
    refine (abs_add_le _ _).trans ?_
    rw [abs_mul, abs_mul, abs_of_pos hc, abs_of_nonneg hd0]
    have h0 : 0 ≤ |s - 1| * c := mul_nonneg (abs_nonneg _) hc.le
    have : |s - 1| * c * (a / c) ≤ 13 * v * (3 / 2) := mul_le_mul hs2 hd1 hd0 (h0.trans hs2)
    linarith
  have o4 : q * |s * (a / c) - 1| ≤ |a - c| + 39 / 2 * v + max (q - c) 0 := by
    have e : q * |s * (a / c) - 1| = c * |s * (a / c) - 1| + (q - c) * |s * (a / c) - 1| := by ring
    have h1 : (q - c) * |s * (a / c) - 1| ≤ max (q - c) 0 * 1 :=
      mul_le_mul (le_max_left _ _) o2 (abs_nonneg _) (le_max_right _ _)
    linarith
  -- the weight
  have w1 : |q * (f ^ 2 * F ψ) - F ψ| ≤ 2 * |q - c| + 39 / 2 * v := by
    have e : q * (f ^ 2 * F ψ) - F ψ = ((q - c) * s + (s - 1) * c) * (F ψ / c) := by
      rw [hs]; field_simp; ring
    rw [e, abs_mul, abs_of_nonneg (div_nonneg hF0 hc.le)]
    have h1 : F ψ / c ≤ 3 / 2 := le_trans (div_le_div_of_nonneg_right hF1 hc.le) hd1
    have h2 : |(q - c) * s + (s - 1) * c| ≤ |q - c| * (11 / 10) + 13 * v := by
      refine (abs_add_le _ _).trans ?_
      rw [abs_mul, abs_mul, abs_of_pos hc, abs_of_nonneg (by linarith [hs'.1] : 0 ≤ s)]
      exact add_le_add (mul_le_mul_of_nonneg_left (by linarith [hs'.2]) (abs_nonneg _)) hs2
    have h3 : |(q - c) * s + (s - 1) * c| * (F ψ / c) ≤ (|q - c| * (11 / 10) + 13 * v) * (3 / 2) :=
      mul_le_mul h2 h1 (div_nonneg hF0 hc.le) ((abs_nonneg _).trans h2)
    have := abs_nonneg (q - c)
    linarith
  have hv : 0 ≤ v := by
    have := mul_nonneg (abs_nonneg (s - 1)) hc.le
    linarith
  -- together
  have e : q * L - F ψ = q * (L - F φ) + (q * (F φ - f ^ 2 * F ψ) + (q * (f ^ 2 * F ψ) - F ψ)) := by ring
  rw [e]
  refine (abs_add_le _ _).trans ?_
  have t1 : |q * (L - F φ)| ≤ q * (5 * (|s * (a / c) - 1| + 3 * k) + E) := by
    rw [abs_mul, abs_of_nonneg hq]
    refine mul_le_mul_of_nonneg_left ?_ hq
    rw [o1] at c2
    linarith
  have t2 : |q * (F φ - f ^ 2 * F ψ)| ≤ q * (3 * k) := by
    rw [abs_mul, abs_of_nonneg hq]
    exact mul_le_mul_of_nonneg_left c1 hq
  have t3 := abs_add_le (q * (F φ - f ^ 2 * F ψ)) (q * (f ^ 2 * F ψ) - F ψ)
  linarith

/-- The probability with which the outcome one comes up when a uniform sample is compared with `p`. -/
def clamp (p : ℝ) : ℝ := max 0 (min 1 p)

theorem clamp_nonneg (p : ℝ) : 0 ≤ clamp p := le_max_left _ _

theorem clamp_le (p : ℝ) : clamp p ≤ 1 := max_le zero_le_one (min_le_left _ _)

theorem Weight.crude {F : Wave → ℝ} (hF : Weight F) {ψ : Wave} (h : FinSupp ψ) {q L b : ℝ} (hq : 0 ≤ q) (h0 : 0 ≤ L)
    (h1 : L ≤ 1) (hb : q ≤ b) (hb' : Spec.normSq ψ ≤ b) : |q * L - F ψ| ≤ b := by
  have h2 := hF.nonneg h
  have h3 := hF.le h
  have h4 : 0 ≤ q * L := mul_nonneg hq h0
  have h5 : q * L ≤ q := mul_le_of_le_one_right hq h1
  rw [abs_le]
  constructor <;> linarith

/-- `branch` for the factor of the code. -/
theorem branch_factor (hf : Fine A) {F : Wave → ℝ} (hF : Weight F) {ψ φ : Wave} (h : FinSupp ψ) {a c q k E L : ℝ}
    (ha : a = Spec.normSq ψ) (hc : 0 < c) (hcv : 720 * A.v ≤ c) (hc1 : c ≤ 5 / 2) (hac : a ≤ 3 / 2 * c) (hq : 0 ≤ q)
    (hk : k ≤ 1 / 10)
    (hn : len (((A.fl (1 / A.fl (√c)) : ℝ) : ℂ) • ψ) + k ≤ 3 / 2 → Near k φ (((A.fl (1 / A.fl (√c)) : ℝ) : ℂ) • ψ))
    (hL : |L - F φ| ≤ 5 * off φ + E) :
    |q * L - F ψ| ≤ q * E + 18 * k * q + 5 * |a - c| + 120 * A.v + 5 * max (q - c) 0 + 2 * |q - c| := by
  obtain ⟨h1, h2⟩ := gain_sq hcv hc (gain hf hcv hc hc1)
  refine branch hF h ha hc hac hq hk ?_ h1 h2 hn hL
  rw [mul_pow, Real.sq_sqrt hc.le]

/-- A probability within a bound of what the weights say stays so through a measurement. -/
theorem Weight.measured (hf : Fine A) {F : Bool → Wave → ℝ} (hF : ∀ v, Weight (F v)) {ψ : Wave} (h : FinSupp ψ)
    {qs : List ℕ} {p r : ℝ} (hr : r = 18 * 2 ^ N * A.v)
    (hp : len ψ ≤ 3 / 2 → r ≤ 1 → |p - prob qs true ψ| ≤ r) {φ : Bool → Wave}
    (hφ : ∀ v, Reach A N 1 (φ v) ((factor A v p : ℂ) • proj qs v ψ)) {L : Bool → ℝ} (hL0 : ∀ v, 0 ≤ L v)
    (hL1 : ∀ v, L v ≤ 1) {E : ℝ} (hE : 0 ≤ E) (hL : ∀ v, |L v - F v (φ v)| ≤ 5 * off (φ v) + E) :
    |clamp p * L true + (1 - clamp p) * L false - (F true (proj qs true ψ) + F false (proj qs false ψ))| ≤
      5 * off ψ + 24 * cost A N + 100 * r + E := by
  have hv0 := A.v_nonneg
  have hc0 := cost_nonneg hf N
  have hvr : 18 * A.v ≤ r := by
    rw [hr]
    have h1 : (1 : ℝ) ≤ 2 ^ N := one_le_pow₀ (by norm_num)
    nlinarith
  have ho := off_nonneg ψ
  have q0 := clamp_nonneg p
  have q1 := clamp_le p
  -- the trivial bound
  have triv : |clamp p * L true + (1 - clamp p) * L false - (F true (proj qs true ψ) + F false (proj qs false ψ))| ≤
      1 + off ψ := by
    refine ((hF true).split (hF false) qs).far h ?_ ?_
    · have := mul_nonneg q0 (hL0 true)
      have := mul_nonneg (by linarith : 0 ≤ 1 - clamp p) (hL0 false)
      linarith
    · have h1 := mul_le_of_le_one_right q0 (hL1 true)
      have h2 := mul_le_of_le_one_right (by linarith : 0 ≤ 1 - clamp p) (hL1 false)
      linarith
  by_cases c1 : 1 / 4 < off ψ
  · linarith
  by_cases c2 : 1 / 80 < r
  · linarith
  by_cases c3 : 1 / 10 < cost A N
  · linarith
  rw [not_lt] at c1 c2 c3
  have hn := abs_le.1 (show |Spec.normSq ψ - 1| ≤ off ψ from le_rfl)
  have hsum := prob_add h qs
  have a1 := prob_nonneg qs true ψ
  have a0 := prob_nonneg qs false ψ
  have hlen : len ψ ≤ 3 / 2 := len_le_of (by norm_num) (by linarith [hn.2])
  have hp := abs_le.1 (hp hlen (by linarith))
  have hfl : |A.fl (1 - p) - (1 - p)| ≤ A.v * (1 + |1 - p|) := by
    refine (A.fl_err _).trans ?_
    have := mul_le_mul_of_nonneg_right A.u_le_v (abs_nonneg (1 - p))
    linarith [A.eta_le_v]
  have b1 : ∀ {q c : ℝ}, chance A true p = c → 0 < c → 720 * A.v ≤ c → c ≤ 5 / 2 → prob qs true ψ ≤ 3 / 2 * c →
      0 ≤ q → |q * L true - F true (proj qs true ψ)| ≤
        q * E + 18 * cost A N * q + 5 * |prob qs true ψ - c| + 120 * A.v + 5 * max (q - c) 0 + 2 * |q - c| := by
    intro q c hc hc' h1 h2 h3 h4
    refine branch_factor hf (hF true) (h.proj qs true) (by rw [normSq_proj]) hc' h1 h2 h3 h4 c3 (fun hh => ?_) (hL true)
    rw [← hc] at hh ⊢
    have := (hφ true).near (by rw [Nat.cast_one, one_mul]; exact hh)
    rwa [Nat.cast_one, one_mul] at this
  have b0 : ∀ {q c : ℝ}, chance A false p = c → 0 < c → 720 * A.v ≤ c → c ≤ 5 / 2 → prob qs false ψ ≤ 3 / 2 * c →
      0 ≤ q → |q * L false - F false (proj qs false ψ)| ≤
        q * E + 18 * cost A N * q + 5 * |prob qs false ψ - c| + 120 * A.v + 5 * max (q - c) 0 + 2 * |q - c| := by
    intro q c hc hc' h1 h2 h3 h4
    refine branch_factor hf (hF false) (h.proj qs false) (by rw [normSq_proj]) hc' h1 h2 h3 h4 c3 (fun hh => ?_) (hL false)
    rw [← hc] at hh ⊢
    have := (hφ false).near (by rw [Nat.cast_one, one_mul]; exact hh)
    rwa [Nat.cast_one, one_mul] at this
  have e : clamp p * L true + (1 - clamp p) * L false - (F true (proj qs true ψ) + F false (proj qs false ψ)) =
      (clamp p * L true - F true (proj qs true ψ)) + ((1 - clamp p) * L false - F false (proj qs false ψ)) := by ring
  rw [e]
  refine (abs_add_le _ _).trans ?_
  have pos1 : (0 : ℝ) ≤ 18 * cost A N * clamp p := by positivity
  have pos0 : (0 : ℝ) ≤ 18 * cost A N * (1 - clamp p) := mul_nonneg (by positivity) (by linarith)
  have pE1 : 0 ≤ clamp p * E := mul_nonneg q0 hE
  have pE0 : 0 ≤ (1 - clamp p) * E := mul_nonneg (by linarith) hE
  suffices hh : ∃ d : ℝ, d ≤ 5 * off ψ + 100 * r ∧
      |clamp p * L true - F true (proj qs true ψ)| + |(1 - clamp p) * L false - F false (proj qs false ψ)| ≤
        clamp p * E + 18 * cost A N * clamp p + ((1 - clamp p) * E + 18 * cost A N * (1 - clamp p)) + d by
    obtain ⟨d, hd, hh⟩ := hh
    nlinarith
  rcases lt_or_ge p 0 with hneg | hneg
  · -- below zero: the outcome zero is certain
    have hq : clamp p = 0 := by rw [clamp, min_eq_right (by linarith), max_eq_left hneg.le]
    rw [hq]
    have t1 : |0 * L true - F true (proj qs true ψ)| ≤ r :=
      (hF true).crude (h.proj qs true) le_rfl (hL0 true) (hL1 true) (by linarith) (by rw [normSq_proj]; linarith)
    have hc : |A.fl (1 - p) - (1 - p)| ≤ r / 6 := by
      refine hfl.trans ?_
      rw [abs_of_nonneg (by linarith : 0 ≤ 1 - p)]
      nlinarith
    have hc := abs_le.1 hc
    have t0 := b0 (q := 1) (c := A.fl (1 - p)) rfl (by linarith) (by linarith) (by linarith) (by linarith)
      zero_le_one
    have m0 : |prob qs false ψ - A.fl (1 - p)| ≤ off ψ + 3 * r := by rw [abs_le]; constructor <;> linarith
    have m1 : max (1 - A.fl (1 - p)) 0 ≤ 2 * r := max_le (by linarith) (by linarith)
    have m2 : |1 - A.fl (1 - p)| ≤ 2 * r := by rw [abs_le]; constructor <;> linarith
    refine ⟨5 * off ψ + 60 * r, by linarith, ?_⟩
    have : (1 : ℝ) - 0 = 1 := by ring
    rw [this]
    linarith
  rcases lt_or_ge 1 p with hbig | hbig
  · -- above one: the outcome one is certain
    have hq : clamp p = 1 := by rw [clamp, min_eq_left hbig.le, max_eq_right zero_le_one]
    rw [hq]
    have t0 : |(1 - 1) * L false - F false (proj qs false ψ)| ≤ off ψ + r :=
      (hF false).crude (h.proj qs false) (by norm_num) (hL0 false) (hL1 false) (by linarith)
        (by rw [normSq_proj]; linarith)
    have t1 := b1 (q := 1) (c := p) rfl (by linarith) (by linarith) (by linarith) (by linarith) zero_le_one
    have m0 : |prob qs true ψ - p| ≤ r := by rw [abs_le]; constructor <;> linarith
    have m1 : max (1 - p) 0 ≤ 0 := max_le (by linarith) le_rfl
    have m2 : |1 - p| ≤ off ψ + r := by rw [abs_le]; constructor <;> linarith
    refine ⟨5 * off ψ + 60 * r, by linarith, ?_⟩
    linarith
  have hq : clamp p = p := by rw [clamp, min_eq_right hbig, max_eq_right hneg]
  rw [hq] at pos1 pos0 pE1 pE0 ⊢
  -- the outcome one
  have t1 : |p * L true - F true (proj qs true ψ)| ≤ p * E + 18 * cost A N * p + 41 * r := by
    by_cases hs : p ≤ 40 * r
    · have := (hF true).crude (h.proj qs true) hneg (hL0 true) (hL1 true) (b := 41 * r) (by linarith)
        (by rw [normSq_proj]; linarith)
      linarith
    · have := b1 (q := p) (c := p) rfl (by linarith) (by linarith) (by linarith) (by linarith) hneg
      have m0 : |prob qs true ψ - p| ≤ r := by rw [abs_le]; constructor <;> linarith
      rw [sub_self, abs_zero, max_self] at this
      linarith
  -- the outcome zero
  have t0 : |(1 - p) * L false - F false (proj qs false ψ)| ≤
      (1 - p) * E + 18 * cost A N * (1 - p) + (5 * off ψ + 50 * r) := by
    have hc : |A.fl (1 - p) - (1 - p)| ≤ r / 6 := by
      refine hfl.trans ?_
      rw [abs_of_nonneg (by linarith : 0 ≤ 1 - p)]
      nlinarith
    have hc' := abs_le.1 hc
    by_cases hs : A.fl (1 - p) ≤ 40 * r + 2 * off ψ
    · have := (hF false).crude (h.proj qs false) (q := 1 - p) (by linarith) (hL0 false) (hL1 false)
        (b := 3 * off ψ + 45 * r) (by linarith) (by rw [normSq_proj]; linarith)
      linarith
    · have := b0 (q := 1 - p) (c := A.fl (1 - p)) rfl (by linarith) (by linarith) (by linarith) (by linarith)
        (by linarith)
      have m0 : |prob qs false ψ - A.fl (1 - p)| ≤ off ψ + 2 * r := by rw [abs_le]; constructor <;> linarith
      have m1 : max (1 - p - A.fl (1 - p)) 0 ≤ r := max_le (by linarith) (by linarith)
      have m2 : |1 - p - A.fl (1 - p)| ≤ r := by rw [abs_le]; constructor <;> linarith
      linarith
  exact ⟨5 * off ψ + 91 * r, by linarith, by linarith⟩

end Qir.Rnd
