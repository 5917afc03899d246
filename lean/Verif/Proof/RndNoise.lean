import Verif.Model.Rounded
import Verif.Proof.TolGates

/-! What rounding does to single results and to lists of amplitudes. -/

noncomputable section
namespace Qir

namespace Arith

/-- The combined relative and absolute rounding error. -/
def v (A : Arith) : ℝ := A.u + A.eta

theorem v_nonneg (A : Arith) : 0 ≤ A.v := add_nonneg A.u_nonneg A.eta_nonneg

theorem u_le_v (A : Arith) : A.u ≤ A.v := by have := A.eta_nonneg; unfold v; linarith

theorem eta_le_v (A : Arith) : A.eta ≤ A.v := by have := A.u_nonneg; unfold v; linarith

end Arith

namespace Rnd
open Spec Function Sim

/-- The arithmetic is a thousand times as accurate as the tolerance, as that of the code is. -/
structure Fine (A : Arith) : Prop where
  pos : 0 < A.eps
  le : A.eps ≤ 1 / 4
  fine : 1000 * A.v ≤ A.eps

variable {A : Arith}

theorem Fine.small (h : Fine A) : A.v ≤ 1 / 4000 := by
  have := h.fine; have := h.le; linarith

theorem Fine.nonneg (h : Fine A) : 0 ≤ A.eps := h.pos.le

theorem norm_le_add_abs (z : ℂ) : ‖z‖ ≤ |z.re| + |z.im| := Complex.norm_le_abs_re_add_abs_im z

/-- Errors of the components. -/
theorem norm_le_comb {z : ℂ} {a b c : ℝ} (ha : 0 ≤ a) (hb : 0 ≤ b) (hc : 0 ≤ c)
    {p q : ℝ} (h1 : |z.re| ≤ c * |p| + a) (h2 : |z.im| ≤ c * |q| + b) :
    ‖z‖ ≤ c * ‖(⟨p, q⟩ : ℂ)‖ + (a + b) := by
  have e : z = (⟨|z.re| - (|z.re| - z.re), z.im⟩ : ℂ) := by apply Complex.ext <;> simp
  have hz : ‖z‖ ≤ ‖(⟨c * |p|, c * |q|⟩ : ℂ)‖ + ‖(⟨a, b⟩ : ℂ)‖ := by
    refine le_trans ?_ (norm_add_le _ _)
    rw [← sq_le_sq₀ (norm_nonneg _) (norm_nonneg _), ← Complex.normSq_eq_norm_sq, ← Complex.normSq_eq_norm_sq,
      Complex.normSq_apply, Complex.normSq_apply]
    simp only [Complex.add_re, Complex.add_im]
    have e1 := mul_self_le_mul_self (abs_nonneg z.re) h1
    have e2 := mul_self_le_mul_self (abs_nonneg z.im) h2
    rw [abs_mul_abs_self] at e1 e2
    linarith
  have h3 : ‖(⟨c * |p|, c * |q|⟩ : ℂ)‖ = c * ‖(⟨p, q⟩ : ℂ)‖ := by
    rw [← sq_eq_sq₀ (norm_nonneg _) (by positivity), mul_pow, ← Complex.normSq_eq_norm_sq,
      ← Complex.normSq_eq_norm_sq, Complex.normSq_apply, Complex.normSq_apply]
    simp only
    have e1 := abs_mul_abs_self p
    have e2 := abs_mul_abs_self q
    linear_combination c ^ 2 * e1 + c ^ 2 * e2
  have h4 := norm_le_add_abs (⟨a, b⟩ : ℂ)
  simp only [abs_of_nonneg ha, abs_of_nonneg hb] at h4
  linarith

theorem add_err (z w : ℂ) : ‖A.add z w - (z + w)‖ ≤ A.u * ‖z + w‖ + 2 * A.eta := by
  have h := norm_le_comb (z := A.add z w - (z + w)) A.eta_nonneg A.eta_nonneg A.u_nonneg
    (p := (z + w).re) (q := (z + w).im) ?_ ?_
  · have e : (⟨(z + w).re, (z + w).im⟩ : ℂ) = z + w := rfl
    rw [e] at h; linarith
  · simpa [Arith.add] using A.fl_err (z.re + w.re)
  · simpa [Arith.add] using A.fl_err (z.im + w.im)

theorem sub_err (z w : ℂ) : ‖A.sub z w - (z - w)‖ ≤ A.u * ‖z - w‖ + 2 * A.eta := by
  have h := norm_le_comb (z := A.sub z w - (z - w)) A.eta_nonneg A.eta_nonneg A.u_nonneg
    (p := (z - w).re) (q := (z - w).im) ?_ ?_
  · have e : (⟨(z - w).re, (z - w).im⟩ : ℂ) = z - w := rfl
    rw [e] at h; linarith
  · simpa [Arith.sub] using A.fl_err (z.re - w.re)
  · simpa [Arith.sub] using A.fl_err (z.im - w.im)

theorem scale_err (z : ℂ) (r : ℝ) : ‖A.scale z r - z * r‖ ≤ A.u * (‖z‖ * |r|) + 2 * A.eta := by
  have h := norm_le_comb (z := A.scale z r - z * r) A.eta_nonneg A.eta_nonneg A.u_nonneg
    (p := (z * r).re) (q := (z * r).im) ?_ ?_
  · have e : (⟨(z * r).re, (z * r).im⟩ : ℂ) = z * r := rfl
    rw [e, norm_mul, Complex.norm_real, Real.norm_eq_abs] at h; linarith
  · simpa [Arith.scale] using A.fl_err (z.re * r)
  · simpa [Arith.scale] using A.fl_err (z.im * r)

theorem fl2_err (hf : Fine A) (x y : ℝ) :
    |A.fl (A.fl x - A.fl y) - (x - y)| ≤ (5 / 2) * A.u * (|x| + |y|) + 4 * A.eta ∧
    |A.fl (A.fl x + A.fl y) - (x + y)| ≤ (5 / 2) * A.u * (|x| + |y|) + 4 * A.eta := by
  have hu := A.u_nonneg
  have he := A.eta_nonneg
  have hs := hf.small
  have hv := A.u_le_v
  have h1 := A.fl_err x
  have h2 := A.fl_err y
  have hx := abs_nonneg x
  have hy := abs_nonneg y
  have key : ∀ a b : ℝ, |b - a| ≤ A.u * (|x| + |y|) + 2 * A.eta → |a| ≤ |x| + |y| →
      |A.fl b - a| ≤ (5 / 2) * A.u * (|x| + |y|) + 4 * A.eta := by
    intro a b hb ha
    have h3 := A.fl_err b
    have h4 : |b| ≤ |b - a| + |a| := by
      have := abs_add_le (b - a) a
      rwa [sub_add_cancel] at this
    have h5 : |A.fl b - a| ≤ |A.fl b - b| + |b - a| := abs_sub_le _ _ _
    have h6 : A.u * |b| ≤ A.u * (A.u * (|x| + |y|) + 2 * A.eta + (|x| + |y|)) :=
      mul_le_mul_of_nonneg_left (by linarith) hu
    have h7 : A.u * (A.u * (|x| + |y|)) ≤ (1 / 4000) * (A.u * (|x| + |y|)) :=
      mul_le_mul_of_nonneg_right (by linarith) (by positivity)
    have h8 : A.u * A.eta ≤ (1 / 4000) * A.eta := mul_le_mul_of_nonneg_right (by linarith) he
    nlinarith [mul_nonneg hu (add_nonneg hx hy)]
  constructor
  · apply key
    · rw [show A.fl x - A.fl y - (x - y) = (A.fl x - x) - (A.fl y - y) by ring]
      have := abs_sub (A.fl x - x) (A.fl y - y)
      nlinarith
    · exact abs_sub x y
  · apply key
    · rw [show A.fl x + A.fl y - (x + y) = (A.fl x - x) + (A.fl y - y) by ring]
      have := abs_add_le (A.fl x - x) (A.fl y - y)
      nlinarith
    · exact abs_add_le x y

theorem mul_err (hf : Fine A) (z w : ℂ) :
    ‖A.mul z w - z * w‖ ≤ 5 * A.u * (‖z‖ * ‖w‖) + 8 * A.eta := by
  have hu := A.u_nonneg
  have he := A.eta_nonneg
  have h1 := (fl2_err hf (z.re * w.re) (z.im * w.im)).1
  have h2 := (fl2_err hf (z.re * w.im) (z.im * w.re)).2
  have cs : ∀ a b c d : ℝ, |a * b| + |c * d| ≤ ‖(⟨a, c⟩ : ℂ)‖ * ‖(⟨b, d⟩ : ℂ)‖ := by
    intro a b c d
    rw [abs_mul, abs_mul]
    apply le_of_sq_le_sq _ (by positivity)
    rw [mul_pow, ← Complex.normSq_eq_norm_sq, ← Complex.normSq_eq_norm_sq, Complex.normSq_apply,
      Complex.normSq_apply]
    simp only
    rw [← abs_mul_abs_self a, ← abs_mul_abs_self b, ← abs_mul_abs_self c, ← abs_mul_abs_self d]
    nlinarith [sq_nonneg (|a| * |d| - |c| * |b|)]
  have c1 := cs z.re w.re z.im w.im
  have c2 := cs z.re w.im z.im w.re
  have ew : ‖(⟨w.im, w.re⟩ : ℂ)‖ = ‖w‖ := by
    rw [← sq_eq_sq₀ (norm_nonneg _) (norm_nonneg _), ← Complex.normSq_eq_norm_sq,
      ← Complex.normSq_eq_norm_sq, Complex.normSq_apply, Complex.normSq_apply]
    simp only; ring
  rw [ew] at c2
  have c1' : |z.re * w.re| + |z.im * w.im| ≤ ‖z‖ * ‖w‖ := c1
  have c2' : |z.re * w.im| + |z.im * w.re| ≤ ‖z‖ * ‖w‖ := c2
  have h3 := norm_le_add_abs (A.mul z w - z * w)
  have e1 : (A.mul z w - z * w).re = A.fl (A.fl (z.re * w.re) - A.fl (z.im * w.im)) -
      (z.re * w.re - z.im * w.im) := by simp [Arith.mul]
  have e2 : (A.mul z w - z * w).im = A.fl (A.fl (z.re * w.im) + A.fl (z.im * w.re)) -
      (z.re * w.im + z.im * w.re) := by simp [Arith.mul]
  rw [e1, e2] at h3
  have m1 := mul_le_mul_of_nonneg_left c1' (show 0 ≤ (5 / 2) * A.u by positivity)
  have m2 := mul_le_mul_of_nonneg_left c2' (show 0 ≤ (5 / 2) * A.u by positivity)
  linarith

/-- A product with a rounded factor. -/
theorem mul_err' (hf : Fine A) (z : ℂ) {w w0 : ℂ} {k : ℝ} (hk : k ≤ 30) (hw : ‖w - w0‖ ≤ k * A.v)
    (h0 : ‖w0‖ ≤ 1) : ‖A.mul z w - z * w0‖ ≤ (6 + k) * A.v * ‖z‖ + 8 * A.v := by
  have hv := A.v_nonneg
  have hs := hf.small
  have hz := norm_nonneg z
  have h1 := mul_err hf z w
  have h2 : ‖w‖ ≤ 1 + 1 / 100 := by
    have := norm_add_le (w - w0) w0
    rw [sub_add_cancel] at this
    nlinarith
  have h3 : ‖z * w - z * w0‖ ≤ k * A.v * ‖z‖ := by
    rw [← mul_sub, norm_mul, mul_comm]
    exact mul_le_mul_of_nonneg_right hw hz
  have h4 := norm_sub_le_norm_sub_add_norm_sub (A.mul z w) (z * w) (z * w0)
  have h5 : A.u * (‖z‖ * ‖w‖) ≤ A.v * (‖z‖ * (1 + 1 / 100)) :=
    mul_le_mul A.u_le_v (mul_le_mul_of_nonneg_left h2 hz) (by positivity) hv
  have h6 := A.eta_le_v
  nlinarith [mul_nonneg hv hz]

/-- A sum of two products with rounded factors. -/
theorem comb_err (hf : Fine A) (e f : ℂ) {w a w' b : ℂ} (hw : ‖w - a‖ ≤ 13 * A.v) (ha : ‖a‖ ≤ 1)
    (hw' : ‖w' - b‖ ≤ 13 * A.v) (hb : ‖b‖ ≤ 1) :
    ‖A.add (A.mul e w) (A.mul f w') - (e * a + f * b)‖ ≤ 30 * A.v * (‖e‖ + ‖f‖ + 1) := by
  have hv := A.v_nonneg
  have hs := hf.small
  have he := norm_nonneg e
  have hff := norm_nonneg f
  have h1 := mul_err' hf e (by norm_num) hw ha
  have h2 := mul_err' hf f (by norm_num) hw' hb
  have h3 := add_err (A := A) (A.mul e w) (A.mul f w')
  have h4 : ‖A.mul e w + A.mul f w' - (e * a + f * b)‖ ≤ 19 * A.v * (‖e‖ + ‖f‖) + 16 * A.v := by
    rw [show A.mul e w + A.mul f w' - (e * a + f * b) = (A.mul e w - e * a) + (A.mul f w' - f * b) by ring]
    have := norm_add_le (A.mul e w - e * a) (A.mul f w' - f * b)
    linarith
  have h5 : ‖e * a + f * b‖ ≤ ‖e‖ + ‖f‖ := by
    have := norm_add_le (e * a) (f * b)
    rw [norm_mul, norm_mul] at this
    have := mul_le_mul_of_nonneg_left ha he
    have := mul_le_mul_of_nonneg_left hb hff
    linarith
  have h6 : ‖A.mul e w + A.mul f w'‖ ≤ ‖e‖ + ‖f‖ + (19 * A.v * (‖e‖ + ‖f‖) + 16 * A.v) := by
    have := norm_add_le (A.mul e w + A.mul f w' - (e * a + f * b)) (e * a + f * b)
    rw [sub_add_cancel] at this
    linarith
  have h7 := norm_sub_le_norm_sub_add_norm_sub (A.add (A.mul e w) (A.mul f w')) (A.mul e w + A.mul f w')
    (e * a + f * b)
  have h8 : A.u * ‖A.mul e w + A.mul f w'‖ ≤
      A.v * (‖e‖ + ‖f‖ + (19 * A.v * (‖e‖ + ‖f‖) + 16 * A.v)) :=
    mul_le_mul A.u_le_v h6 (norm_nonneg _) hv
  have h9 : A.v * A.v ≤ A.v * (1 / 4000) := mul_le_mul_of_nonneg_left hs hv
  have h10 : A.v * (A.v * (‖e‖ + ‖f‖)) ≤ (1 / 4000) * (A.v * (‖e‖ + ‖f‖)) :=
    mul_le_mul_of_nonneg_right hs (by positivity)
  have h11 := A.eta_le_v
  nlinarith [mul_nonneg hv (add_nonneg he hff)]

/-! ### Lists of amplitudes -/

/-- Two lists of amplitudes with the same indices that differ only by rounding. -/
def Noise (A : Arith) (F G : List (ℕ × ℂ)) : Prop :=
  ∃ T : List (ℕ × ℂ × ℂ), F = T.map (fun t => (t.1, t.2.1)) ∧ G = T.map (fun t => (t.1, t.2.2)) ∧
    (T.map (fun t => Complex.normSq (t.2.2 - t.2.1))).sum ≤
      (100 * A.v) ^ 2 * (T.map (fun t => Complex.normSq t.2.1 + 1)).sum

theorem Noise.nil : Noise A [] [] := ⟨[], rfl, rfl, by simp⟩

theorem Noise.append {F G F' G' : List (ℕ × ℂ)} (h : Noise A F G) (h' : Noise A F' G') :
    Noise A (F ++ F') (G ++ G') := by
  obtain ⟨T, rfl, rfl, hT⟩ := h
  obtain ⟨T', rfl, rfl, hT'⟩ := h'
  refine ⟨T ++ T', by simp, by simp, ?_⟩
  simp only [List.map_append, List.sum_append]
  linarith

theorem Noise.flatMap {f g : ℕ × ℂ → List (ℕ × ℂ)} {l : List (ℕ × ℂ)}
    (h : ∀ e ∈ l, Noise A (f e) (g e)) : Noise A (l.flatMap f) (l.flatMap g) := by
  induction l with
  | nil => exact .nil
  | cons e l ih =>
    rw [List.flatMap_cons, List.flatMap_cons]
    exact (h e (by simp)).append (ih (fun e he => h e (by simp [he])))

theorem Noise.map {f g : ℕ × ℂ → ℕ × ℂ} {l : List (ℕ × ℂ)}
    (h : ∀ e ∈ l, Noise A [f e] [g e]) : Noise A (l.map f) (l.map g) := by
  rw [List.map_eq_flatMap, List.map_eq_flatMap]
  exact Noise.flatMap h

theorem noise_one {k : ℕ} {z y : ℂ} (h : ‖y - z‖ ≤ 50 * A.v * (‖z‖ + 1)) :
    Noise A [(k, z)] [(k, y)] := by
  refine ⟨[(k, z, y)], rfl, rfl, ?_⟩
  simp only [List.map_cons, List.map_nil, List.sum_cons, List.sum_nil, add_zero]
  rw [Complex.normSq_eq_norm_sq, Complex.normSq_eq_norm_sq]
  have hv := A.v_nonneg
  have hz := norm_nonneg z
  have h1 := pow_le_pow_left₀ (norm_nonneg _) h 2
  have h2 : (50 * A.v * (‖z‖ + 1)) ^ 2 ≤ (100 * A.v) ^ 2 * (‖z‖ ^ 2 + 1) := by
    have : (‖z‖ + 1) ^ 2 ≤ 2 * (‖z‖ ^ 2 + 1) := by nlinarith [sq_nonneg (‖z‖ - 1)]
    have h3 := mul_le_mul_of_nonneg_left this (show 0 ≤ 2500 * A.v ^ 2 by positivity)
    have h4 : 0 ≤ A.v ^ 2 * (‖z‖ ^ 2 + 1) := by positivity
    nlinarith
  linarith

theorem noise_refl (l : List (ℕ × ℂ)) : Noise A l l := by
  refine ⟨l.map (fun e => (e.1, e.2, e.2)), ?_, ?_, ?_⟩
  · simp [List.map_map, Function.comp_def]
  · simp [List.map_map, Function.comp_def]
  · simp only [List.map_map, Function.comp_def, sub_self, map_zero]
    have : (0 : ℝ) ≤ (l.map (fun e => Complex.normSq e.2 + 1)).sum := by
      apply List.sum_nonneg
      intro x hx
      obtain ⟨e, _, rfl⟩ := List.mem_map.1 hx
      have := Complex.normSq_nonneg e.2
      linarith
    have hv := A.v_nonneg
    simp only [List.map_const', List.sum_replicate, smul_zero]
    positivity

theorem noise_pair {k k' : ℕ} {z y z' y' : ℂ} {t : ℝ} (h : ‖y - z‖ ≤ 30 * A.v * t)
    (h' : ‖y' - z'‖ ≤ 30 * A.v * t)
    (ht : t ^ 2 ≤ 4 * (Complex.normSq z + Complex.normSq z' + 2)) :
    Noise A [(k, z), (k', z')] [(k, y), (k', y')] := by
  refine ⟨[(k, z, y), (k', z', y')], rfl, rfl, ?_⟩
  simp only [List.map_cons, List.map_nil, List.sum_cons, List.sum_nil, add_zero]
  rw [Complex.normSq_eq_norm_sq (y - z), Complex.normSq_eq_norm_sq (y' - z')]
  have h1 := pow_le_pow_left₀ (norm_nonneg _) h 2
  have h2 := pow_le_pow_left₀ (norm_nonneg _) h' 2
  have h3 := mul_le_mul_of_nonneg_left ht (show 0 ≤ 1800 * A.v ^ 2 by positivity)
  have h4 : 0 ≤ A.v ^ 2 * (Complex.normSq z + Complex.normSq z' + 2) := by
    have := Complex.normSq_nonneg z
    have := Complex.normSq_nonneg z'
    positivity
  nlinarith

theorem Noise.keys {F G : List (ℕ × ℂ)} (h : Noise A F G) : G.map Prod.fst = F.map Prod.fst := by
  obtain ⟨T, rfl, rfl, _⟩ := h
  simp [List.map_map, Function.comp_def]

theorem core_keys {m : IMap ℕ} {F G : List (ℕ × ℂ)} (h : G.map Prod.fst = F.map Prod.fst) (hc : Core m F) :
    Core m G := by
  refine ⟨hc.inj, by rw [h]; exact hc.nodup, ?_⟩
  intro e he
  have : e.1 ∈ F.map Prod.fst := by rw [← h]; exact List.mem_map.2 ⟨e, he, rfl⟩
  obtain ⟨e', he', h1⟩ := List.mem_map.1 this
  rw [← h1]; exact hc.bits e' he'

theorem view_sub_map (m : IMap ℕ) (T : List (ℕ × ℂ × ℂ)) :
    view m (T.map (fun t => (t.1, t.2.2))) - view m (T.map (fun t => (t.1, t.2.1))) =
      view m (T.map (fun t => (t.1, t.2.2 - t.2.1))) := by
  induction T with
  | nil => simp
  | cons t T ih =>
    simp only [List.map_cons, view_cons]
    rw [← ih]
    simp only [entryWave]
    module

open Tol in
theorem Noise.near {F G : List (ℕ × ℂ)} (h : Noise A F G) {m : IMap ℕ} (hc : Core m F)
    (hl : len (view m F) ≤ 3 / 2) :
    Near (200 * A.v * √(2 ^ m.keys.length)) (view m G) (view m F) := by
  refine ⟨finSupp_view _ _, finSupp_view _ _, ?_⟩
  have hv := A.v_nonneg
  have hlen := Core.length_le hc
  obtain ⟨T, rfl, rfl, hT⟩ := h
  rw [view_sub_map]
  apply len_le_of (by positivity)
  have hcd : Core m (T.map (fun t => (t.1, t.2.2 - t.2.1))) :=
    core_keys (F := T.map (fun t => (t.1, t.2.1))) (by simp [List.map_map, Function.comp_def]) hc
  rw [normSq_view hcd, List.map_map]
  refine le_trans hT ?_
  have e1 : (T.map (fun t => Complex.normSq t.2.1 + 1)).sum =
      normSq (view m (T.map (fun t => (t.1, t.2.1)))) + T.length := by
    rw [normSq_view hc, List.map_map]
    have : ∀ L : List (ℕ × ℂ × ℂ), (L.map (fun t => Complex.normSq t.2.1 + 1)).sum =
        (L.map (fun t => Complex.normSq t.2.1)).sum + L.length := by
      intro L
      induction L with
      | nil => simp
      | cons t L ih => simp only [List.map_cons, List.sum_cons, ih, List.length_cons]; push_cast; ring
    exact this T
  rw [e1, mul_pow (200 * A.v), Real.sq_sqrt (by positivity)]
  have h1 : normSq (view m (T.map (fun t => (t.1, t.2.1)))) ≤ 9 / 4 := by
    rw [← len_sq]
    have := len_nonneg (view m (T.map (fun t => (t.1, t.2.1))))
    nlinarith
  have h2 : (T.length : ℝ) ≤ 2 ^ m.keys.length := by
    rw [List.length_map] at hlen
    exact_mod_cast hlen
  have h3 : (1 : ℝ) ≤ 2 ^ m.keys.length := one_le_pow₀ (by norm_num)
  have h4 : normSq (view m (T.map (fun t => (t.1, t.2.1)))) + T.length ≤ 4 * 2 ^ m.keys.length := by linarith
  have h5 := mul_le_mul_of_nonneg_left h4 (show 0 ≤ (100 * A.v) ^ 2 by positivity)
  nlinarith

end Rnd
end Qir
