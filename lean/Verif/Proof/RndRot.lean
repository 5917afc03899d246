import Verif.Proof.RndPass

/-! Rotations of the stored state with rounded arithmetic. -/

noncomputable section
namespace Qir.Rnd
open Spec Function Sim Tol

variable {A : Arith}

/-! ### The matrix entries -/

theorem m00_err (A : Arith) (θ : ℝ) : ‖Rnd.rotM00 A θ - Sim.rotM00 θ‖ ≤ A.v := by
  have h := norm_le_add_abs (Rnd.rotM00 A θ - Sim.rotM00 θ)
  simp only [Rnd.rotM00, Sim.rotM00, Complex.sub_re, Complex.sub_im, sub_zero, abs_zero, add_zero] at h
  exact h.trans (A.cos_err _)

theorem norm_phase (flip : Bool) : ‖(if flip then -Complex.I else 1 : ℂ)‖ = 1 := by cases flip <;> simp

theorem norm_phase' (flip : Bool) : ‖(if flip then Complex.I else 1 : ℂ)‖ = 1 := by cases flip <;> simp

theorem norm_m01 (flip : Bool) (θ : ℝ) : ‖Sim.rotM01 θ flip‖ = |Real.sin (θ / 2)| := by
  rw [rotM01_eq]
  cases flip <;> simp [-Complex.ofReal_sin]

theorem m01_err (hf : Fine A) (θ : ℝ) (flip : Bool) :
    ‖Rnd.rotM01 A θ flip - Sim.rotM01 θ flip‖ ≤ 10 * A.v := by
  unfold Rnd.rotM01 Sim.rotM01
  have hv := A.v_nonneg
  have hs := hf.small
  have hp := norm_phase flip
  have e1 : ∀ x : ℝ, ‖(⟨0, x⟩ : ℂ)‖ = |x| := by
    intro x
    rw [show (⟨0, x⟩ : ℂ) = x * Complex.I by apply Complex.ext <;> simp, norm_mul, Complex.norm_I, mul_one,
      Complex.norm_real, Real.norm_eq_abs]
  have h1 := mul_err hf (⟨0, A.sin (θ / (-2))⟩ : ℂ) (if flip then -Complex.I else 1)
  rw [hp, mul_one, e1] at h1
  have h2 := A.sin_err (θ / (-2))
  have h3 : |A.sin (θ / (-2))| ≤ 1 + 1 / 4000 := by
    have h4 := abs_add_le (A.sin (θ / (-2)) - Real.sin (θ / (-2))) (Real.sin (θ / (-2)))
    rw [sub_add_cancel] at h4
    have := Real.abs_sin_le_one (θ / (-2))
    unfold Arith.v at hs
    linarith
  have h5 : ‖(⟨0, A.sin (θ / (-2))⟩ : ℂ) * (if flip then -Complex.I else 1) -
      (⟨0, Real.sin (θ / (-2))⟩ : ℂ) * (if flip then -Complex.I else 1)‖ ≤ A.v := by
    rw [← sub_mul, norm_mul, hp, mul_one]
    have := norm_le_add_abs ((⟨0, A.sin (θ / (-2))⟩ : ℂ) - ⟨0, Real.sin (θ / (-2))⟩)
    simp only [Complex.sub_re, Complex.sub_im, sub_zero, abs_zero, zero_add] at this
    exact this.trans h2
  have h6 := norm_sub_le_norm_sub_add_norm_sub
    (A.mul (⟨0, A.sin (θ / (-2))⟩ : ℂ) (if flip then -Complex.I else 1))
    ((⟨0, A.sin (θ / (-2))⟩ : ℂ) * (if flip then -Complex.I else 1))
    ((⟨0, Real.sin (θ / (-2))⟩ : ℂ) * (if flip then -Complex.I else 1))
  have h7 : A.u * |A.sin (θ / (-2))| ≤ A.v * (1 + 1 / 4000) := mul_le_mul A.u_le_v h3 (abs_nonneg _) hv
  have h8 : 5 * A.u * |A.sin (θ / (-2))| + 8 * A.eta ≤ 9 * A.v := by
    have h9 : 5 * A.u * |A.sin (θ / (-2))| ≤ 5 * A.u * (1 + 1 / 4000) :=
      mul_le_mul_of_nonneg_left h3 (by have := A.u_nonneg; linarith)
    have := A.u_nonneg
    have := A.eta_nonneg
    unfold Arith.v
    linarith
  linarith

theorem m10_err (hf : Fine A) (θ : ℝ) (flip : Bool) :
    ‖A.scale (Rnd.rotM01 A θ flip) (if flip then -1 else 1) - Sim.rotM01 θ flip * (if flip then -1 else 1)‖ ≤
      13 * A.v := by
  have hv := A.v_nonneg
  have hs := hf.small
  have hm := m01_err hf θ flip
  have hn := norm_m01 flip θ
  have hsin := Real.abs_sin_le_one (θ / 2)
  generalize Rnd.rotM01 A θ flip = w at hm ⊢
  generalize Sim.rotM01 θ flip = w0 at hm hn ⊢
  have h1 := scale_err (A := A) w (if flip then -1 else 1)
  have ha : |(if flip then (-1 : ℝ) else 1)| = 1 := by cases flip <;> simp
  have ec : (((if flip then (-1 : ℝ) else 1) : ℝ) : ℂ) = if flip then (-1 : ℂ) else 1 := by cases flip <;> simp
  have hc : ‖(if flip then (-1 : ℂ) else 1)‖ = 1 := by cases flip <;> simp
  rw [ha, mul_one, ec] at h1
  have h2 : ‖w‖ ≤ 1 + 1 / 100 := by
    have := norm_add_le (w - w0) w0
    rw [sub_add_cancel] at this
    linarith
  have h3 : ‖w * (if flip then (-1 : ℂ) else 1) - w0 * (if flip then (-1 : ℂ) else 1)‖ ≤ 10 * A.v := by
    rw [← sub_mul, norm_mul, hc, mul_one]; exact hm
  have h4 := norm_sub_le_norm_sub_add_norm_sub (A.scale w (if flip then -1 else 1))
    (w * (if flip then (-1 : ℂ) else 1)) (w0 * (if flip then (-1 : ℂ) else 1))
  have h5 : A.u * ‖w‖ ≤ A.u * (1 + 1 / 100) := mul_le_mul_of_nonneg_left h2 A.u_nonneg
  have h6 : A.u * ‖w‖ + 2 * A.eta ≤ 3 * A.v := by
    have := A.u_nonneg
    have := A.eta_nonneg
    unfold Arith.v
    linarith
  linarith

/-- The columns of the rotation. -/
theorem rot_pair (flip : Bool) (θ : ℝ) (e f : ℂ) :
    Complex.normSq (e * Sim.rotM00 θ + f * Sim.rotM01 θ flip) +
      Complex.normSq (e * (Sim.rotM01 θ flip * (if flip then -1 else 1)) + f * Sim.rotM00 θ) =
      Complex.normSq e + Complex.normSq f := by
  have h := isom_rotMat flip θ e f
  rw [rotMat_eq] at h
  simp only [mat] at h
  rw [← h]
  simp only [Bool.false_eq_true, if_true, if_false]
  rw [mul_comm e, mul_comm f, mul_comm e, mul_comm f]

theorem norm_le_one_of {z w : ℂ} (h : Complex.normSq z + Complex.normSq w = 1) : ‖z‖ ≤ 1 ∧ ‖w‖ ≤ 1 := by
  rw [Complex.normSq_eq_norm_sq, Complex.normSq_eq_norm_sq] at h
  constructor <;> nlinarith [sq_nonneg ‖z‖, sq_nonneg ‖w‖, norm_nonneg z, norm_nonneg w]

theorem pass_rot (hf : Fine A) (m : List (ℕ × ℂ)) (cs : List ℕ) (t : ℕ) (θ : ℝ) (flip : Bool) (e : ℕ × ℂ) :
    Pass A (Sim.rotEntry (-1) m cs t (Sim.rotM00 θ) (Sim.rotM01 θ flip)
        (Sim.rotM01 θ flip * (if flip then -1 else 1)) e)
      (Rnd.rotEntry A m cs t (Rnd.rotM00 A θ) (Rnd.rotM01 A θ flip)
        (A.scale (Rnd.rotM01 A θ flip) (if flip then -1 else 1)) e) := by
  have hv := A.v_nonneg
  have hp := hf.pos
  have a0 := m00_err A θ
  have a1 := m01_err hf θ flip
  have a2 := m10_err hf θ flip
  have iso := rot_pair flip θ
  generalize Rnd.rotM00 A θ = w0 at a0 ⊢
  generalize A.scale (Rnd.rotM01 A θ flip) (if flip then -1 else 1) = w2 at a2 ⊢
  generalize Rnd.rotM01 A θ flip = w1 at a1 ⊢
  generalize Sim.rotM01 θ flip * (if flip then -1 else 1) = z2 at a2 iso ⊢
  generalize Sim.rotM01 θ flip = z1 at a1 iso ⊢
  generalize Sim.rotM00 θ = z0 at a0 iso ⊢
  have i1 := iso 1 0
  have i2 := iso 0 1
  simp only [one_mul, zero_mul, add_zero, zero_add, map_one, map_zero] at i1 i2
  obtain ⟨b0, b2⟩ := norm_le_one_of i1
  obtain ⟨b1, _⟩ := norm_le_one_of i2
  have c0 : ‖w0 - z0‖ ≤ 13 * A.v := by linarith
  have c1 : ‖w1 - z1‖ ≤ 13 * A.v := by linarith
  have hone : ∀ {w z : ℂ}, ‖w - z‖ ≤ 13 * A.v → ‖z‖ ≤ 1 → ‖A.mul e.2 w - e.2 * z‖ ≤ 30 * A.v * (‖e.2‖ + 1) := by
    intro w z h1 h2
    have := mul_err' hf e.2 (by norm_num) h1 h2
    have hn := norm_nonneg e.2
    nlinarith [mul_nonneg hv hn]
  unfold Sim.rotEntry Rnd.rotEntry
  split
  · simp only
    cases lookupMap m (e.1 ^^^ setBit 0 t true) with
    | none =>
      simp only
      apply Noise.pass
      split
      · refine noise_pair (hone c1 b1) (hone c0 b0) (sq_le_single ?_)
        have := iso 0 e.2
        simpa using this
      · refine noise_pair (hone c0 b0) (hone a2 b2) (sq_le_single ?_)
        have := iso e.2 0
        simpa using this
    | some f =>
      simp only
      split
      · rw [if_neg (not_nearlyZero_neg _), if_neg (not_nearlyZero_neg _)]
        have d1 := comb_err hf e.2 f c0 b0 c1 b1
        have d2 := comb_err hf e.2 f a2 b2 c0 b0
        exact pass_if d1 d2 (sq_le_pair (iso e.2 f)) (nearlyZero_mono (by linarith)) (nearlyZero_mono (by linarith))
      · exact (noise_refl _).pass
  · exact (noise_refl _).pass

/-! ### Scaling -/

theorem noise_mul' (hf : Fine A) {k : ℕ} {z w w0 : ℂ} (hw : ‖w - w0‖ ≤ 30 * A.v) (h0 : ‖w0‖ ≤ 1)
    (h1 : 4 / 5 ≤ ‖w0‖) : Noise A [(k, z * w0)] [(k, A.mul z w)] := by
  apply noise_one
  have := mul_err' hf z (le_refl 30) hw h0
  rw [norm_mul]
  have hv := A.v_nonneg
  have hz := norm_nonneg z
  have h2 : ‖z‖ * (4 / 5) ≤ ‖z‖ * ‖w0‖ := mul_le_mul_of_nonneg_left h1 hz
  have h3 := mul_le_mul_of_nonneg_left h2 hv
  nlinarith

theorem noise_scaleIf (hf : Fine A) {w w0 : ℂ} (hw : ‖w - w0‖ ≤ 30 * A.v) (h0 : ‖w0‖ ≤ 1)
    (h1 : 4 / 5 ≤ ‖w0‖) (cs : List ℕ) (st : List (ℕ × ℂ)) :
    Noise A (st.map (Sim.scaleIf cs w0)) (st.map (Rnd.scaleIf A cs w)) := by
  apply Noise.map
  intro e _
  unfold Sim.scaleIf Rnd.scaleIf
  split
  · exact noise_mul' hf hw h0 h1
  · exact noise_refl _

theorem dev_le (hf : Fine A) (n : ℕ) {d l : ℝ} (hd : d ≤ 8 / 5 * A.eps) (hl : 0 ≤ l) (hl' : l ≤ 3 / 2) :
    200 * A.v * √(2 ^ n) + d * l ≤ cost A n := by
  unfold cost unit
  have hp := hf.pos
  have hfine := hf.fine
  have h1 : (1 : ℝ) ≤ √(2 ^ n) := Real.one_le_sqrt.2 (one_le_pow₀ (by norm_num))
  have h2 : (7 / 5 : ℝ) ≤ √2 := by
    apply Real.le_sqrt_of_sq_le; norm_num
  have h3 : d * l ≤ 12 / 5 * A.eps := by
    have := mul_le_mul_of_nonneg_right hd hl
    nlinarith
  have h4 : 12 / 5 * A.eps ≤ 12 / 5 * A.eps * √(2 ^ n) := by nlinarith
  have h5 : 200 * A.v * √(2 ^ n) ≤ 1 / 5 * A.eps * √(2 ^ n) :=
    mul_le_mul_of_nonneg_right (by linarith) (by linarith)
  have h6 : 14 / 5 * A.eps * √(2 ^ n) ≤ 2 * A.eps * √2 * √(2 ^ n) :=
    mul_le_mul_of_nonneg_right (by nlinarith) (by linarith)
  have h7 : 0 ≤ A.eps * √(2 ^ n) := by positivity
  nlinarith

theorem reach_of_near (hf : Fine A) {n : ℕ} {d : ℝ} (hd : d ≤ 8 / 5 * A.eps) {cs : List ℕ} {t : ℕ} (ht : t ∉ cs)
    {V : Mat2} (hV : Isom V) {ψ χ : Wave} (hχ : FinSupp χ) (h : Near (d * len χ) ψ (ctrlL cs V t χ)) :
    Reach A n 1 ψ (ctrlL cs V t χ) := by
  refine ⟨h.fin, h.fin', ?_⟩
  intro hl
  have hc := cost_nonneg hf n
  rw [Nat.cast_one, one_mul] at hl ⊢
  rw [(iso_ctrl hV ht).len hχ] at hl
  have h1 := dev_le hf n hd (len_nonneg χ) (by linarith)
  have h2 : 0 ≤ 200 * A.v * √(2 ^ n) := by have := A.v_nonneg; positivity
  exact h.le.trans (by linarith)

/-- A scaling with rounding that stands for a nearby matrix. -/
theorem reach_dev (hf : Fine A) {m : IMap ℕ} {X Y : List (ℕ × ℂ)} (hn : Noise A X Y) (hc : Core m X) {d : ℝ}
    (hd0 : 0 ≤ d) (hd : d ≤ 8 / 5 * A.eps) {cs : List ℕ} {t : ℕ} (ht : t ∉ cs) {U V : Mat2} (hV : Isom V)
    (hU : Bound 1 U) (hB : Bound (d ^ 2) (U - V)) {χ : Wave} (hχ : FinSupp χ)
    (hX : view m X = ctrlL cs U t χ) :
    Core m Y ∧ Reach A m.keys.length 1 (view m Y) (ctrlL cs V t χ) := by
  refine ⟨core_keys hn.keys hc, finSupp_view _ _, hχ.ctrl _ _ _, ?_⟩
  intro hl
  have h0 := cost_nonneg hf m.keys.length
  rw [Nat.cast_one, one_mul] at hl ⊢
  rw [(iso_ctrl hV ht).len hχ] at hl
  have h1 := hn.near hc (by rw [hX]; exact (len_ctrl_le ht hU hχ).trans (by linarith))
  rw [hX] at h1
  have h2 := near_ctrl ht hd0 hB hχ
  exact (h1.trans h2).le.trans (dev_le hf _ hd (len_nonneg χ) (by linarith))

/-! ### `mcrotation` -/

theorem nearlyZero_cos (hf : Fine A) (θ : ℝ) :
    NearlyZero A.eps (Rnd.rotM00 A θ) ↔ |A.cos (θ / 2)| ≤ A.eps := by
  unfold NearlyZero Rnd.rotM00
  rw [nearlyZeroR_iff, nearlyZeroR_iff]
  simp [hf.nonneg]

theorem cos_le_of (hf : Fine A) {θ : ℝ} (h : |A.cos (θ / 2)| ≤ A.eps) :
    |Real.cos (θ / 2)| ≤ 1001 / 1000 * A.eps := by
  have h1 := A.cos_err (θ / 2)
  have h2 := abs_sub_abs_le_abs_sub (Real.cos (θ / 2)) (A.cos (θ / 2))
  rw [abs_sub_comm] at h2
  have := hf.fine
  unfold Arith.v at this
  linarith

theorem sin_le_of (hf : Fine A) {θ : ℝ} {flip : Bool} (h : NearlyZero A.eps (Rnd.rotM01 A θ flip)) :
    |Real.sin (θ / 2)| ≤ 101 / 100 * A.eps := by
  have h1 := m01_err hf θ flip
  have hfine := hf.fine
  unfold NearlyZero at h
  rw [nearlyZeroR_iff, nearlyZeroR_iff] at h
  have hr := (Complex.abs_re_le_norm _).trans h1
  have hi := (Complex.abs_im_le_norm _).trans h1
  rw [Complex.sub_re, rotM01_eq] at hr
  rw [Complex.sub_im, rotM01_eq] at hi
  cases flip
  · have e : (-Complex.I * (Real.sin (θ / 2) : ℂ)).im = -Real.sin (θ / 2) := by simp [-Complex.ofReal_sin]
    simp only [Bool.false_eq_true, if_false] at hi
    rw [e] at hi
    have := abs_sub_abs_le_abs_sub (-Real.sin (θ / 2)) (Rnd.rotM01 A θ false).im
    rw [abs_sub_comm, abs_neg] at this
    linarith [h.2]
  · have e : (-(Real.sin (θ / 2) : ℂ)).re = -Real.sin (θ / 2) := by simp [-Complex.ofReal_sin]
    simp only [if_true] at hr
    rw [e] at hr
    have := abs_sub_abs_le_abs_sub (-Real.sin (θ / 2)) (Rnd.rotM01 A θ true).re
    rw [abs_sub_comm, abs_neg] at this
    linarith [h.1]

theorem axis_mul (flip : Bool) : axisMat flip * axisMat flip = 1 := by
  ext r k
  cases flip <;> cases r <;> cases k <;> simp [axisMat, matX, matY, mat, Matrix.mul_apply]

theorem isom_axis (flip : Bool) : Isom (axisMat flip) := by
  cases flip
  · exact isom_X
  · exact isom_Y

theorem bound_scalar (f : ℂ) : Bound (‖f‖ ^ 2) (mat f 0 0 f) := by
  intro x y
  simp only [mat]
  rw [← Complex.normSq_eq_norm_sq]
  simp only [Bool.false_eq_true, if_true, if_false, zero_mul, add_zero, zero_add, Complex.normSq_mul]
  linarith

theorem bound_axis (flip : Bool) (a : ℝ) : Bound (a ^ 2) (matRot flip a 0 * axisMat flip) := by
  have e : matRot flip a 0 * axisMat flip = if flip then mat 0 (-Complex.I * a) (Complex.I * a) 0 else mat 0 a a 0 := by
    ext r k
    cases flip <;> cases r <;> cases k <;> simp [axisMat, matX, matY, mat, Matrix.mul_apply, matRot, mul_comm]
  rw [e]
  intro x y
  apply le_of_eq
  cases flip <;>
  · simp only [mat, Complex.normSq_apply, Complex.mul_re,
      Complex.mul_im, Complex.ofReal_re, Complex.ofReal_im, Complex.neg_re, Complex.neg_im,
      Complex.I_re, Complex.I_im,
      Bool.false_eq_true, if_true, if_false, zero_mul, sub_zero, add_zero, neg_zero, zero_add]
    ring

theorem mcrotation_spec (hf : Fine A) {s : Sim} (h : WFB s.idMap s.state s.opQ)
    {t : ℕ} {cs : List ℕ} (hok : OpndsOk s.idMap cs t) {pauli : Sim → Except Panic Sim} {flip : Bool}
    {θ : ℝ}
    (hp : |A.cos (θ / 2)| ≤ A.eps → ∃ st q, pauli s = .ok { s with state := st, opQ := q } ∧
      WFB s.idMap st q ∧
      Cost A s.idMap.keys.length 1 q s.opQ (opsL q (view s.idMap st)) (ctrlL cs (axisMat flip) t (base s))) :
    ∃ st q, Rnd.mcrotation A pauli cs θ t flip s = .ok { s with state := st, opQ := q } ∧
      WFB s.idMap st q ∧
      Cost A s.idMap.keys.length 2 q s.opQ (opsL q (view s.idMap st)) (ctrlL cs (rotMat flip θ) t (base s)) := by
  obtain ⟨tl, csl, hr, htl, hcs⟩ := resolveAndCheck_ok hok
  have hn := hok.not_mem
  have hpos := hf.pos
  have hle := hf.le
  have hfine := hf.fine
  have hvn := A.v_nonneg
  have hfin : FinSupp (base s) := finSupp_base s
  have hsc := Real.sin_sq_add_cos_sq (θ / 2)
  have hsin1 := Real.abs_sin_le_one (θ / 2)
  unfold Rnd.mcrotation
  simp only [nearlyZero_cos hf]
  split
  · rename_i h0
    have hcos := cos_le_of hf h0
    obtain ⟨st, q, hps, hw, hv⟩ := hp h0
    rw [hps]
    simp only [ok_bind, hr]
    -- the scaling and the rotation it stands for
    set w0 := Sim.rotM01 θ flip * (if flip then Complex.I else 1) with hw0
    set w := A.mul (Rnd.rotM01 A θ flip) (if flip then Complex.I else 1) with hwd
    set V := rotMat flip θ * axisMat flip with hVd
    have hV : Isom V := (isom_rotMat flip θ).mul (isom_axis flip)
    have hnw0 : ‖w0‖ = |Real.sin (θ / 2)| := by rw [hw0, norm_mul, norm_phase', mul_one, norm_m01]
    have hww : ‖w - w0‖ ≤ 30 * A.v := by
      have e1 := mul_err hf (Rnd.rotM01 A θ flip) (if flip then Complex.I else 1)
      rw [norm_phase', mul_one] at e1
      have e2 := m01_err hf θ flip
      have e3 : ‖Rnd.rotM01 A θ flip‖ ≤ 1 + 1 / 100 := by
        have := norm_add_le (Rnd.rotM01 A θ flip - Sim.rotM01 θ flip) (Sim.rotM01 θ flip)
        rw [sub_add_cancel, norm_m01] at this
        have := hf.small
        linarith
      have e4 : ‖Rnd.rotM01 A θ flip * (if flip then Complex.I else 1) - w0‖ ≤ 10 * A.v := by
        rw [hw0, ← sub_mul, norm_mul, norm_phase', mul_one]; exact e2
      have e5 := norm_sub_le_norm_sub_add_norm_sub w (Rnd.rotM01 A θ flip * (if flip then Complex.I else 1)) w0
      have e6 : 5 * A.u * ‖Rnd.rotM01 A θ flip‖ ≤ 5 * A.u * (1 + 1 / 100) :=
        mul_le_mul_of_nonneg_left e3 (by have := A.u_nonneg; linarith)
      have e7 := A.u_le_v
      have e8 := A.eta_le_v
      linarith
    have hw1 : 4 / 5 ≤ ‖w0‖ := by
      rw [hnw0]
      have e1 : Real.cos (θ / 2) ^ 2 ≤ (1001 / 1000 * A.eps) ^ 2 := by
        rw [← sq_abs]; exact pow_le_pow_left₀ (abs_nonneg _) hcos 2
      have e2 := sq_abs (Real.sin (θ / 2))
      by_contra hc
      rw [not_le] at hc
      have := abs_nonneg (Real.sin (θ / 2))
      nlinarith
    have hmatV : mat w0 0 0 w0 - V = matRot flip (-Real.cos (θ / 2)) 0 * axisMat flip := by
      have e1 : mat w0 0 0 w0 = matRot flip 0 (Real.sin (θ / 2)) * axisMat flip := by
        rw [← half_factor, mul_assoc, axis_mul, mul_one]
      rw [e1, hVd, rotMat_rot, ← sub_mul, matRot_sub, zero_sub, sub_self]
    have hB : Bound (|Real.cos (θ / 2)| ^ 2) (mat w0 0 0 w0 - V) := by
      rw [hmatV, sq_abs, ← neg_sq]; exact bound_axis _ _
    have hVA : ctrlL cs V t (ctrlL cs (axisMat flip) t (base s)) = ctrlL cs (rotMat flip θ) t (base s) := by
      rw [← Module.End.mul_apply, ctrlL_mul hn, hVd, mul_assoc, axis_mul, mul_one]
    have hVc := hv.map (iso_ctrl hV hn)
    rw [hVA] at hVc
    by_cases hne : w ≠ 1
    · rw [if_pos hne]
      obtain ⟨rops, ht, hc, hv2⟩ := takeOps_spec hf (s := { s with state := st, opQ := q }) hw
      rw [ht]
      have hX := view_scaleIf hcs htl hn w0 (st.map (Rnd.applyOps A rops))
      have hcX := hc.mapKey (Sim.scaleIf csl w0) (scaleIf_fst _ _)
      obtain ⟨hcY, hrY⟩ := reach_dev hf (noise_scaleIf hf hww (by rw [hnw0]; exact hsin1) hw1 csl
        (st.map (Rnd.applyOps A rops))) hcX (abs_nonneg (Real.cos (θ / 2))) (by linarith) hn hV
        ((bound_scalar w0).mono (by rw [hnw0]; nlinarith [abs_nonneg (Real.sin (θ / 2))])) hB (finSupp_view _ _) hX
      rw [List.map_map] at hcY hrY
      refine ⟨_, [], rfl, WFB.nil hcY, ?_⟩
      rw [opsL_nil, Module.End.one_apply]
      have hc1 : Cost A s.idMap.keys.length 1 [] q
          (view s.idMap (List.map (Rnd.scaleIf A csl w ∘ Rnd.applyOps A rops) st))
          (ctrlL cs V t (opsL q (view s.idMap st))) :=
        ⟨1 + q.length, by simp, hrY.trans (hv2.map (iso_ctrl hV hn)) hf⟩
      exact hc1.trans hVc hf
    · rw [if_neg hne]
      have hw1' : w = 1 := by by_contra hc; exact hne hc
      refine ⟨st, q, rfl, hw, ?_⟩
      have hfs : FinSupp (opsL q (view s.idMap st)) := (finSupp_view _ _).opsL _
      have n1 := near_ctrl hn (by linarith : (0 : ℝ) ≤ 30 * A.v) (U := 1) (V := mat w0 0 0 w0) (cs := cs) (q := t) ?_ hfs
      · have n2 := near_ctrl hn (abs_nonneg (Real.cos (θ / 2))) hB hfs
        have n3 := n1.trans n2
        rw [ctrlL_one, Module.End.one_apply, ← add_mul] at n3
        have r1 := reach_of_near hf (n := s.idMap.keys.length) (by linarith) hn hV hfs n3
        have hc1 : Cost A s.idMap.keys.length 1 q q (opsL q (view s.idMap st))
            (ctrlL cs V t (opsL q (view s.idMap st))) := ⟨1, by omega, r1⟩
        exact hc1.trans hVc hf
      · have e1 : (1 : Mat2) - mat w0 0 0 w0 = mat (1 - w0) 0 0 (1 - w0) := by
          ext r k; cases r <;> cases k <;> simp [mat]
        rw [e1]
        refine (bound_scalar _).mono ?_
        rw [hw1'] at hww
        exact pow_le_pow_left₀ (norm_nonneg _) hww 2
  · split
    · rename_i h00 h01
      have hs := sin_le_of hf h01
      have hs2 : Real.sin (θ / 2) ^ 2 ≤ (101 / 100 * A.eps) ^ 2 := by
        rw [← sq_abs]; exact pow_le_pow_left₀ (abs_nonneg _) hs 2
      have hc1 := Real.cos_le_one (θ / 2)
      have hc2 := Real.neg_one_le_cos (θ / 2)
      have hsm := hf.small
      have hce := abs_le.1 (A.cos_err (θ / 2))
      have huv : A.u + A.eta = A.v := rfl
      rw [huv] at hce
      have hsq : (101 / 100 * A.eps) ^ 2 ≤ 1 / 3 * A.eps := by nlinarith
      have hsign : NearlyZero A.eps (A.add (Rnd.rotM00 A θ) 1) ↔ Real.cos (θ / 2) ≤ 0 := by
        unfold NearlyZero
        rw [nearlyZeroR_iff, nearlyZeroR_iff]
        simp only [Rnd.rotM00, Arith.add, Complex.one_re, Complex.one_im, add_zero]
        have h0 : |A.fl 0| ≤ A.eps := by
          have := A.fl_err 0
          rw [sub_zero, abs_zero, mul_zero, zero_add] at this
          have := A.eta_le_v
          linarith
        have hfl := A.fl_err (A.cos (θ / 2) + 1)
        have hu := A.u_le_v
        have heta := A.eta_le_v
        have hb : |A.cos (θ / 2) + 1| ≤ 3 := by rw [abs_le]; constructor <;> linarith [hce.1, hce.2]
        have hub : A.u * |A.cos (θ / 2) + 1| ≤ A.v * 3 := mul_le_mul hu hb (abs_nonneg _) hvn
        have hfl' := abs_le.1 (hfl.trans (by linarith : _ ≤ 4 * A.v))
        constructor
        · rintro ⟨h1, _⟩
          have := (abs_le.1 h1).2
          linarith [hfl'.1, hce.1]
        · intro h1
          refine ⟨?_, h0⟩
          have : 1 + Real.cos (θ / 2) ≤ 1 / 3 * A.eps := by nlinarith
          rw [abs_le]
          constructor <;> linarith [hfl'.1, hfl'.2, hce.1, hce.2]
      simp only [hsign]
      have hd : (√2 * (101 / 100 * A.eps)) ≤ 8 / 5 * A.eps := by
        have : √2 ≤ 3 / 2 := by
          rw [Real.sqrt_le_left (by norm_num)]; norm_num
        nlinarith
      have hd2 : (√2 * (101 / 100 * A.eps)) ^ 2 = 2 * (101 / 100 * A.eps) ^ 2 := by
        rw [mul_pow, Real.sq_sqrt (by norm_num)]
      split
      · rename_i h1
        obtain ⟨rops, ht, hc, hv⟩ := takeOps_spec hf h
        rw [ht]
        simp only [ok_bind, hr]
        have hX := view_scaleIf hcs htl hn (-1) (s.state.map (Rnd.applyOps A rops))
        have hcX := hc.mapKey (Sim.scaleIf csl (-1)) (scaleIf_fst _ _)
        obtain ⟨hcY, hrY⟩ := reach_dev hf (noise_scaleIf hf (w := -1) (w0 := -1)
          (by rw [sub_self, norm_zero]; linarith) (by simp) (by rw [norm_neg, norm_one]; norm_num) csl
          (s.state.map (Rnd.applyOps A rops))) hcX (by positivity) hd hn (isom_rotMat flip θ)
          ((bound_scalar (-1)).mono (by simp)) (by
            rw [← matRot_neg_one flip, rotMat_rot, matRot_sub]
            refine (bound_rot _ _ _).mono ?_
            rw [hd2]; nlinarith) (finSupp_view _ _) hX
        rw [List.map_map] at hcY hrY
        refine ⟨_, [], rfl, WFB.nil hcY, 1 + s.opQ.length, by simp, ?_⟩
        rw [opsL_nil, Module.End.one_apply]
        exact hrY.trans (hv.map (iso_ctrl (isom_rotMat flip θ) hn)) hf
      · rename_i h1
        rw [not_le] at h1
        refine ⟨s.state, s.opQ, rfl, h, 1, by omega, ?_⟩
        have n1 := near_ctrl hn (by positivity : (0 : ℝ) ≤ √2 * (101 / 100 * A.eps)) (U := 1)
          (V := rotMat flip θ) (cs := cs) (q := t) ?_ hfin
        · rw [ctrlL_one, Module.End.one_apply] at n1
          exact reach_of_near hf hd hn (isom_rotMat flip θ) hfin n1
        · rw [← matRot_one flip, rotMat_rot, matRot_sub]
          refine (bound_rot _ _ _).mono ?_
          rw [hd2]; nlinarith
    · obtain ⟨rops, ht, hc, hv⟩ := takeOps_spec hf h
      rw [hr]
      simp only [ok_bind, ht]
      have hpa := (Pass.flatMap (fun e _ => pass_rot hf
        (A.shuffle (collectMap (s.state.map (Rnd.applyOps A rops)))) csl tl θ flip e)
        (l := A.shuffle (collectMap (s.state.map (Rnd.applyOps A rops))))).reach hf
        (core_rot (hc.shuffled A.toEnv) _ hcs htl hn _ _ _)
      rw [view_rot_neg (hc.shuffled A.toEnv) hcs htl hn, view_shuffled hc, ← rotMat_eq] at hpa
      refine ⟨_, [], rfl, WFB.nil hpa.1, 1 + s.opQ.length, by simp, ?_⟩
      rw [opsL_nil, Module.End.one_apply]
      exact hpa.2.trans (hv.map (iso_ctrl (isom_rotMat flip θ) hn)) hf

/-- In the half-turn case `mcrotation` looks at the state only through the Pauli gate. -/
theorem mcrotation_half (hf : Fine A) {θ : ℝ} (h : |A.cos (θ / 2)| ≤ A.eps)
    {pauli pauli' : Sim → Except Panic Sim} {s s' : Sim} (hp : pauli s = pauli' s') (cs : List ℕ)
    (t : ℕ) (flip : Bool) :
    Rnd.mcrotation A pauli cs θ t flip s = Rnd.mcrotation A pauli' cs θ t flip s' := by
  have h0 := (nearlyZero_cos hf θ).2 h
  unfold Rnd.mcrotation
  simp only [if_pos h0, hp]

end Qir.Rnd
