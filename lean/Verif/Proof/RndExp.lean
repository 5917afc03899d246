import Verif.Proof.RndGates2
import Verif.Proof.TolExp

/-! The multi-qubit exponential with rounded arithmetic. -/

noncomputable section
namespace Qir.Rnd
open Spec Function Sim Tol

variable {A : Arith}

/-! ### Coefficients -/

theorem norm_im (x : ℝ) : ‖(⟨0, x⟩ : ℂ)‖ = |x| := by
  rw [show (⟨0, x⟩ : ℂ) = x * Complex.I by apply Complex.ext <;> simp, norm_mul, Complex.norm_I, mul_one,
    Complex.norm_real, Real.norm_eq_abs]

theorem im_err (hf : Fine A) (θ : ℝ) {p : ℂ} (hp : ‖p‖ = 1) :
    ‖A.mul ⟨0, A.sin θ⟩ p - (⟨0, Real.sin θ⟩ : ℂ) * p‖ ≤ 10 * A.v := by
  have hv := A.v_nonneg
  have hs := hf.small
  have h1 := mul_err hf (⟨0, A.sin θ⟩ : ℂ) p
  rw [hp, mul_one, norm_im] at h1
  have h2 := A.sin_err θ
  have h3 : |A.sin θ| ≤ 1 + 1 / 4000 := by
    have h4 := abs_add_le (A.sin θ - Real.sin θ) (Real.sin θ)
    rw [sub_add_cancel] at h4
    have := Real.abs_sin_le_one θ
    unfold Arith.v at hs
    linarith
  have h5 : ‖(⟨0, A.sin θ⟩ : ℂ) * p - (⟨0, Real.sin θ⟩ : ℂ) * p‖ ≤ A.v := by
    rw [← sub_mul, norm_mul, hp, mul_one]
    have := norm_le_add_abs ((⟨0, A.sin θ⟩ : ℂ) - ⟨0, Real.sin θ⟩)
    simp only [Complex.sub_re, Complex.sub_im, sub_zero, abs_zero, zero_add] at this
    exact this.trans h2
  have h6 := norm_sub_le_norm_sub_add_norm_sub (A.mul (⟨0, A.sin θ⟩ : ℂ) p)
    ((⟨0, A.sin θ⟩ : ℂ) * p) ((⟨0, Real.sin θ⟩ : ℂ) * p)
  have h8 : 5 * A.u * |A.sin θ| + 8 * A.eta ≤ 9 * A.v := by
    have h9 : 5 * A.u * |A.sin θ| ≤ 5 * A.u * (1 + 1 / 4000) :=
      mul_le_mul_of_nonneg_left h3 (by have := A.u_nonneg; linarith)
    have := A.u_nonneg
    have := A.eta_nonneg
    unfold Arith.v
    linarith
  linarith

theorem re_err (A : Arith) (θ : ℝ) : ‖(⟨A.cos θ, 0⟩ : ℂ) - ⟨Real.cos θ, 0⟩‖ ≤ A.v := by
  have h := norm_le_add_abs ((⟨A.cos θ, 0⟩ : ℂ) - ⟨Real.cos θ, 0⟩)
  simp only [Complex.sub_re, Complex.sub_im, sub_zero, abs_zero, add_zero] at h
  exact h.trans (A.cos_err _)

theorem norm_yPhase (n : ℕ) : ‖yPhase n‖ = 1 := by
  rw [yPhase_eq, norm_pow, Complex.norm_I, one_pow]

/-- The two halves of a pair are turned by a unitary matrix. -/
theorem exp_pair {c : ℝ} {p q : ℂ} (hr : q.re = -p.re) (hi : q.im = p.im) (h1 : c ^ 2 + Complex.normSq p = 1)
    (e f : ℂ) : Complex.normSq (e * (⟨c, 0⟩ : ℂ) + f * q) + Complex.normSq (f * (⟨c, 0⟩ : ℂ) + e * p) =
      Complex.normSq e + Complex.normSq f := by
  rw [Complex.normSq_apply] at h1
  simp only [Complex.normSq_apply, Complex.add_re, Complex.add_im, Complex.mul_re, Complex.mul_im, hr, hi]
  linear_combination (e.re ^ 2 + e.im ^ 2 + f.re ^ 2 + f.im ^ 2) * h1

theorem exp_coeffs (θ : ℝ) (n : ℕ) :
    let p := (⟨0, Real.sin θ⟩ : ℂ) * yPhase n
    let q := if n % 2 = 0 then p else -p
    q.re = -p.re ∧ q.im = p.im ∧ Real.cos θ ^ 2 + Complex.normSq p = 1 := by
  have h0 := Real.sin_sq_add_cos_sq θ
  simp only
  rw [Complex.normSq_mul, Complex.normSq_eq_norm_sq (yPhase n), norm_yPhase]
  have h4 : n % 4 < 4 := Nat.mod_lt _ (by norm_num)
  unfold yPhase
  rcases (by omega : n % 4 = 0 ∨ n % 4 = 1 ∨ n % 4 = 2 ∨ n % 4 = 3) with h | h | h | h
  · have h2 : n % 2 = 0 := by omega
    simp [h, h2, Complex.normSq_apply]; linarith
  · have h2 : n % 2 = 1 := by omega
    simp [h, h2, Complex.normSq_apply]; linarith
  · have h2 : n % 2 = 0 := by omega
    simp [h, h2, Complex.normSq_apply]; linarith
  · have h2 : n % 2 = 1 := by omega
    simp [h, h2, Complex.normSq_apply]; linarith

/-! ### The mixed case -/

theorem pass_exp (hf : Fine A) (m : List (ℕ × ℂ)) (cs : List ℕ) (xy yz : ℕ) (θ : ℝ) (n : ℕ) (e : ℕ × ℂ) :
    Pass A (Sim.expEntry (-1) m cs xy yz ⟨Real.cos θ, 0⟩ ((⟨0, Real.sin θ⟩ : ℂ) * yPhase n)
        (if n % 2 = 0 then (⟨0, Real.sin θ⟩ : ℂ) * yPhase n else -((⟨0, Real.sin θ⟩ : ℂ) * yPhase n)) e)
      (Rnd.expEntry A m cs xy yz ⟨A.cos θ, 0⟩ (A.mul ⟨0, A.sin θ⟩ (yPhase n))
        (if n % 2 = 0 then A.mul ⟨0, A.sin θ⟩ (yPhase n) else -A.mul ⟨0, A.sin θ⟩ (yPhase n)) e) := by
  have hv := A.v_nonneg
  have hp := hf.pos
  have a0 := re_err A θ
  have a1 := im_err hf θ (norm_yPhase n)
  obtain ⟨hr, hi, hone⟩ := exp_coeffs θ n
  have a2 : ‖(if n % 2 = 0 then A.mul ⟨0, A.sin θ⟩ (yPhase n) else -A.mul ⟨0, A.sin θ⟩ (yPhase n)) -
      (if n % 2 = 0 then (⟨0, Real.sin θ⟩ : ℂ) * yPhase n else -((⟨0, Real.sin θ⟩ : ℂ) * yPhase n))‖ ≤ 10 * A.v := by
    split
    · exact a1
    · rw [neg_sub_neg, norm_sub_rev]; exact a1
  generalize (if n % 2 = 0 then A.mul ⟨0, A.sin θ⟩ (yPhase n) else -A.mul ⟨0, A.sin θ⟩ (yPhase n)) = w2 at a2 ⊢
  generalize (if n % 2 = 0 then (⟨0, Real.sin θ⟩ : ℂ) * yPhase n else -((⟨0, Real.sin θ⟩ : ℂ) * yPhase n)) = q
    at a2 hr hi ⊢
  generalize A.mul ⟨0, A.sin θ⟩ (yPhase n) = w1 at a1 ⊢
  generalize (⟨0, Real.sin θ⟩ : ℂ) * yPhase n = p at a1 hr hi hone ⊢
  generalize (⟨A.cos θ, 0⟩ : ℂ) = w0 at a0 ⊢
  have iso := exp_pair hr hi hone
  generalize Real.cos θ = c at *
  have hiso : ∀ (b : Bool) (e f : ℂ),
      Complex.normSq (e * (⟨c, 0⟩ : ℂ) + f * (if b then -q else q)) +
        Complex.normSq (f * (⟨c, 0⟩ : ℂ) + e * (if b then -p else p)) = Complex.normSq e + Complex.normSq f := by
    intro b e f
    cases b
    · simpa using iso e f
    · have := iso e (-f)
      rw [Complex.normSq_neg f] at this
      rw [← this, ← Complex.normSq_neg (-f * (⟨c, 0⟩ : ℂ) + e * p)]
      simp only [if_true]
      congr 2 <;> ring
  generalize hz0 : (⟨c, 0⟩ : ℂ) = z0 at *
  have b0 : ‖z0‖ ≤ 1 ∧ ‖p‖ ≤ 1 := by
    have := iso 1 0
    simp only [one_mul, zero_mul, add_zero, zero_add, map_one, map_zero] at this
    exact norm_le_one_of this
  have b2 : ‖q‖ ≤ 1 := by
    have := iso 0 1
    simp only [one_mul, zero_mul, add_zero, zero_add, map_one, map_zero] at this
    exact (norm_le_one_of this).1
  have c0 : ‖w0 - z0‖ ≤ 13 * A.v := by linarith
  have sgn : ∀ (b : Bool) {w z : ℂ}, ‖w - z‖ ≤ 10 * A.v → ‖z‖ ≤ 1 →
      ‖(if b then -w else w) - (if b then -z else z)‖ ≤ 13 * A.v ∧ ‖(if b then -z else z)‖ ≤ 1 := by
    intro b w z h1 h2
    cases b
    · simp only [Bool.false_eq_true, if_false]; exact ⟨by linarith, h2⟩
    · simp only [if_true]; rw [neg_sub_neg, norm_sub_rev, norm_neg]; exact ⟨by linarith, h2⟩
  have hmul : ∀ {w z : ℂ}, ‖w - z‖ ≤ 13 * A.v → ‖z‖ ≤ 1 → ‖A.mul e.2 w - e.2 * z‖ ≤ 30 * A.v * (‖e.2‖ + 1) := by
    intro w z h1 h2
    have := mul_err' hf e.2 (by norm_num) h1 h2
    have hn := norm_nonneg e.2
    nlinarith [mul_nonneg hv hn]
  unfold Sim.expEntry Rnd.expEntry
  split
  · simp only
    have flipIf : ∀ x : ℂ, (if oddParity e.1 yz = false then x else -x) = if oddParity e.1 yz then -x else x := by
      intro x; cases oddParity e.1 yz <;> simp
    obtain ⟨s1, s2⟩ := sgn (oddParity e.1 yz) a1 b0.2
    obtain ⟨s3, s4⟩ := sgn (oddParity e.1 yz) a2 b2
    have hi2 := hiso (oddParity e.1 yz) e.2
    cases lookupMap m (e.1 ^^^ xy) with
    | none =>
      simp only [flipIf]
      apply Noise.pass
      refine noise_pair (hmul c0 b0.1) (hmul s1 s2) (sq_le_single ?_)
      have := hi2 0
      simpa using this
    | some f =>
      simp only
      split
      · rw [if_neg (not_nearlyZero_neg _), if_neg (not_nearlyZero_neg _)]
        have d1 := comb_err hf e.2 f c0 b0.1 s3 s4
        have d2 := comb_err hf f e.2 c0 b0.1 s1 s2
        rw [add_comm ‖f‖] at d2
        exact pass_if d1 d2 (sq_le_pair (hi2 f)) (nearlyZero_mono (by linarith)) (nearlyZero_mono (by linarith))
      · exact (noise_refl _).pass
  · exact (noise_refl _).pass

/-- The keys stay distinct and in place, whatever the tolerance. -/
theorem core_exp {m : IMap ℕ} {cs csl : List ℕ} {F : List (Pauli × ℕ)} {mk : ExpMasks}
    (h : MaskOk m cs csl F mk) {l : List (ℕ × ℂ)} (hcore' : Core m l) (hx : mk.xy ≠ 0) (ε : ℝ) (a b c : ℂ) :
    Core m (l.flatMap (Sim.expEntry ε l csl mk.xy mk.yz a b c)) := by
  have hp := pairing_exp h hx
  have hne := hp.ne
  have h2 : ∀ e ∈ l, ∀ k ∈ ((Sim.expEntry ε l csl mk.xy mk.yz a b c e).map Prod.fst),
      k = e.1 ∨ ((csl.all fun c => e.1.testBit c) = true ∧ k = e.1 ^^^ mk.xy) := by
    intro e _ k hk
    unfold Sim.expEntry at hk
    split at hk
    · rename_i hc
      simp only at hk
      split at hk
      · simp only [List.map_cons, List.map_nil, List.mem_cons, List.not_mem_nil, or_false] at hk
        rcases hk with rfl | rfl
        · left; rfl
        · right; exact ⟨hc, rfl⟩
      · split at hk
        · rw [List.map_append, List.mem_append] at hk
          rcases hk with hk | hk
          · left; exact mem_prune hk
          · right; exact ⟨hc, mem_prune hk⟩
        · simp at hk
    · left; simpa using hk
  refine ⟨hcore'.inj, ?_, ?_⟩
  · refine pair_nodup hcore'.nodup _ hp ?_ h2 ?_
    · intro e _
      have hn1 : e.1 ≠ e.1 ^^^ mk.xy := fun hc => hne e.1 hc.symm
      unfold Sim.expEntry
      split
      · simp only
        split
        · simp only [List.map_cons, List.map_nil]
          simp [hn1]
        · split
          · exact nodup_prune hn1
          · simp
      · simp
    · intro e _ w hc hw hr
      have hr' : ¬ e.1 < e.1 ^^^ mk.xy := by simpa using hr
      simp only [Sim.expEntry, hc, if_true, hw, hr', if_false]
  · intro e hm
    obtain ⟨e', he', hm'⟩ := List.mem_flatMap.1 hm
    rcases h2 e' he' e.1 (List.mem_map.2 ⟨e, hm', rfl⟩) with h1 | ⟨_, h1⟩
    · rw [h1]; exact hcore'.bits e' he'
    · rw [h1]
      intro b hb
      rw [Nat.testBit_xor] at hb
      cases hxb : mk.xy.testBit b
      · rw [hxb] at hb; exact hcore'.bits e' he' b (by simpa using hb)
      · obtain ⟨i, _, hi⟩ := h.bits b hxb; exact ⟨i, hi⟩

theorem view_exp_neg {m : IMap ℕ} {cs csl : List ℕ} {F : List (Pauli × ℕ)} {mk : ExpMasks}
    (h : MaskOk m cs csl F mk) (θ : ℝ) {st : List (ℕ × ℂ)} (hcore : Core m st) (hx : mk.xy ≠ 0) (env : Env) :
    view m ((env.shuffle (collectMap st)).flatMap (Sim.expEntry (-1) (env.shuffle (collectMap st)) csl mk.xy mk.yz
      ⟨Real.cos θ, 0⟩ ((⟨0, Real.sin θ⟩ : ℂ) * yPhase mk.yCount)
      (if mk.yCount % 2 = 0 then (⟨0, Real.sin θ⟩ : ℂ) * yPhase mk.yCount
        else -((⟨0, Real.sin θ⟩ : ℂ) * yPhase mk.yCount)))) = expL cs F θ (view m st) := by
  have h0 := (expState_mixed (env := { env with eps := 0 }) rfl h θ hcore hx).2
  rw [← h0]
  unfold Sim.expState
  rw [if_neg hx]
  apply view_drop0
  apply Drop.flatMap
  intro e
  unfold Sim.expEntry
  split
  · simp only
    split
    · exact .refl _ _
    · split
      · refine Drop.append (drop0_if ?_) (drop0_if ?_) <;> exact id
      · exact .refl _ _
  · exact .refl _ _

/-! ### The pure Pauli-Z case -/

theorem diag_err (hf : Fine A) (θ : ℝ) :
    ‖A.add ⟨0, A.sin θ⟩ ⟨A.cos θ, 0⟩ - (⟨0, Real.sin θ⟩ + ⟨Real.cos θ, 0⟩ : ℂ)‖ ≤ 6 * A.v ∧
    ‖A.sub (A.scale ⟨A.cos θ, 0⟩ 2) (A.add ⟨0, A.sin θ⟩ ⟨A.cos θ, 0⟩) -
      (2 * ⟨Real.cos θ, 0⟩ - (⟨0, Real.sin θ⟩ + ⟨Real.cos θ, 0⟩ : ℂ))‖ ≤ 30 * A.v := by
  have hv := A.v_nonneg
  have hs := hf.small
  have hu := A.u_le_v
  have hu0 := A.u_nonneg
  have he := A.eta_le_v
  have he0 := A.eta_nonneg
  have r := re_err A θ
  have i : ‖(⟨0, A.sin θ⟩ : ℂ) - ⟨0, Real.sin θ⟩‖ ≤ A.v := by
    have := norm_le_add_abs ((⟨0, A.sin θ⟩ : ℂ) - ⟨0, Real.sin θ⟩)
    simp only [Complex.sub_re, Complex.sub_im, sub_zero, abs_zero, zero_add] at this
    exact this.trans (A.sin_err θ)
  have n1 : ‖(⟨Real.cos θ, 0⟩ : ℂ)‖ ≤ 1 := by
    have := norm_le_add_abs (⟨Real.cos θ, 0⟩ : ℂ)
    simp only [abs_zero, add_zero] at this
    exact this.trans (Real.abs_cos_le_one θ)
  have n2 : ‖(⟨0, Real.sin θ⟩ : ℂ)‖ ≤ 1 := by rw [norm_im]; exact Real.abs_sin_le_one θ
  generalize (⟨A.cos θ, 0⟩ : ℂ) = c' at *
  generalize (⟨0, A.sin θ⟩ : ℂ) = s' at *
  generalize (⟨Real.cos θ, 0⟩ : ℂ) = c at *
  generalize (⟨0, Real.sin θ⟩ : ℂ) = s at *
  have nc : ‖c'‖ ≤ 1 + A.v := by
    have := norm_add_le (c' - c) c
    rw [sub_add_cancel] at this; linarith
  have ns : ‖s'‖ ≤ 1 + A.v := by
    have := norm_add_le (s' - s) s
    rw [sub_add_cancel] at this; linarith
  have uv : ∀ {x : ℝ}, 0 ≤ x → A.u * x ≤ A.v * x := fun h => mul_le_mul_of_nonneg_right hu h
  have a1 := add_err (A := A) s' c'
  have a2 := norm_add_le s' c'
  have a3 : A.u * ‖s' + c'‖ ≤ A.u * (21 / 10) := mul_le_mul_of_nonneg_left (by linarith) hu0
  have a4 : ‖A.add s' c' - (s' + c')‖ ≤ 21 / 10 * A.u + 2 * A.eta := by linarith
  have a5 : ‖A.add s' c' - (s + c)‖ ≤ 21 / 10 * A.v + 2 * A.v := by
    rw [show A.add s' c' - (s + c) = (A.add s' c' - (s' + c')) + (s' - s) + (c' - c) by ring]
    have := norm_add₃_le (a := A.add s' c' - (s' + c')) (b := s' - s) (c := c' - c)
    unfold Arith.v at *
    linarith
  refine ⟨by linarith, ?_⟩
  have b1 := scale_err (A := A) c' 2
  rw [abs_of_nonneg (by norm_num : (0 : ℝ) ≤ 2)] at b1
  push_cast at b1
  have b2 : A.u * ‖c'‖ ≤ A.u * (11 / 10) := mul_le_mul_of_nonneg_left (by linarith) hu0
  have b3 : ‖A.scale c' 2 - c' * 2‖ ≤ 22 / 10 * A.v + 2 * A.v := by
    refine b1.trans ?_
    nlinarith
  have b4 : ‖A.scale c' 2 - 2 * c‖ ≤ 7 * A.v := by
    rw [show A.scale c' 2 - 2 * c = (A.scale c' 2 - c' * 2) + (c' - c) * 2 by ring]
    have h1 := norm_add_le (A.scale c' 2 - c' * 2) ((c' - c) * 2)
    rw [norm_mul] at h1
    simp only [Complex.norm_ofNat] at h1
    linarith
  generalize A.add s' c' = p' at *
  generalize A.scale c' 2 = d' at *
  have b5 := sub_err (A := A) d' p'
  have b6 : ‖d' - p' - (2 * c - (s + c))‖ ≤ 12 * A.v := by
    rw [show d' - p' - (2 * c - (s + c)) = (d' - 2 * c) - (p' - (s + c)) by ring]
    have := norm_sub_le (d' - 2 * c) (p' - (s + c))
    linarith
  have b7 : ‖d' - p'‖ ≤ 3 := by
    have h1 := norm_add_le (d' - p' - (2 * c - (s + c))) (2 * c - (s + c))
    rw [sub_add_cancel, show 2 * c - (s + c) = c - s by ring] at h1
    have h2 := norm_sub_le c s
    rw [show 2 * c - (s + c) = c - s by ring] at b6
    linarith
  have b8 : A.u * ‖d' - p'‖ ≤ A.u * 3 := mul_le_mul_of_nonneg_left b7 hu0
  have := norm_add_le (A.sub d' p' - (d' - p')) (d' - p' - (2 * c - (s + c)))
  rw [sub_add_sub_cancel] at this
  linarith

theorem norm_diag (θ : ℝ) : ‖(⟨0, Real.sin θ⟩ + ⟨Real.cos θ, 0⟩ : ℂ)‖ = 1 ∧
    ‖(2 * ⟨Real.cos θ, 0⟩ - (⟨0, Real.sin θ⟩ + ⟨Real.cos θ, 0⟩) : ℂ)‖ = 1 := by
  have h0 := Real.sin_sq_add_cos_sq θ
  have key : ∀ z : ℂ, Complex.normSq z = 1 → ‖z‖ = 1 := by
    intro z h
    rw [Complex.normSq_eq_norm_sq] at h
    nlinarith [norm_nonneg z]
  constructor
  · apply key
    rw [Complex.normSq_apply]
    simp only [Complex.add_re, Complex.add_im, zero_add, add_zero]
    linarith
  · apply key
    rw [Complex.normSq_apply]
    simp only [Complex.add_re, Complex.add_im, zero_add, add_zero, Complex.sub_re, Complex.sub_im,
      Complex.mul_re, Complex.mul_im, Complex.re_ofNat, Complex.im_ofNat, zero_mul, mul_zero, sub_zero, zero_sub]
    linarith

theorem not_nearlyZero_of (hf : Fine A) {w z : ℂ} (h : ‖w - z‖ ≤ 30 * A.v) (hz : ‖z‖ = 1) : ¬ NearlyZero A.eps w := by
  intro h1
  have h2 := normSq_le_of_nearlyZero h1
  rw [Complex.normSq_eq_norm_sq] at h2
  have h3 := norm_sub_norm_le z w
  rw [norm_sub_rev] at h3
  have h4 := hf.small
  have h5 := hf.pos
  have h6 := hf.le
  nlinarith

theorem diag_reach (hf : Fine A) {m : IMap ℕ} {cs csl : List ℕ} {F : List (Pauli × ℕ)} {mk : ExpMasks}
    (h : MaskOk m cs csl F mk) (θ : ℝ) {st : List (ℕ × ℂ)} (hcore : Core m st) (hx : mk.xy = 0) :
    Core m (Rnd.expState A csl mk θ st) ∧
      Reach A m.keys.length 1 (view m (Rnd.expState A csl mk θ st)) (expL cs F θ (view m st)) := by
  have h0 := expState_diag (env := { A.toEnv with eps := 0 }) rfl h θ hcore hx
  rw [← h0.2]
  obtain ⟨e1, e2⟩ := diag_err hf θ
  obtain ⟨n1, n2⟩ := norm_diag θ
  have hv := A.v_nonneg
  have e1' := e1.trans (show 6 * A.v ≤ 30 * A.v by linarith)
  have z1 : ¬ NearlyZero 0 (⟨0, Real.sin θ⟩ + ⟨Real.cos θ, 0⟩ : ℂ) := by
    rw [nearlyZero_zero]; intro h; rw [h] at n1; simp at n1
  have z2 : ¬ NearlyZero 0 (2 * ⟨Real.cos θ, 0⟩ - (⟨0, Real.sin θ⟩ + ⟨Real.cos θ, 0⟩) : ℂ) := by
    rw [nearlyZero_zero]; intro h; rw [h] at n2; simp at n2
  have hc := h0.1
  unfold Sim.expState at hc
  unfold Rnd.expState Sim.expState
  rw [if_pos hx] at hc
  rw [if_pos hx, if_pos hx]
  unfold Sim.expDiag at hc
  unfold Rnd.expDiag Sim.expDiag
  simp only at hc ⊢
  rw [if_neg z1, if_neg z2] at hc ⊢
  rw [if_neg (not_nearlyZero_of hf e1' n1), if_neg (not_nearlyZero_of hf e2 n2)]
  refine noise_reach hf (Noise.map ?_) hc
  intro e _
  split
  · split
    · exact noise_mul hf e1' n1
    · exact noise_mul hf e2 n2
  · exact noise_refl _

theorem expState_reach (hf : Fine A) {m : IMap ℕ} {cs csl : List ℕ} {F : List (Pauli × ℕ)} {mk : ExpMasks}
    (h : MaskOk m cs csl F mk) (θ : ℝ) {st : List (ℕ × ℂ)} (hcore : Core m st) :
    Core m (Rnd.expState A csl mk θ st) ∧
      Reach A m.keys.length 1 (view m (Rnd.expState A csl mk θ st)) (expL cs F θ (view m st)) := by
  by_cases hx : mk.xy = 0
  · exact diag_reach hf h θ hcore hx
  · rw [← view_exp_neg h θ hcore hx A.toEnv]
    unfold Rnd.expState
    rw [if_neg hx]
    exact (Pass.flatMap (fun e _ => pass_exp hf _ _ _ _ _ _ e)).reach hf
      (core_exp h (hcore.shuffled A.toEnv) hx _ _ _ _)

theorem mcexp_step (hf : Fine A) {s : Sim} (hw : Qir.WF s) {cs ts : List ℕ}
    {ps : List MPauli} (θ : ℝ) (hn : (cs ++ ts).Nodup) (ha : Alloc s.idMap (cs ++ ts))
    (hlen : ps.length ≤ ts.length) :
    ∃ s', Rnd.mcexp A cs ps θ ts s = .ok s' ∧
      Step A s s' (expL cs (factors ps ts) θ) (5 * (cs ++ ts).length + 1) := by
  unfold Rnd.mcexp
  obtain ⟨s1, h1, hs1, hc1, _⟩ := flushQueue_spec hf .HRxRy cs hw
  obtain ⟨s2, h2, hs2, hc2, ho2⟩ := flushQueue_spec hf .HRxRy ts hs1.wf
  have hs := hs1.trans hs2 hf
  obtain ⟨csl, hcs⟩ := resolveIds_ok (m := s.idMap) (ids := cs) (fun i hi => ha i (by simp [hi]))
  obtain ⟨tsl, hts⟩ := resolveIds_ok (m := s.idMap) (ids := ts) (fun i hi => ha i (by simp [hi]))
  have hcs' := resolveIds_eq_ok.1 hcs
  have hts' := resolveIds_eq_ok.1 hts
  have hinj : Inj s.idMap := hw.b.core.inj
  have hnl : (csl ++ tsl).Nodup := locs_nodup hinj (List.rel_append hcs' hts') hn
  have hsub := factors_snd_sublist ps ts
  have hnod := List.nodup_append.1 hn
  obtain ⟨mk, hmk, hx, hz, hy⟩ := expMasks_spec ps tsl { xy := 0, yz := 0, yCount := 0 }
    (by rw [← hts'.length_eq]; exact hlen)
  have hok : MaskOk s.idMap cs csl (factors ps ts) mk := by
    refine ⟨hinj, hcs', hsub.nodup hnod.2.1, ?_, ?_, ?_, ?_, ?_⟩
    · intro c hc hc2
      exact hnod.2.2 c hc c (hsub.mem hc2) rfl
    · exact idBits_xor hinj (factors_forall₂ hts' ps isXY) (by intro l; rw [hx]; simp only [Nat.zero_testBit, Bool.false_or]; rfl)
    · intro k
      have hff := factors_forall₂ hts' ps isYZ
      have hyz : mk.yz = locMask (yzOf (factors ps tsl)) := by
        apply Nat.eq_of_testBit_eq
        intro l
        rw [hz, testBit_locMask]; simp
      rw [hyz]
      apply oddParity_eq hinj hff
      exact ((List.filter_sublist).map _).nodup (hsub.nodup hnod.2.1)
    · rw [hy, yOf_congr hts'.length_eq]; simp
    · intro l hl
      rw [hx] at hl
      simp only [Nat.zero_testBit, Bool.false_or, decide_eq_true_eq] at hl
      have hff := factors_forall₂ hts' ps isXY
      have hex : ∀ {ids locs : List ℕ}, List.Forall₂ (fun i l => s.idMap.get i = some l) ids locs →
          l ∈ locs → ∃ i ∈ ids, s.idMap.get i = some l := by
        intro ids locs h
        induction h with
        | nil => simp
        | cons h1 _ ih =>
          intro hm
          rcases List.mem_cons.1 hm with rfl | hm
          · exact ⟨_, by simp, h1⟩
          · obtain ⟨i, hi, hg⟩ := ih hm
            exact ⟨i, by simp [hi], hg⟩
      obtain ⟨i, hi, hg⟩ := hex hff hl
      refine ⟨i, ?_, hg⟩
      intro hc
      exact hnod.2.2 i hc i (hsub.mem (mem_xyOf_snd hi)) rfl
  have hid := hs.idMap
  simp only [h1, ok_bind, h2, pure_ok]
  rw [show resolveIds s2.idMap cs = .ok csl from by rw [hid]; exact hcs,
    show resolveIds s2.idMap ts = .ok tsl from by rw [hid]; exact hts]
  simp only [ok_bind, expCheckDup_eq, if_pos hnl, hmk]
  rw [← hid] at hok
  obtain ⟨hst1, hst2⟩ := expState_reach hf hok θ hs2.wf.b.core
  have hiso : Iso (expL cs (factors ps ts) θ) := iso_exp (hsub.nodup hnod.2.1)
    (fun c hc hm => hnod.2.2 c hc c (hsub.mem hm) rfl) θ
  have hbase : base s2 = view s2.idMap s2.state := by unfold base; rw [ho2]; rfl
  refine ⟨_, rfl, Step.after hf hiso hs (Step.one (d := 1) ⟨⟨hst1, hs2.wf.b.ops⟩, hs2.wf.queued⟩ ?_ ?_ ?_)
    (by simp only [List.length_append]; omega)⟩
  · rfl
  · rfl
  have hp1 : ∀ q, q ∈ cs ∨ q ∈ ts → pend A s2 q = 1 := by
    rintro q (hq | hq)
    · exact pend_of_not_queued (hc2.mono_queued (hc1.not_queued hq))
    · exact pend_of_not_queued (hc2.not_queued hq)
  have hcomm : expL cs (factors ps ts) θ (abs A s2) =
      pendL (pend A s2) s2.idMap.keys (expL cs (factors ps ts) θ (view s2.idMap s2.state)) := by
    unfold abs
    rw [hbase, ← Module.End.mul_apply, ← Module.End.mul_apply, comm_pendL]
    intro q _
    by_cases hq : q ∈ cs ∨ q ∈ ts
    · rw [hp1 q hq, gateL_one, one_mul, mul_one]
    · rw [not_or] at hq
      exact expL_comm_gateL hq.1 (fun h => hq.2 (hsub.mem h)) θ _
  rw [hcomm]
  have := hst2.map (iso_pend (A := A) s2)
  refine ⟨1, by simp only [ho2]; omega, ?_⟩
  refine (Eq.mpr ?_ this)
  congr 1
  unfold abs base
  simp only [ho2]
  rfl

end Qir.Rnd
