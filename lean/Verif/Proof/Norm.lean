import Verif.Proof.Wave
import Verif.Proof.Pair
import Mathlib.Algebra.BigOperators.Finprod
import Mathlib.Data.Set.Finite.Lattice

/-! Probabilities: finite support, invariance under unitary gates, and the value on sparse states. -/

noncomputable section
namespace Qir
open Spec Function

/-- Finitely many basis states have an amplitude. -/
def FinSupp (ψ : Wave) : Prop := (support ψ).Finite

/-- The total squared amplitude of the basis states satisfying `P`. -/
def sumIf (P : Basis → Prop) [DecidablePred P] (ψ : Wave) : ℝ :=
  ∑ᶠ b, if P b then Complex.normSq (ψ b) else 0

theorem finite_sumIf {P : Basis → Prop} [DecidablePred P] {ψ : Wave} (h : FinSupp ψ) :
    (support fun b => if P b then Complex.normSq (ψ b) else 0).Finite := by
  refine h.subset ?_
  intro b hb
  simp only [mem_support] at hb ⊢
  intro h0
  apply hb
  simp [h0]

/-- Flipping one qubit of a basis state. -/
def flipAt (q : ℕ) : Basis ≃ Basis where
  toFun b := update b q (!b q)
  invFun b := update b q (!b q)
  left_inv b := by simp
  right_inv b := by simp

theorem flipAt_apply (q : ℕ) (b : Basis) : flipAt q b = update b q (!b q) := rfl

/-- A matrix that preserves lengths. -/
def Isom (U : Mat2) : Prop := ∀ x y : ℂ,
  Complex.normSq (U false false * x + U false true * y) +
    Complex.normSq (U true false * x + U true true * y) = Complex.normSq x + Complex.normSq y

theorem FinSupp.ctrl {ψ : Wave} (h : FinSupp ψ) (cs : List ℕ) (U : Mat2) (q : ℕ) :
    FinSupp (ctrl cs U q ψ) := by
  have h2 : (support ψ ∪ (flipAt q) '' support ψ).Finite := h.union (h.image _)
  refine h2.subset ?_
  intro b hb
  by_contra hc
  simp only [Set.mem_union, Set.mem_image, mem_support, not_or, not_exists, not_and, ne_eq,
    not_not] at hc
  apply hb
  have h1 : ψ b = 0 := hc.1
  have h3 : ψ (flipAt q b) = 0 := by
    by_contra h0
    exact hc.2 (flipAt q b) h0 ((flipAt q).left_inv b)
  have h4 : ψ (update b q false) = 0 ∧ ψ (update b q true) = 0 := by
    rw [flipAt_apply] at h3
    have hself : ∀ v, b q = v → update b q v = b := fun v hv => by rw [← hv]; exact update_eq_self _ _
    cases hbq : b q
    · rw [hbq] at h3; exact ⟨by rw [hself _ hbq]; exact h1, h3⟩
    · rw [hbq] at h3; exact ⟨h3, by rw [hself _ hbq]; exact h1⟩
  simp [Spec.ctrl, h4.1, h4.2, h1]

theorem FinSupp.smul {ψ : Wave} (h : FinSupp ψ) (c : ℂ) : FinSupp (c • ψ) := by
  refine h.subset ?_
  intro b hb h0
  apply hb
  simp [h0]

theorem FinSupp.add {ψ φ : Wave} (h : FinSupp ψ) (h' : FinSupp φ) : FinSupp (ψ + φ) :=
  (h.union h').subset (support_add _ _)

theorem finSupp_zero : FinSupp 0 := by simp [FinSupp]

theorem finSupp_ket (b : Basis) : FinSupp (ket b) := by
  refine (Set.finite_singleton b).subset ?_
  intro b' hb'
  by_contra h
  apply hb'
  simp only [Set.mem_singleton_iff] at h
  simp [ket, h]

theorem finSupp_view (m : IMap ℕ) (st : List (ℕ × ℂ)) : FinSupp (view m st) := by
  induction st with
  | nil => simpa using finSupp_zero
  | cons e st ih => rw [view_cons]; exact ((finSupp_ket _).smul _).add ih

theorem FinSupp.pendL {ψ : Wave} (h : FinSupp ψ) (P : ℕ → Mat2) (L : List ℕ) :
    FinSupp (pendL P L ψ) := by
  induction L with
  | nil => simpa using h
  | cons q L ih => rw [pendL_cons, Module.End.mul_apply]; exact ih.ctrl [] (P q) q

theorem FinSupp.opsL {ψ : Wave} (h : FinSupp ψ) (ops : List (List ℕ × ℕ × OpCode)) :
    FinSupp (opsL ops ψ) := by
  induction ops generalizing ψ with
  | nil => simpa [Qir.opsL] using h
  | cons op ops ih => rw [opsL_cons, Module.End.mul_apply]; exact ih (h.ctrl _ _ _)

/-- A unitary on `q` leaves every probability alone that does not look at `q`. -/
theorem sumIf_ctrl {P : Basis → Prop} [DecidablePred P] {ψ : Wave} (h : FinSupp ψ) {cs : List ℕ}
    {U : Mat2} (hU : Isom U) {q : ℕ} (hq : q ∉ cs) (hP : ∀ b v, P (update b q v) ↔ P b) :
    sumIf P (ctrl cs U q ψ) = sumIf P ψ := by
  have key : ∀ φ : Wave, FinSupp φ → sumIf P φ + sumIf P φ =
      ∑ᶠ b, ((if P b then Complex.normSq (φ b) else 0) +
        (if P (flipAt q b) then Complex.normSq (φ (flipAt q b)) else 0)) := by
    intro φ hφ
    rw [finsum_add_distrib (finite_sumIf hφ)]
    · congr 1
      exact (finsum_comp_equiv (flipAt q) (f := fun b => if P b then Complex.normSq (φ b) else 0)).symm
    · have := (finite_sumIf (P := P) hφ).preimage ((flipAt q).injective.injOn)
      exact this
  have h1 := key _ (h.ctrl cs U q)
  have h2 := key _ h
  have h3 : ∀ b, ((if P b then Complex.normSq (ctrl cs U q ψ b) else 0) +
        (if P (flipAt q b) then Complex.normSq (ctrl cs U q ψ (flipAt q b)) else 0)) =
      ((if P b then Complex.normSq (ψ b) else 0) +
        (if P (flipAt q b) then Complex.normSq (ψ (flipAt q b)) else 0)) := by
    intro b
    rw [flipAt_apply]
    by_cases hb : P b
    · rw [if_pos hb, if_pos ((hP _ _).2 hb), if_pos hb, if_pos ((hP _ _).2 hb)]
      unfold ctrl
      by_cases hc : ∀ c ∈ cs, b c = true
      · rw [if_pos hc, if_pos ((ctrls_update hq b _).2 hc)]
        simp only [update_self, update_idem]
        have hself : ∀ v, b q = v → update b q v = b := fun v hv => by
          rw [← hv]; exact update_eq_self _ _
        have := hU (ψ (update b q false)) (ψ (update b q true))
        cases hbq : b q
        · rw [hself _ hbq] at this ⊢; exact this
        · rw [hself _ hbq] at this ⊢
          simp only [Bool.not_true]
          linarith
      · rw [if_neg hc, if_neg (fun h => hc ((ctrls_update hq b _).1 h))]
    · rw [if_neg hb, if_neg (fun h => hb ((hP _ _).1 h)), if_neg hb,
        if_neg (fun h => hb ((hP _ _).1 h))]
  have h4 : sumIf P (ctrl cs U q ψ) + sumIf P (ctrl cs U q ψ) = sumIf P ψ + sumIf P ψ := by
    rw [h1, h2]; exact finsum_congr h3
  linarith

theorem sumIf_smul (P : Basis → Prop) [DecidablePred P] (c : ℂ) (ψ : Wave) :
    sumIf P (c • ψ) = Complex.normSq c * sumIf P ψ := by
  unfold sumIf
  rw [← smul_eq_mul, smul_finsum]
  apply finsum_congr
  intro b
  split <;> simp [Complex.normSq_mul]

theorem view_apply_of_not_mem {m : IMap ℕ} {st : List (ℕ × ℂ)} {b : Basis}
    (h : ∀ e ∈ st, idBits m e.1 ≠ b) : view m st b = 0 := by
  induction st with
  | nil => rfl
  | cons e st ih =>
    rw [view_cons, Pi.add_apply, ih (fun e he => h e (List.mem_cons_of_mem _ he))]
    have : b ≠ idBits m e.1 := fun hh => h e (by simp) hh.symm
    simp [entryWave, ket, this]

theorem idBits_inj {m : IMap ℕ} {k k' : ℕ} (hk : BitsIn m k) (hk' : BitsIn m k')
    (h : idBits m k = idBits m k') : k = k' := by
  apply Nat.eq_of_testBit_eq
  intro l
  have aux : ∀ {k k' : ℕ}, BitsIn m k → idBits m k = idBits m k' → k.testBit l = true →
      k'.testBit l = true := by
    intro k k' hk h hl
    obtain ⟨i, hi⟩ := hk l hl
    have := congrFun h i
    rw [idBits_of hi, idBits_of hi] at this
    rw [← this, hl]
  rw [Bool.eq_iff_iff]
  exact ⟨aux hk h, aux hk' h.symm⟩

open Classical in
theorem sumIf_view (P : Basis → Prop) [DecidablePred P] {m : IMap ℕ} {st : List (ℕ × ℂ)}
    (h : Core m st) : sumIf P (view m st) =
      (st.map (fun e => if P (idBits m e.1) then Complex.normSq e.2 else 0)).sum := by
  induction st with
  | nil => simp [sumIf]
  | cons e st ih =>
    have hn := h.nodup
    rw [List.map_cons, List.nodup_cons] at hn
    have hc : Core m st := ⟨h.inj, hn.2, fun e he => h.bits e (List.mem_cons_of_mem _ he)⟩
    have hv : view m st (idBits m e.1) = 0 := by
      apply view_apply_of_not_mem
      intro e' he' heq
      apply hn.1
      rw [← idBits_inj (hc.bits e' he') (h.bits e (by simp)) heq]
      exact List.mem_map.2 ⟨e', he', rfl⟩
    rw [List.map_cons, List.sum_cons, ← ih hc]
    have hsplit : ∀ b, (if P b then Complex.normSq (view m (e :: st) b) else 0) =
        (if b = idBits m e.1 then (if P (idBits m e.1) then Complex.normSq e.2 else 0) else 0) +
          (if P b then Complex.normSq (view m st b) else 0) := by
      intro b
      rw [view_cons, Pi.add_apply]
      by_cases hb : b = idBits m e.1
      · subst hb
        simp [entryWave, ket, hv]
      · simp [entryWave, ket, hb]
    unfold sumIf
    rw [finsum_congr hsplit, finsum_add_distrib]
    · congr 1
      rw [finsum_eq_single _ (idBits m e.1) (by intro b hb; simp [hb])]
      simp
    · refine (Set.finite_singleton (idBits m e.1)).subset ?_
      intro b hb
      by_contra hne
      simp only [Set.mem_singleton_iff] at hne
      apply hb
      simp [hne]
    · exact finite_sumIf (finSupp_view m st)

theorem sumIf_pendL {P : Basis → Prop} [DecidablePred P] {ψ : Wave} (h : FinSupp ψ) {Q : ℕ → Mat2}
    (L : List ℕ) (hQ : ∀ q, Isom (Q q)) (hP : ∀ q b v, Q q = 1 ∨ (P (update b q v) ↔ P b)) :
    sumIf P (pendL Q L ψ) = sumIf P ψ := by
  induction L with
  | nil => rfl
  | cons q L ih =>
    rw [pendL_cons, Module.End.mul_apply, ← ih]
    by_cases hq : Q q = 1
    · rw [hq, gateL_one]; rfl
    · have h' : ∀ b v, P (update b q v) ↔ P b := fun b v => (hP q b v).resolve_left hq
      exact sumIf_ctrl (h.pendL _ _) (hQ q) (by simp) h'

/-! ### The specification's quantities -/

theorem prob_eq (qs : List ℕ) (v : Bool) (ψ : Wave) :
    prob qs v ψ = sumIf (fun b => parity qs b = v) ψ := rfl

theorem normSq_eq (ψ : Wave) : Spec.normSq ψ = sumIf (fun _ => True) ψ := by
  simp [Spec.normSq, sumIf]

theorem prob_add {ψ : Wave} (h : FinSupp ψ) (qs : List ℕ) :
    prob qs true ψ + prob qs false ψ = Spec.normSq ψ := by
  rw [prob_eq, prob_eq, normSq_eq]
  unfold sumIf
  rw [← finsum_add_distrib (finite_sumIf h) (finite_sumIf h)]
  apply finsum_congr
  intro b
  cases parity qs b <;> simp

theorem sumIf_nonneg (P : Basis → Prop) [DecidablePred P] (ψ : Wave) : 0 ≤ sumIf P ψ := by
  apply finsum_nonneg
  intro b
  split
  · exact Complex.normSq_nonneg _
  · exact le_rfl

theorem parity_update {qs : List ℕ} {q : ℕ} (h : q ∉ qs) (b : Basis) (v : Bool) :
    parity qs (update b q v) = parity qs b := by
  induction qs with
  | nil => rfl
  | cons a qs ih =>
    simp only [List.mem_cons, not_or] at h
    have := ih h.2
    unfold parity at this ⊢
    rw [List.foldr_cons, List.foldr_cons, this, update_of_ne (Ne.symm h.1)]

/-! ### Length-preserving matrices -/

theorem isom_one : Isom 1 := by intro x y; simp

theorem Isom.mul {U V : Mat2} (hU : Isom U) (hV : Isom V) : Isom (U * V) := by
  intro x y
  have h1 := hU (V false false * x + V false true * y) (V true false * x + V true true * y)
  have h2 := hV x y
  rw [← h2, ← h1]
  simp only [Matrix.mul_apply, Fintype.sum_bool]
  congr 2 <;> ring

theorem isom_diag {a d : ℂ} (ha : Complex.normSq a = 1) (hd : Complex.normSq d = 1) :
    Isom (mat a 0 0 d) := by
  intro x y
  simp [mat, Complex.normSq_mul, ha, hd]

theorem isom_X : Isom matX := by intro x y; simp [matX, mat]; ring
theorem isom_Y : Isom matY := by
  intro x y; simp [matY, mat, Complex.normSq_mul, Complex.normSq_neg]; ring
theorem isom_Z : Isom matZ := isom_diag (by simp) (by simp)

theorem isom_H : Isom matH := by
  intro x y
  have hs : (1 / Real.sqrt 2) ^ 2 = (1 / 2 : ℝ) := by
    rw [div_pow, Real.sq_sqrt (by norm_num)]; norm_num
  simp only [matH, mat, Complex.normSq_apply, Complex.add_re, Complex.add_im, Complex.mul_re,
    Complex.mul_im, Complex.ofReal_re, Complex.ofReal_im, Complex.neg_re, Complex.neg_im,
    Bool.false_eq_true, if_true, if_false, zero_mul, sub_zero, add_zero, neg_zero, zero_add]
  generalize 1 / Real.sqrt 2 = a at hs ⊢
  linear_combination 2 * (x.re ^ 2 + x.im ^ 2 + y.re ^ 2 + y.im ^ 2) * hs

theorem isom_Rx (θ : ℝ) : Isom (matRx θ) := by
  intro x y
  have hs := Real.sin_sq_add_cos_sq (θ / 2)
  simp only [matRx, mat, Complex.normSq_apply, Complex.add_re, Complex.add_im, Complex.mul_re,
    Complex.mul_im, Complex.ofReal_re, Complex.ofReal_im, Complex.neg_re, Complex.neg_im,
    Complex.I_re, Complex.I_im,
    Bool.false_eq_true, if_true, if_false, zero_mul, sub_zero, add_zero, neg_zero, zero_add]
  generalize Real.sin (θ / 2) = a at hs ⊢
  generalize Real.cos (θ / 2) = b at hs ⊢
  linear_combination (x.re ^ 2 + x.im ^ 2 + y.re ^ 2 + y.im ^ 2) * hs

theorem isom_Ry (θ : ℝ) : Isom (matRy θ) := by
  intro x y
  have hs := Real.sin_sq_add_cos_sq (θ / 2)
  simp only [matRy, mat, Complex.normSq_apply, Complex.add_re, Complex.add_im, Complex.mul_re,
    Complex.mul_im, Complex.ofReal_re, Complex.ofReal_im, Complex.neg_re, Complex.neg_im,
    Bool.false_eq_true, if_true, if_false, zero_mul, sub_zero, add_zero, neg_zero, zero_add]
  generalize Real.sin (θ / 2) = a at hs ⊢
  generalize Real.cos (θ / 2) = b at hs ⊢
  linear_combination (x.re ^ 2 + x.im ^ 2 + y.re ^ 2 + y.im ^ 2) * hs

theorem normSq_exp_I (θ : ℝ) : Complex.normSq (Complex.exp (Complex.I * θ)) = 1 := by
  rw [mul_comm, Complex.normSq_eq_norm_sq, Complex.norm_exp_ofReal_mul_I]; norm_num

theorem isom_Rz (θ : ℝ) : Isom (matRz θ) := by
  apply isom_diag
  · have := normSq_exp_I (-(θ / 2)); push_cast at this; rw [mul_neg] at this; exact this
  · have := normSq_exp_I (θ / 2); push_cast at this; exact this

theorem isom_phase {φ : ℂ} (h : Complex.normSq φ = 1) : Isom (matPhase φ) := isom_diag (by simp) h

theorem isom_S : Isom matS := isom_phase (by simp)
theorem isom_Sadj : Isom matSadj := isom_phase (by simp)
theorem isom_T : Isom matT := isom_phase (by
  have := normSq_exp_I (Real.pi / 4); push_cast at this; exact this)
theorem isom_Tadj : Isom matTadj := isom_phase (by
  have := normSq_exp_I (-(Real.pi / 4)); push_cast at this; rw [mul_neg] at this; exact this)

end Qir
