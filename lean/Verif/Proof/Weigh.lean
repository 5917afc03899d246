import Verif.Proof.RndTrack

/-!
# How the probability of an outcome depends on the state vector

From a state vector `ψ` of length one, the probability that a program ends with a given outcome is a quadratic
function of `ψ`.  A computed state vector is not of length one; this function is still defined for it, and does not
change much when the vector does not change much.
-/

noncomputable section
namespace Qir.Rnd
open Spec Sim Tol

/-- A quadratic function of state vectors between zero and the square of the length. -/
structure Weight (F : Wave → ℝ) : Prop where
  smul : ∀ (c : ℂ) (ψ : Wave), F (c • ψ) = Complex.normSq c * F ψ
  nonneg : ∀ {ψ : Wave}, FinSupp ψ → 0 ≤ F ψ
  le : ∀ {ψ : Wave}, FinSupp ψ → F ψ ≤ Spec.normSq ψ
  lip : ∀ {χ χ' : Wave}, FinSupp χ → FinSupp χ' → |F χ - F χ'| ≤ len (χ - χ') * (len χ + len χ')

theorem len_comm (χ χ' : Wave) : len (χ - χ') = len (χ' - χ) := by rw [← len_neg, neg_sub]

theorem len_diff {χ χ' : Wave} (h : FinSupp χ) (h' : FinSupp χ') : |len χ - len χ'| ≤ len (χ - χ') := by
  have h1 := len_add (finSupp_sub h h') h'
  have h2 := len_add (finSupp_sub h' h) h
  rw [sub_add_cancel] at h1 h2
  rw [abs_le, len_comm χ χ'] at *
  constructor <;> linarith

theorem normSq_diff {χ χ' : Wave} (h : FinSupp χ) (h' : FinSupp χ') :
    |Spec.normSq χ - Spec.normSq χ'| ≤ len (χ - χ') * (len χ + len χ') := by
  rw [← len_sq, ← len_sq, sq_sub_sq, abs_mul, mul_comm,
    abs_of_nonneg (add_nonneg (len_nonneg _) (len_nonneg _))]
  exact mul_le_mul_of_nonneg_right (len_diff h h') (add_nonneg (len_nonneg _) (len_nonneg _))

/-- A program that ends without looking at the state. -/
theorem Weight.const {c : ℝ} (h0 : 0 ≤ c) (h1 : c ≤ 1) : Weight fun ψ => Spec.normSq ψ * c := by
  refine ⟨fun a ψ => ?_, fun {ψ} _ => mul_nonneg (normSq_nonneg ψ) h0, fun {ψ} _ => ?_, fun {χ χ'} h h' => ?_⟩
  · rw [Tol.normSq_smul, mul_assoc]
  · exact mul_le_of_le_one_right (normSq_nonneg ψ) h1
  · rw [← sub_mul, abs_mul, abs_of_nonneg h0]
    exact (mul_le_of_le_one_right (abs_nonneg _) h1).trans (normSq_diff h h')

/-- First a gate. -/
theorem Weight.comp {F : Wave → ℝ} (hF : Weight F) {U : Module.End ℂ Wave} (hU : Iso U) : Weight fun ψ => F (U ψ) := by
  refine ⟨fun a ψ => ?_, fun h => hF.nonneg (hU.fin h), fun {ψ} h => ?_, fun {χ χ'} h h' => ?_⟩
  · rw [map_smul, hF.smul]
  · refine (hF.le (hU.fin h)).trans ?_
    rw [← len_sq, ← len_sq, hU.len h]
  · have := hF.lip (hU.fin h) (hU.fin h')
    rwa [← map_sub, hU.len (finSupp_sub h h'), hU.len h, hU.len h'] at this

theorem proj_sub (qs : List ℕ) (v : Bool) (χ χ' : Wave) : proj qs v (χ - χ') = proj qs v χ - proj qs v χ' :=
  (projL qs v).map_sub χ χ'

theorem cauchy {a b x y X Y : ℝ} (hX : 0 ≤ X) (hY : 0 ≤ Y) (h1 : a ^ 2 + b ^ 2 = X ^ 2) (h2 : x ^ 2 + y ^ 2 = Y ^ 2) :
    a * x + b * y ≤ X * Y := by
  apply le_of_sq_le_sq _ (mul_nonneg hX hY)
  nlinarith [sq_nonneg (a * y - b * x)]

theorem len_split {ψ : Wave} (h : FinSupp ψ) (qs : List ℕ) :
    len (proj qs true ψ) ^ 2 + len (proj qs false ψ) ^ 2 = len ψ ^ 2 := by
  rw [len_sq, len_sq, len_sq, normSq_proj, normSq_proj, prob_add h]

/-- First a measurement. -/
theorem Weight.split {F G : Wave → ℝ} (hF : Weight F) (hG : Weight G) (qs : List ℕ) :
    Weight fun ψ => F (proj qs true ψ) + G (proj qs false ψ) := by
  refine ⟨fun a ψ => ?_, fun {ψ} h => ?_, fun {ψ} h => ?_, fun {χ χ'} h h' => ?_⟩
  · rw [proj_smul, proj_smul, hF.smul, hG.smul, mul_add]
  · exact add_nonneg (hF.nonneg (h.proj qs true)) (hG.nonneg (h.proj qs false))
  · have h1 := hF.le (h.proj qs true)
    have h2 := hG.le (h.proj qs false)
    rw [normSq_proj] at h1 h2
    have := prob_add h qs
    linarith
  · have h1 := hF.lip (h.proj qs true) (h'.proj qs true)
    have h2 := hG.lip (h.proj qs false) (h'.proj qs false)
    rw [← proj_sub] at h1 h2
    have hd := len_split (finSupp_sub h h') qs
    have c1 := cauchy (len_nonneg _) (len_nonneg _) hd (len_split h qs)
    have c2 := cauchy (len_nonneg _) (len_nonneg _) hd (len_split h' qs)
    have e : F (proj qs true χ) + G (proj qs false χ) - (F (proj qs true χ') + G (proj qs false χ')) =
        (F (proj qs true χ) - F (proj qs true χ')) + (G (proj qs false χ) - G (proj qs false χ')) := by ring
    rw [e]
    refine (abs_add_le _ _).trans ?_
    nlinarith

/-! ### One step -/

/-- How far the length is from one. -/
def off (ψ : Wave) : ℝ := |Spec.normSq ψ - 1|

theorem off_nonneg (ψ : Wave) : 0 ≤ off ψ := abs_nonneg _

theorem Weight.far {F : Wave → ℝ} (hF : Weight F) {ψ : Wave} (h : FinSupp ψ) {L : ℝ} (h0 : 0 ≤ L) (h1 : L ≤ 1) :
    |L - F ψ| ≤ 1 + off ψ := by
  have h2 := hF.nonneg h
  have h3 := hF.le h
  have h4 := le_abs_self (Spec.normSq ψ - 1)
  have h5 := off_nonneg ψ
  unfold off at *
  rw [abs_le]
  constructor <;> linarith

theorem Weight.unit {F : Wave → ℝ} (hF : Weight F) {ψ : Wave} {e : ℂ} (he : ‖e‖ = 1) :
    F (e • ψ) = F ψ := by
  rw [hF.smul, Complex.normSq_eq_norm_sq, he]; norm_num

theorem off_unit {ψ : Wave} {e : ℂ} (he : ‖e‖ = 1) : off (e • ψ) = off ψ := by
  unfold off
  rw [Tol.normSq_smul, Complex.normSq_eq_norm_sq, he]; norm_num

theorem off_iso {U : Module.End ℂ Wave} (hU : Iso U) {ψ : Wave} (h : FinSupp ψ) : off (U ψ) = off ψ := by
  unfold off
  rw [← len_sq, ← len_sq, hU.len h]

/-- Two close vectors. -/
theorem Weight.close {F : Wave → ℝ} (hF : Weight F) {d : ℝ} {χ χ' : Wave} (hn : Near d χ χ') (hl : len χ' + d ≤ 3 / 2) :
    |F χ - F χ'| ≤ 3 * d ∧ off χ ≤ off χ' + 3 * d := by
  have h0 := len_nonneg (χ - χ')
  have h1 := near_len hn
  have h2 := hn.le
  have h3 := len_nonneg χ
  have h4 := len_nonneg χ'
  have h5 : len (χ - χ') * (len χ + len χ') ≤ 3 * d := by nlinarith
  refine ⟨(hF.lip hn.fin hn.fin').trans h5, ?_⟩
  have h6 := (normSq_diff hn.fin hn.fin').trans h5
  unfold off
  have := abs_sub_le (Spec.normSq χ) (Spec.normSq χ') 1
  linarith

variable {A : Arith} {N : ℕ}

/-- A probability within a bound of what `F` says stays so through a gate. -/
theorem Weight.gate (hf : Fine A) {F : Wave → ℝ} (hF : Weight F) {U : Module.End ℂ Wave} (hU : Iso U) {m : ℕ}
    {q' q : Queue} {ψ ψ' : Wave} (h : FinSupp ψ) {e : ℂ} (he : ‖e‖ = 1) (hc : Cost A N m q' q ψ' (e • U ψ)) {L : ℝ}
    (h0 : 0 ≤ L) (h1 : L ≤ 1) {w : ℕ} {R : ℝ} (hR : 0 ≤ R)
    (hL : |L - F ψ'| ≤ 5 * off ψ' + 24 * cost A N * (w + q'.length : ℕ) + R) :
    |L - F (U ψ)| ≤ 5 * off ψ + 24 * cost A N * (w + m + q.length : ℕ) + R := by
  obtain ⟨k, hk, hr⟩ := hc
  have hc0 := cost_nonneg hf N
  have hk' : (k : ℝ) + q'.length ≤ m + q.length := by exact_mod_cast hk
  have hlen : len (e • U ψ) = len ψ := by rw [len_smul he, hU.len h]
  have hoff : off (e • U ψ) = off ψ := by rw [off_unit he, off_iso hU h]
  have hFe : F (e • U ψ) = F (U ψ) := hF.unit he
  push_cast at hL ⊢
  have hx : cost A N * (k + q'.length) ≤ cost A N * (m + q.length) := mul_le_mul_of_nonneg_left hk' hc0
  have hw : 0 ≤ cost A N * (w : ℝ) := mul_nonneg hc0 (Nat.cast_nonneg _)
  have hq' : 0 ≤ cost A N * (q'.length : ℝ) := mul_nonneg hc0 (Nat.cast_nonneg _)
  have hy0 : 0 ≤ (k : ℝ) * cost A N := mul_nonneg (Nat.cast_nonneg _) hc0
  by_cases hn : len (e • U ψ) + k * cost A N ≤ 3 / 2
  · obtain ⟨c1, c2⟩ := hF.close (hr.near hn) hn
    rw [hFe] at c1
    rw [hoff] at c2
    have := abs_sub_le L (F ψ') (F (U ψ))
    linarith
  · rw [hlen] at hn
    have hb := hF.far (hU.fin h) h0 h1
    rw [off_iso hU h] at hb
    have hl := len_nonneg ψ
    by_cases hx2 : 9 / 8 ≤ len ψ
    · have : 1 / 4 ≤ off ψ := by
        unfold off
        rw [← len_sq]
        refine le_trans ?_ (le_abs_self _)
        nlinarith
      linarith
    · have : off ψ ≤ 1 := by
        unfold off
        rw [← len_sq, abs_le]
        constructor <;> nlinarith
      have := off_nonneg ψ
      nlinarith

/-- The state is thrown away. -/
theorem Weight.drop {κ L : ℝ} (k0 : 0 ≤ κ) (k1 : κ ≤ 1) {ψ : Wave} {B : ℝ} (hL : |L - κ| ≤ B) :
    |L - Spec.normSq ψ * κ| ≤ 5 * off ψ + B := by
  have h1 : |κ - Spec.normSq ψ * κ| ≤ off ψ := by
    rw [show κ - Spec.normSq ψ * κ = -((Spec.normSq ψ - 1) * κ) by ring, abs_neg, abs_mul, abs_of_nonneg k0]
    exact mul_le_of_le_one_right (abs_nonneg _) k1
  have h2 := abs_sub_le L κ (Spec.normSq ψ * κ)
  have := off_nonneg ψ
  linarith

end Qir.Rnd
