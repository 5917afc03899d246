import Verif.Spec.Quantum
import Mathlib.Algebra.Module.LinearMap.End
import Mathlib.Algebra.BigOperators.Group.List.Basic
import Mathlib.Tactic.Ring
import Mathlib.Tactic.LinearCombination
import Mathlib.Algebra.Algebra.Pi

/-! Linear algebra of (controlled) single-qubit gates on wave functions. -/

noncomputable section
namespace Qir
open Spec Function

/-- `Spec.ctrl` as a linear operator. -/
def ctrlL (cs : List ℕ) (U : Mat2) (q : ℕ) : Module.End ℂ Wave where
  toFun := ctrl cs U q
  map_add' ψ φ := by
    funext b; simp only [ctrl, Pi.add_apply]; split <;> ring
  map_smul' c ψ := by
    funext b; simp only [ctrl, Pi.smul_apply, smul_eq_mul, RingHom.id_apply]; split <;> ring

@[simp] theorem ctrlL_apply (cs : List ℕ) (U : Mat2) (q : ℕ) (ψ : Wave) :
    ctrlL cs U q ψ = ctrl cs U q ψ := rfl

/-- An uncontrolled gate. -/
abbrev gateL (U : Mat2) (q : ℕ) : Module.End ℂ Wave := ctrlL [] U q

theorem gateL_apply_apply (U : Mat2) (q : ℕ) (ψ : Wave) (b : Basis) :
    gateL U q ψ b = U (b q) false * ψ (update b q false) + U (b q) true * ψ (update b q true) := by
  simp [ctrl]

theorem ctrls_update {cs : List ℕ} {q : ℕ} (hq : q ∉ cs) (b : Basis) (v : Bool) :
    (∀ c ∈ cs, update b q v c = true) ↔ ∀ c ∈ cs, b c = true := by
  constructor
  · intro h c hc
    have := h c hc
    rwa [update_of_ne (by rintro rfl; exact hq hc)] at this
  · intro h c hc
    rw [update_of_ne (by rintro rfl; exact hq hc)]; exact h c hc

theorem ctrlL_one (cs : List ℕ) (q : ℕ) : ctrlL cs 1 q = 1 := by
  ext ψ b
  simp only [ctrlL_apply, ctrl, Module.End.one_apply]
  split
  · cases h : b q
    · have : update b q false = b := by rw [← h]; exact update_eq_self _ _
      simp [this]
    · have : update b q true = b := by rw [← h]; exact update_eq_self _ _
      simp [this]
  · rfl

theorem gateL_one (q : ℕ) : gateL 1 q = 1 := ctrlL_one [] q

theorem ctrlL_mul {cs : List ℕ} {q : ℕ} (hq : q ∉ cs) (U V : Mat2) :
    ctrlL cs U q * ctrlL cs V q = ctrlL cs (U * V) q := by
  ext ψ b
  simp only [Module.End.mul_apply, ctrlL_apply, ctrl]
  by_cases h : ∀ c ∈ cs, b c = true
  · simp only [ctrls_update hq, if_pos h, update_self, update_idem, Matrix.mul_apply,
      Fintype.sum_bool]
    ring
  · simp only [if_neg h]

theorem gateL_mul (q : ℕ) (U V : Mat2) : gateL U q * gateL V q = gateL (U * V) q :=
  ctrlL_mul (by simp) U V

theorem ctrlL_comm_gateL {cs : List ℕ} {q r : ℕ} (hqr : r ≠ q) (hr : r ∉ cs) (U V : Mat2) :
    ctrlL cs U q * gateL V r = gateL V r * ctrlL cs U q := by
  ext ψ b
  simp only [Module.End.mul_apply, ctrlL_apply, ctrl, List.not_mem_nil, false_imp_iff,
    implies_true, if_true, ctrls_update hr]
  by_cases h : ∀ c ∈ cs, b c = true
  · simp only [if_pos h, update_of_ne hqr, update_of_ne hqr.symm]
    rw [update_comm hqr, update_comm hqr, update_comm hqr, update_comm hqr]
    ring
  · simp only [if_neg h]

theorem ctrlL_gateL_same {cs : List ℕ} {q : ℕ} (hq : q ∉ cs) {U V U' : Mat2} (hUV : U * V = V * U') :
    ctrlL cs U q * gateL V q = gateL V q * ctrlL cs U' q := by
  have e1 : ∀ r k, U r false * V false k + U r true * V true k
      = V r false * U' false k + V r true * U' true k := by
    intro r k
    have := congrFun (congrFun hUV r) k
    simp only [Matrix.mul_apply, Fintype.sum_bool] at this
    linear_combination this
  ext ψ b
  simp only [Module.End.mul_apply, ctrlL_apply, ctrl, List.not_mem_nil, false_imp_iff,
    implies_true, if_true, ctrls_update hq]
  by_cases h : ∀ c ∈ cs, b c = true
  · simp only [if_pos h, update_self, update_idem]
    linear_combination (ψ (update b q false)) * e1 (b q) false
      + (ψ (update b q true)) * e1 (b q) true
  · simp only [if_neg h]

/-- The action of a controlled gate on a basis vector. -/
theorem ctrl_ket {cs : List ℕ} {q : ℕ} (hq : q ∉ cs) (U : Mat2) (b : Basis) :
    ctrl cs U q (ket b) = if ∀ c ∈ cs, b c = true then
        U false (b q) • ket (update b q false) + U true (b q) • ket (update b q true)
      else ket b := by
  funext b'
  by_cases hb : ∀ r, r ≠ q → b' r = b r
  · have hc : (∀ c ∈ cs, b' c = true) ↔ ∀ c ∈ cs, b c = true := by
      constructor
      · intro h c hc; rw [← hb c (by rintro rfl; exact hq hc)]; exact h c hc
      · intro h c hc; rw [hb c (by rintro rfl; exact hq hc)]; exact h c hc
    have hu : ∀ v, update b' q v = update b q v := by
      intro v; funext r
      by_cases hr : r = q
      · subst hr; simp
      · simp [update_of_ne hr, hb r hr]
    have hbu : ∀ v, (b' = update b q v) ↔ b' q = v := by
      intro v
      constructor
      · intro h; rw [h]; simp
      · intro h; rw [← hu, ← h, update_eq_self]
    have hub : ∀ v, (update b q v = b) ↔ b q = v := by
      intro v
      constructor
      · intro h; rw [← h]; simp
      · intro h; rw [← h, update_eq_self]
    simp only [ctrl, hc]
    split
    · simp only [ket, hu, hub, hbu, Pi.add_apply, Pi.smul_apply, smul_eq_mul]
      cases b q <;> cases b' q <;> simp
    · rfl
  · have h1 : ∀ v, update b' q v ≠ b := by
      intro v h; apply hb; intro r hr; rw [← h, update_of_ne hr]
    have h2 : ∀ v, b' ≠ update b q v := by
      intro v h; apply hb; intro r hr; rw [h, update_of_ne hr]
    have h3 : b' ≠ b := by rintro rfl; exact hb (fun _ _ => rfl)
    simp only [ctrl]
    by_cases hc : ∀ c ∈ cs, b c = true
    · rw [if_pos hc]
      simp [ket, h1, h2, h3]
    · rw [if_neg hc]
      simp [ket, h1, h3]

/-! ### Pending single-qubit gates -/

/-- The product of one gate per listed qubit. -/
def pendL (P : ℕ → Mat2) (L : List ℕ) : Module.End ℂ Wave := (L.map (fun q => gateL (P q) q)).prod

@[simp] theorem pendL_nil (P : ℕ → Mat2) : pendL P [] = 1 := rfl
theorem pendL_cons (P : ℕ → Mat2) (q : ℕ) (L : List ℕ) :
    pendL P (q :: L) = gateL (P q) q * pendL P L := by simp [pendL]

theorem pendL_congr {P Q : ℕ → Mat2} {L : List ℕ} (h : ∀ q ∈ L, P q = Q q) :
    pendL P L = pendL Q L := by
  unfold pendL
  congr 1
  apply List.map_congr_left
  intro q hq; rw [h q hq]

/-- Anything commuting with each pending gate commutes with their product. -/
theorem comm_pendL {A : Module.End ℂ Wave} {P : ℕ → Mat2} {L : List ℕ}
    (h : ∀ q ∈ L, A * gateL (P q) q = gateL (P q) q * A) : A * pendL P L = pendL P L * A := by
  induction L with
  | nil => simp
  | cons q L ih =>
    rw [pendL_cons, ← mul_assoc, h q (by simp), mul_assoc,
      ih (fun r hr => h r (by simp [hr])), mul_assoc]

theorem gateL_comm_pendL {U : Mat2} {q : ℕ} {P : ℕ → Mat2} {L : List ℕ} (hq : q ∉ L) :
    gateL U q * pendL P L = pendL P L * gateL U q :=
  comm_pendL (fun r hr => ctrlL_comm_gateL (by rintro rfl; exact hq hr) (by simp) _ _)

/-- Pull one qubit's pending gate to the front. -/
theorem pendL_extract {P : ℕ → Mat2} {L : List ℕ} (hL : L.Nodup) {q : ℕ} (hq : q ∈ L) :
    pendL P L = gateL (P q) q * pendL (update P q 1) L := by
  induction L with
  | nil => simp at hq
  | cons r L ih =>
    rw [List.nodup_cons] at hL
    rw [pendL_cons, pendL_cons]
    by_cases hrq : r = q
    · subst hrq
      rw [update_self, gateL_one, one_mul]
      congr 1
      apply pendL_congr
      intro s hs
      rw [update_of_ne (by rintro rfl; exact hL.1 hs)]
    · have hq' : q ∈ L := by simpa [Ne.symm hrq] using hq
      rw [update_of_ne hrq, ih hL.2 hq', ← mul_assoc, ← mul_assoc,
        ctrlL_comm_gateL (Ne.symm hrq) (by simp)]

theorem pendL_update_comm {P : ℕ → Mat2} {L : List ℕ} {q : ℕ} (U : Mat2) :
    gateL U q * pendL (update P q 1) L = pendL (update P q 1) L * gateL U q := by
  apply comm_pendL
  intro r _
  by_cases h : r = q
  · subst h; rw [update_self, gateL_one, mul_one, one_mul]
  · rw [update_of_ne h]; exact ctrlL_comm_gateL h (by simp) _ _

/-- Pull one qubit's pending gate to the back. -/
theorem pendL_extract' {P : ℕ → Mat2} {L : List ℕ} (hL : L.Nodup) {q : ℕ} (hq : q ∈ L) :
    pendL P L = pendL (update P q 1) L * gateL (P q) q := by
  rw [pendL_extract hL hq, pendL_update_comm]

theorem pendL_extract_update {P : ℕ → Mat2} {L : List ℕ} (hL : L.Nodup) {q : ℕ} (hq : q ∈ L)
    (M : Mat2) : pendL (update P q M) L = gateL M q * pendL (update P q 1) L := by
  rw [pendL_extract hL hq, update_self, update_idem]

end Qir
