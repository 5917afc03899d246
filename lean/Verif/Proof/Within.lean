import Verif.Proof.PauliBasis
import Verif.Proof.Ids
import Mathlib.Algebra.Algebra.Subalgebra.Lattice

/-!
# Operators on some of the qubits

The operators generated by the operators on single qubits of a list; those for disjoint lists commute.
-/

noncomputable section
namespace Qir.Back
open Spec Function

/-- The operators on the listed qubits. -/
def OnQubits (A : List ℕ) : Subalgebra ℂ (Module.End ℂ Wave) :=
  Algebra.adjoin ℂ {F | ∃ V : Mat2, ∃ q ∈ A, F = gateL V q}

theorem gate_within {A : List ℕ} {q : ℕ} (h : q ∈ A) (V : Mat2) : gateL V q ∈ OnQubits A :=
  Algebra.subset_adjoin ⟨V, q, h, rfl⟩

theorem OnQubits.commute {A B : List ℕ} (h : List.Disjoint A B) {F G : Module.End ℂ Wave} (hF : F ∈ OnQubits A)
    (hG : G ∈ OnQubits B) : Commute F G := by
  refine Algebra.commute_of_mem_adjoin_of_forall_mem_commute hG ?_
  rintro _ ⟨V, q, hq, rfl⟩
  refine (Algebra.commute_of_mem_adjoin_of_forall_mem_commute hF ?_).symm
  rintro _ ⟨U, r, hr, rfl⟩
  exact ctrlL_comm_gateL (fun e : r = q => h hr (e ▸ hq)) List.not_mem_nil V U

/-- The operator that keeps the part where a qubit is one. -/
def ones : Mat2 := mat 0 0 0 1

theorem ones_apply (c : ℕ) (ψ : Wave) (b : Basis) : gateL ones c ψ b = if b c = true then ψ b else 0 := by
  rw [gateL_apply_apply]
  cases h : b c
  · simp [ones, mat]
  · have : update b c true = b := by rw [← h]; exact update_eq_self _ _
    simp [ones, mat, this]

theorem ctrlL_cons (c : ℕ) (cs : List ℕ) (U : Mat2) (q : ℕ) :
    ctrlL (c :: cs) U q = 1 + gateL ones c * (ctrlL cs U q - 1) := by
  refine LinearMap.ext fun ψ => funext fun b => ?_
  rw [LinearMap.add_apply, Pi.add_apply, Module.End.mul_apply, ones_apply, LinearMap.sub_apply, Pi.sub_apply]
  simp only [ctrlL_apply, Module.End.one_apply, ctrl, List.forall_mem_cons]
  by_cases hc : b c = true
  · simp [hc]
  · simp [hc]

theorem ctrl_within {A : List ℕ} {cs : List ℕ} (hc : ∀ c ∈ cs, c ∈ A) {q : ℕ} (hq : q ∈ A) (U : Mat2) :
    ctrlL cs U q ∈ OnQubits A := by
  induction cs with
  | nil => exact gate_within hq U
  | cons c cs ih =>
    rw [ctrlL_cons]
    exact add_mem (one_mem _) (mul_mem (gate_within (hc c (by simp)) _)
      (sub_mem (ih fun c h => hc c (by simp [h])) (one_mem _)))

/-- A Pauli product as a linear operator. -/
def stringL : List (Pauli × ℕ) → Module.End ℂ Wave
  | [] => 1
  | p :: ps => gateL p.1.mat p.2 * stringL ps

theorem stringL_apply (ps : List (Pauli × ℕ)) (ψ : Wave) : stringL ps ψ = pauliString ps ψ := by
  induction ps with
  | nil => rfl
  | cons p ps ih =>
    show gateL p.1.mat p.2 (stringL ps ψ) = ctrl [] p.1.mat p.2 (pauliString ps ψ)
    rw [ih]
    rfl

theorem string_within {A : List ℕ} {ps : List (Pauli × ℕ)} (h : ∀ p ∈ ps, p.1 ≠ .I → p.2 ∈ A) :
    stringL ps ∈ OnQubits A := by
  induction ps with
  | nil => exact one_mem _
  | cons p ps ih =>
    refine mul_mem ?_ (ih fun p hp => h p (by simp [hp]))
    by_cases hp : p.1 = .I
    · rw [hp]
      show gateL 1 p.2 ∈ _
      rw [gateL_one]
      exact one_mem _
    · exact gate_within (h p (by simp) hp) _

theorem expL_nil (ps : List (Pauli × ℕ)) (θ : ℝ) :
    expL [] ps θ = (Real.cos θ : ℂ) • 1 + (Complex.I * Real.sin θ) • stringL ps := by
  refine LinearMap.ext fun ψ => funext fun b => ?_
  rw [LinearMap.add_apply, LinearMap.smul_apply, LinearMap.smul_apply, stringL_apply]
  simp [expL_apply, ctrlExp]

theorem expL_cons (c : ℕ) (cs : List ℕ) (ps : List (Pauli × ℕ)) (θ : ℝ) :
    expL (c :: cs) ps θ = 1 + gateL ones c * (expL cs ps θ - 1) := by
  refine LinearMap.ext fun ψ => funext fun b => ?_
  rw [LinearMap.add_apply, Pi.add_apply, Module.End.mul_apply, ones_apply, LinearMap.sub_apply, Pi.sub_apply]
  simp only [expL_apply, Module.End.one_apply, ctrlExp, List.forall_mem_cons]
  by_cases hc : b c = true
  · simp [hc]
  · simp [hc]

theorem exp_within {A : List ℕ} {cs : List ℕ} (hc : ∀ c ∈ cs, c ∈ A) {ps : List (Pauli × ℕ)}
    (h : ∀ p ∈ ps, p.1 ≠ .I → p.2 ∈ A) (θ : ℝ) : expL cs ps θ ∈ OnQubits A := by
  induction cs with
  | nil =>
    rw [expL_nil]
    exact add_mem (Subalgebra.smul_mem _ (one_mem _) _) (Subalgebra.smul_mem _ (string_within h) _)
  | cons c cs ih =>
    rw [expL_cons]
    exact add_mem (one_mem _) (mul_mem (gate_within (hc c (by simp)) _)
      (sub_mem (ih fun c h => hc c (by simp [h])) (one_mem _)))

theorem swap_update {a b : ℕ} (h : a ≠ b) (bits : Basis) :
    (fun q => bits (Equiv.swap a b q)) = update (update bits a (bits b)) b (bits a) := by
  funext q
  by_cases hb : q = b
  · subst hb; simp
  · by_cases ha : q = a
    · subst ha; simp [update_of_ne h]
    · simp [update_of_ne hb, update_of_ne ha, Equiv.swap_apply_of_ne_of_ne ha hb]

/-- An exchange of two qubits is half the sum of the products of equal Pauli operators. -/
theorem swapL_eq {a b : ℕ} (h : a ≠ b) : swapL a b = (1 / 2 : ℂ) • (1 + gateL matX a * gateL matX b +
    gateL matY a * gateL matY b + gateL matZ a * gateL matZ b) := by
  refine LinearMap.ext fun ψ => funext fun bits => ?_
  rw [LinearMap.smul_apply, Pi.smul_apply, LinearMap.add_apply, LinearMap.add_apply, LinearMap.add_apply,
    Pi.add_apply, Pi.add_apply, Pi.add_apply, swapL_apply]
  unfold swapQubits
  rw [swap_update h]
  simp only [Module.End.mul_apply, gateL_apply_apply, Module.End.one_apply, update_of_ne h.symm]
  have hab : ∀ x y, bits a = x → bits b = y → update (update bits a x) b y = bits := by
    rintro x y rfl rfl
    simp
  cases ha : bits a <;> cases hb : bits b <;> simp only [matX, matY, matZ, mat] <;>
    simp [hab _ _ ha hb] <;> ring_nf <;> rw [Complex.I_sq] <;> ring

theorem swap_within {A : List ℕ} {a b : ℕ} (ha : a ∈ A) (hb : b ∈ A) : swapL a b ∈ OnQubits A := by
  by_cases h : a = b
  · subst h
    have : swapL a a = 1 := by
      refine LinearMap.ext fun ψ => funext fun bits => ?_
      simp [swapL_apply, swapQubits]
    rw [this]
    exact one_mem _
  · rw [swapL_eq h]
    exact Subalgebra.smul_mem _ (add_mem (add_mem (add_mem (one_mem _)
      (mul_mem (gate_within ha _) (gate_within hb _))) (mul_mem (gate_within ha _) (gate_within hb _)))
      (mul_mem (gate_within ha _) (gate_within hb _))) _

/-- The projection of a measurement as a linear operator. -/
def pauliProjL (ps : List (Pauli × ℕ)) (v : Bool) : Module.End ℂ Wave :=
  (1 / 2 : ℂ) • (1 + (if v then (-1 : ℂ) else 1) • stringL ps)

theorem pauliProjL_apply (ps : List (Pauli × ℕ)) (v : Bool) (ψ : Wave) : pauliProjL ps v ψ = pauliProj ps v ψ := by
  simp only [pauliProjL, pauliProj, LinearMap.smul_apply, LinearMap.add_apply, stringL_apply, Module.End.one_apply]

theorem proj_within {A : List ℕ} {ps : List (Pauli × ℕ)} (h : ∀ p ∈ ps, p.1 ≠ .I → p.2 ∈ A) (v : Bool) :
    pauliProjL ps v ∈ OnQubits A :=
  Subalgebra.smul_mem _ (add_mem (one_mem _) (Subalgebra.smul_mem _ (string_within h) _)) _

theorem OnQubits.finSupp {A : List ℕ} {F : Module.End ℂ Wave} (h : F ∈ OnQubits A) :
    ∀ {ψ : Wave}, FinSupp ψ → FinSupp (F ψ) := by
  induction h using Algebra.adjoin_induction with
  | mem x hx =>
    intro ψ hψ
    obtain ⟨V, q, -, rfl⟩ := hx
    exact hψ.ctrl [] V q
  | algebraMap c =>
    intro ψ hψ
    exact hψ.smul c
  | add x y _ _ hx hy =>
    intro ψ hψ
    exact (hx hψ).add (hy hψ)
  | mul x y _ _ hx hy =>
    intro ψ hψ
    exact hx (hy hψ)

end Qir.Back
