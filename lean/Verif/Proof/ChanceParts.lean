import Verif.Proof.Chance

/-! The probabilities of a program are additive. -/

noncomputable section
namespace Qir.Back
open Spec Sim Qir.Out Run

variable {p : Prog QCall QAns}

theorem chance_parts (p : Prog QCall QAns) (δ : Device) (S K : Set (List Event × Bool)) :
    chance p δ S = chance p δ (S ∩ K) + chance p δ (S \ K) := by
  induction p generalizing δ S K with
  | done =>
    unfold chance
    by_cases h1 : (([], true) : List Event × Bool) ∈ S <;> by_cases h2 : (([], true) : List Event × Bool) ∈ K <;>
      simp [h1, h2]
  | call c k ih =>
    unfold chance
    split
    · rw [ih _ _ S K, ih _ _ S K]
      ring
    · split
      · next m _ =>
        by_cases h1 : (([.record (.message m)], false) : List Event × Bool) ∈ S <;>
          by_cases h2 : (([.record (.message m)], false) : List Event × Bool) ∈ K <;> simp [h1, h2]
      · next es _ _ => exact ih _ _ _ {o | (es ++ o.1, o.2) ∈ K}

theorem chance_less {S K : Set (List Event × Bool)} (h : S ⊆ K) (δ : Device) : chance p δ S ≤ chance p δ K := by
  rw [chance_parts p δ K S, Set.inter_eq_right.2 h]
  linarith [chance_nonneg p δ (K \ S)]

end Qir.Back
