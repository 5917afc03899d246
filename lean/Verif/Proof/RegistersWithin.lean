import Verif.Proof.RegistersChance
import Verif.Proof.Workaround

/-!
# A program that writes register 0 first takes at most twice the passes and seven more (C94)
-/

noncomputable section
namespace Qir.RBack
open Spec Sim Qir.Out Run Rnd
open Qir.Back (blank primed primedAgain measures finding)
open Qir.Back.Regs (withMark)

variable {A : Arith} {N W M : ℕ} {T : ℝ} {p : Prog QCall QAns}

theorem within_marked (p : Prog QCall QAns) : ∀ (t : Bool) {δ : Device} {W M : ℕ} {T : ℝ}, Within A N p δ W M T →
    Within A N (primedAgain p) (withMark t δ) (2 * W) M T := by
  induction p with
  | done => intros; trivial
  | call c k ih =>
    intro t δ W M T h
    by_cases hr : c = .reinit
    · subst hr
      obtain ⟨_, _, h3, h4, h5⟩ := h
      have h3 : 7 ≤ W := h3
      obtain ⟨h6, h7⟩ := h5 .unit [] (Device.init δ.rng) rfl
      refine ⟨trivial, trivial, (show 7 ≤ 2 * W by omega), h4, fun a es δ1 e1 => ?_⟩
      cases e1
      refine ⟨h6, trivial, trivial, (show 7 ≤ 2 * W - 7 by omega), by simp [turn] at h4 ⊢; exact h4, fun a es δ2 e2 => ?_⟩
      cases e2
      refine ⟨h6, ?_⟩
      have e : (Device.init (withMark t δ).rng).store 0 false = withMark true (Device.init δ.rng) := by
        unfold Device.store Device.init withMark
        simp
      rw [e]
      have := ih .unit true h7
      have e2 : 2 * (W - effort .reinit) = 2 * W - effort .reinit - effort (.writeResult false 0) := by
        show 2 * (W - 7) = 2 * W - 7 - 7
        omega
      rw [e2] at this
      simpa [turn] using this
    · have e : primedAgain (.call c k) = .call c fun a => primedAgain (k a) := by
        cases c <;> first | rfl | exact absurd rfl hr
      rw [e]
      unfold Within at h ⊢
      obtain ⟨h1, h2, h3, h4, h5⟩ := h
      refine ⟨(Back.Regs.valid_marked t δ c).2 h1, h2, by omega, h4, ?_⟩
      rw [Back.Regs.measures_marked]
      cases hm : measures δ c with
      | some ps =>
        rw [hm] at h5
        refine ⟨h5.1, fun v => ?_⟩
        obtain ⟨h6, h7, h8⟩ := h5.2 v
        rw [Back.Regs.finding_marked hm, Back.Regs.useAll_marked]
        exact ⟨h6, h7, Within.more _ (by omega) (ih _ _ h8)⟩
      | none =>
        rw [hm] at h5
        intro a es δ1 e1
        obtain ⟨es', δ', e2, rfl⟩ := Back.Regs.step_marked e1
        obtain ⟨h6, h7⟩ := h5 a es' δ' e2
        exact ⟨h6, Within.more _ (by omega) (ih _ _ h7)⟩

theorem within_primed (h : Within A N p blank W M T) (hT : 0 ≤ T) : Within A N (primed p) blank (2 * W + 7) M T := by
  refine ⟨trivial, trivial, (show 7 ≤ 2 * W + 7 by omega), hT, fun a es δ1 e1 => ?_⟩
  cases e1
  have e : blank.store 0 false = withMark true blank := by
    unfold Device.store blank Device.init withMark
    simp
  refine ⟨Nat.zero_le _, ?_⟩
  rw [e]
  have := within_marked p true h
  have e2 : 2 * W = 2 * W + 7 - effort (.writeResult false 0) := (Nat.add_sub_cancel ..).symm
  rw [e2] at this
  simpa [turn] using this

end Qir.RBack
