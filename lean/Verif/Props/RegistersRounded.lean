import Verif.Proof.RegistersWithin
import Verif.Props.Registers
import Verif.Props.TotalVariation

/-!
# The values of results in whole programs, with rounding (C94)
-/

noncomputable section
namespace Qir.RBack
open Spec Sim Qir.Out Run Rnd MeasureTheory
open Qir.Back (Backend Fmt streams blank NoYProg coin coin_noY Ordered Registerless primed registerStep pointerStep
  chanceOn tossed tossed_fixed tossed_registerless)

variable {A : Arith} {N W M : ℕ} {T : ℝ} {fmt : Fmt} {p : Prog QCall QAns}

/-- **C94**, registers, the code with rounded arithmetic and its tolerance: a program that uses some register before it
outputs result 1 writes with the probabilities, within `gap`, of the device on which the output of a result is the value of
its register. -/
theorem C94_rounded (h0 : 0 < A.eps) (h1 : A.eps ≤ 1 / 4) (h2 : 1000 * (A.u + A.eta) ≤ A.eps) (ho : Ordered false p)
    (hw : Within A N p blank W M T) (hT : A.u * T + A.eta ≤ A.eps)
    (ht : Turnless A fmt p (Backend.new (fun _ => 0) fun _ => 0)) (os : ℕ → ℕ) (S : Set (Bytes × Bool)) :
    |streams.real {r | outcome A fmt p (Backend.new r os) ∈ S} - chanceOn registerStep p blank (texts S)| ≤
      gap A N W M := by
  rw [← Back.Regs.chanceOn_ordered p (δ := blank) (Back.Regs.unused_init _) ho]
  exact (C63_distance h0 h1 h2 hw hT ht os S).2

/-- **C94**, results that are not registers, with rounding. -/
theorem C94_rounded_pointers (h0 : 0 < A.eps) (h1 : A.eps ≤ 1 / 4) (h2 : 1000 * (A.u + A.eta) ≤ A.eps)
    (ho : Registerless p) (hw : Within A N p blank W M T) (hT : A.u * T + A.eta ≤ A.eps)
    (ht : Turnless A fmt p (Backend.new (fun _ => 0) fun _ => 0)) (os : ℕ → ℕ) (S : Set (Bytes × Bool)) :
    |streams.real {r | outcome A fmt p (Backend.new r os) ∈ S} - chanceOn pointerStep p blank (texts S)| ≤
      gap A N W M := by
  rw [← Back.Regs.chanceOn_registerless p (δ := blank) rfl ho]
  exact (C63_distance h0 h1 h2 hw hT ht os S).2

/-- **C94**, the way around F5 and F30 with rounding: if register 0 is written first, any program without uncontrolled
rotations about Y writes with the probabilities, within `gap`, of the device on which the output of a result is the value of
its register.  The program takes at most twice the passes and seven more. -/
theorem C94_rounded_primed (h0 : 0 < A.eps) (h1 : A.eps ≤ 1 / 4) (h2 : 1000 * (A.u + A.eta) ≤ A.eps) (hy : NoYProg p)
    (hw : Within A N p blank W M T) (hT0 : 0 ≤ T) (hT : A.u * T + A.eta ≤ A.eps) (os : ℕ → ℕ) (S : Set (Bytes × Bool)) :
    |streams.real {r | outcome A fmt (primed p) (Backend.new r os) ∈ S} - chanceOn registerStep p blank (texts S)| ≤
      gap A N (2 * W + 7) M := by
  rw [← Back.Regs.chanceOn_primed]
  exact (C63_distance h0 h1 h2 (within_primed hw hT0) hT (C63_no_turn (Back.Regs.primed_noY hy) _) os S).2

/-! ### A concrete program -/

/-- The coin measures into a register, reads it and outputs it. -/
theorem coin_ordered : Ordered false coin := by
  refine ⟨by simp, fun _ => ⟨by simp, fun _ => ⟨by simp, fun _ => ⟨by simp, fun a => ?_⟩⟩⟩⟩
  dsimp only
  split <;> simp [Ordered]

example (shuffle : List (ℕ × ℂ) → List (ℕ × ℂ)) (hs : ∀ l, (shuffle l).Perm l) (os : ℕ → ℕ) (S : Set (Bytes × Bool)) :
    |streams.real {r | outcome (binary64 shuffle hs) fmt coin (Backend.new r os) ∈ S} -
      chanceOn registerStep coin blank (texts S)| ≤ 1e-6 := by
  obtain ⟨h0, h1, h2⟩ := C62_binary64 shuffle hs
  obtain ⟨hT, hg⟩ := C63_binary64 shuffle hs
  refine (C94_rounded (fmt := fmt) h0 h1 h2 coin_ordered (coin_within _) (hT 0 (by norm_num)) (C63_no_turn coin_noY _) os
    S).trans ((hg 2 67 1).trans ?_)
  have : √((2 : ℝ) ^ 2) = 2 := by rw [Real.sqrt_sq (by norm_num)]
  rw [this]
  norm_num

example (shuffle : List (ℕ × ℂ) → List (ℕ × ℂ)) (hs : ∀ l, (shuffle l).Perm l) (os : ℕ → ℕ) (S : Set (Bytes × Bool)) :
    |streams.real {r | outcome (binary64 shuffle hs) fmt (primed coin) (Backend.new r os) ∈ S} -
      chanceOn registerStep coin blank (texts S)| ≤ 2e-6 := by
  obtain ⟨h0, h1, h2⟩ := C62_binary64 shuffle hs
  obtain ⟨hT, hg⟩ := C63_binary64 shuffle hs
  refine (C94_rounded_primed (fmt := fmt) h0 h1 h2 coin_noY (coin_within _) le_rfl (hT 0 (by norm_num)) os
    S).trans ((hg 2 (2 * 67 + 7) 1).trans ?_)
  have : √((2 : ℝ) ^ 2) = 2 := by rw [Real.sqrt_sq (by norm_num)]
  rw [this]
  norm_num

theorem tossed_within (A : Arith) : Within A 1 tossed blank 31 1 0 := by
  refine ⟨.inr ⟨rfl, le_refl _⟩, trivial, by decide, le_refl _, fun a es δ1 e1 => ?_⟩
  cases e1
  have hl : ∀ v : Bool, (Back.finding v (Device.apply [0] (ctrl [] Gate.h.mat 0) blank) (.m 0)).2.live.card ≤ 1 := by
    intro v
    show (Device.useAll [0] (Device.useAll [0] blank)).live.card ≤ 1
    decide
  refine ⟨by decide, .inl (by decide), trivial, by decide, by simp [turn], le_refl _,
    fun v => ⟨hl v, by decide, trivial, trivial, (show 7 ≤ 31 - 12 - 12 by decide), by simp [turn], fun a es δ2 e2 => ?_⟩⟩
  cases e2
  exact ⟨hl v, trivial⟩

example (shuffle : List (ℕ × ℂ) → List (ℕ × ℂ)) (hs : ∀ l, (shuffle l).Perm l) (os : ℕ → ℕ) (S : Set (Bytes × Bool)) :
    |streams.real {r | outcome (binary64 shuffle hs) fmt tossed (Backend.new r os) ∈ S} -
      chanceOn pointerStep tossed blank (texts S)| ≤ 1e-6 := by
  obtain ⟨h0, h1, h2⟩ := C62_binary64 shuffle hs
  obtain ⟨hT, hg⟩ := C63_binary64 shuffle hs
  refine (C94_rounded_pointers (fmt := fmt) h0 h1 h2 tossed_registerless (tossed_within _) (hT 0 (by norm_num))
    (C63_no_turn tossed_fixed.noY _) os S).trans ((hg 1 31 1).trans ?_)
  have : √(2 : ℝ) ≤ 2 := Real.sqrt_le_iff.2 (by norm_num)
  norm_num only [pow_one]
  linarith

end Qir.RBack
