import Verif.Props.ChanceDefs
import Verif.Props.Draws

/-!
# What the property theorems about programs that draw random numbers talk about

A program has two sources of randomness: the samples that decide measurements, and the words that integers and reals are
drawn with.  Here is the probability with which such a program writes something: measurements by the rule of quantum
mechanics, integers with a given distribution, reals evenly from a grid.
-/

noncomputable section
namespace Qir.Back
open Spec Sim Qir.Out Run MeasureTheory

/-- The uniform distribution on the numbers below `n`. -/
def evenly (n : ℕ) : Measure ℕ := ∑ w ∈ Finset.range n, (n : ENNReal)⁻¹ • Measure.dirac w

theorem evenly_univ {n : ℕ} (h : n ≠ 0) : evenly n Set.univ = 1 := by
  unfold evenly
  rw [Measure.finsetSum_apply]
  simp only [Measure.smul_apply, measure_univ, smul_eq_mul, mul_one, Finset.sum_const, Finset.card_range, nsmul_eq_mul]
  exact ENNReal.mul_inv_cancel (Nat.cast_ne_zero.2 h) (ENNReal.natCast_ne_top _)

theorem words_pos : Std.words ≠ 0 := by unfold Std.words; omega

attribute [local irreducible] Std.words

/-- A random word: all are equally likely. -/
def word : Measure ℕ := evenly Std.words

theorem evenly_prob {n : ℕ} (h : n ≠ 0) : IsProbabilityMeasure (evenly n) := ⟨evenly_univ h⟩

instance : IsProbabilityMeasure word := evenly_prob words_pos

/-- A stream of independent random words. -/
def wordStreams : Measure (ℕ → ℕ) := Measure.infinitePi fun _ => word

instance : IsProbabilityMeasure wordStreams := by unfold wordStreams; infer_instance

/-- The distribution of the two sources, which are independent of each other. -/
def sources : Measure ((ℕ → ℝ) × (ℕ → ℕ)) := streams.prod wordStreams

instance : IsProbabilityMeasure sources := by unfold sources; infer_instance

/-- What a call draws. -/
inductive Drawn
  | nothing
  | int (min max : ℤ)
  | real (min max : ℝ)

/-- What a call draws. -/
def drawn : QCall → Drawn
  | .drawInt min max => .int min max
  | .drawDouble min max => .real min max
  | _ => .nothing

/-- The text of the failure when the bounds are the wrong way round. -/
def boundsText : List Char := "Invalid Argument: minimum > maximum".toList

/-- A distribution of the integers between two bounds. -/
abbrev Lot := ℤ → ℤ → ℤ → ℝ

/-- All integers between the bounds are equally likely. -/
def fair : Lot := fun min max _ => 1 / (max - min + 1)

/-- The distribution of what two random words make of the bounds. -/
def byWords : Lot := fun min max n => Std.draws min max n / (Std.words : ℝ) ^ 2

open Classical in
/-- One if the program is in `S` when it fails with the message. -/
def failure (m : List Char) (S : Set (List Event × Bool)) : ℝ := if ([.record (.message m)], false) ∈ S then 1 else 0

open Classical in
/-- The probability that what a program records, together with whether it ends well, is in `S`, if integers are
drawn with distribution `w`. -/
def odds (w : Lot) : Prog QCall QAns → Device → Set (List Event × Bool) → ℝ
  | .done, _, S => if ([], true) ∈ S then 1 else 0
  | .call c k, δ, S => match drawn c with
    | .int min max =>
      if min ≤ max then ∑ n ∈ Finset.Icc min max, w min max n * odds w (k (.int n)) δ S else failure boundsText S
    | .real min max =>
      if min ≤ max then
        (∑ i ∈ Finset.range Std.words, odds w (k (.real (min + i / (Std.words - 1) * (max - min)))) δ S) / Std.words
      else failure boundsText S
    | .nothing => match measures δ c with
      | some ps => pauliProb ps true δ.psi * odds w (k (finding true δ c).1) (finding true δ c).2 S +
          pauliProb ps false δ.psi * odds w (k (finding false δ c).1) (finding false δ c).2 S
      | none => match δ.step c with
        | .error m => failure m S
        | .ok (a, es, δ') => odds w (k a) δ' {o | (es ++ o.1, o.2) ∈ S}

/-- Every call of the program makes sense on the ideal device when its turn comes, and its effect is determined or it
draws a number.  The bounds of an integer are 64-bit integers. -/
def Proper : Prog QCall QAns → Device → Prop
  | .done, _ => True
  | .call c k, δ => match drawn c with
    | .int min max => Std.IsI64 min ∧ Std.IsI64 max ∧ ∀ n, min ≤ n → n ≤ max → Proper (k (.int n)) δ
    | .real min max => ∀ x, min ≤ x → x ≤ max → Proper (k (.real x)) δ
    | .nothing => δ.Valid c ∧ c.Determined ∧ ∀ a es δ', δ.step c = .ok (a, es, δ') → Proper (k a) δ'

/-- The backend with other samples and words. -/
def supplied (ω : (ℕ → ℝ) × (ℕ → ℕ)) (s : Backend) : Backend :=
  { s with sim := { s.sim with rng := ω.1 }, os := ω.2 }

end Qir.Back
