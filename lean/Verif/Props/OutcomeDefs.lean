import Verif.Props.ClassicalDefs

/-!
# Which outcomes are possible

The reading of `Props/ClassicalDefs` also says which outcomes of measurements are possible: those after which some basis
state is left.
-/

namespace Qir
namespace Gen

variable {F : Type}

/-- The answer about the value of a qubit, or of a parity, has a reason: a measurement answers one only in accordance with
a basis state in `S`, and if there is none, the probability is computed as zero. -/
def Vouched (N : Num F) (S : (ℕ → Bool) → Prop) : GCall F → GOut F → Prop
  | .measure q, o => ∃ b, o = .bit b ∧ (b = true → ∃ f, S f ∧ f q = true)
  | .jointMeasure qs, o => ∃ b, o = .bit b ∧ (b = true → ∃ f, S f ∧ odd qs f = true)
  | .jointProb qs, o => ∃ p, o = .real p ∧ (p = N.zero ∨ ∃ f, S f ∧ odd qs f = true)
  | .isZero q, o => ∃ b, o = .bit b ∧ (b = N.nearlyZero N.zero ∨ ∃ f, S f ∧ f q = true)
  | _, _ => True

/-- All such answers to a history have. -/
def AllVouched (N : Num F) : Finset ℕ → ((ℕ → Bool) → Prop) → List (GCall F) → List (GOut F) → Prop
  | L, S, c :: cs, o :: os => Vouched N S c o ∧ AllVouched N (liveNext L c) (fun g => possible N L S g c o) cs os
  | _, _, _, _ => True

/-- No random sample is below zero. -/
def Nonneg (N : Num F) (rng : ℕ → F) : Prop := ∀ n, N.lt (rng n) N.zero = false

/-- No basis state is in accordance with the answers to the history. -/
def Unexplained (N : Num F) (cs : List (GCall F)) (os : List (GOut F)) : Prop := ∀ f, ¬ reached N ∅ allZero cs os f

/-- The answer of a simulator that has no basis state left. -/
def Blank (N : Num F) : GCall F → GOut F → Prop
  | .measure _, o => o = .bit false
  | .jointMeasure _, o => o = .bit false
  | .jointProb _, o => o = .real N.zero
  | .isZero _, o => o = .bit (N.nearlyZero N.zero)
  | .getState, o => ∃ n, o = .state [] n
  | .dump fmt, o => o = .text (shown fmt [])
  | _, _ => True

/-- The history never releases the last qubit. -/
def NeverAlone : Finset ℕ → List (GCall F) → Prop
  | _, [] => True
  | L, c :: cs => (L.card = 1 → ∀ q, c ≠ .release q) ∧ NeverAlone (liveNext L c) cs

end Gen
end Qir
