import Verif.Props.Defs

/-!
# What the theorems about the tolerance of the zero test talk about
-/

noncomputable section
namespace Qir
open Spec Sim

namespace Spec

/-- The l2 distance of two state vectors. -/
def distance (ψ φ : Wave) : ℝ := Real.sqrt (normSq (ψ - φ))

/-- The number of qubits a call looks at. -/
def Call.width (n : ℕ) : Call → ℕ
  | .gate _ _ => 1
  | .ctrl _ cs _ => cs.length + 1
  | .phase cs _ _ => cs.length + 1
  | .exp cs _ _ ts => cs.length + ts.length
  | .swap _ _ => 2
  | .allocate => 0
  | .jointProb qs => qs.length
  | .jointMeasure qs => qs.length
  | .getState => n
  | .dump _ => n
  | _ => 1

/-- One more than that. -/
def Call.work (σ : Ideal) (c : Call) : ℕ := c.width σ.live.card + 1

/-- The work of a history. -/
def Ideal.work (σ : Ideal) : List Call → ℕ
  | [] => 0
  | c :: cs => c.work σ + (σ.step c).work cs

open Classical in
/-- Which answers are right within `d`: reported state vectors within `d` of the ideal one (up to a
global phase), probabilities within `2 d`, and the zero test of some such probability. -/
def Ideal.AnswerWithin (eps d : ℝ) (σ : Ideal) : Call → Out → Prop
  | .allocate, o => o = .id σ.fresh
  | .jointProb qs, o => ∃ p, o = .real p ∧ |p - prob qs true σ.psi| ≤ 2 * d
  | .isZero q, o => ∃ p, |p - prob [q] true σ.psi| ≤ 2 * d ∧ o = .bit (decide (p ≤ eps))
  | .getState, o => ∃ (ψ : Wave) (l : List (ℕ × ℂ)) (w : ℂ), ‖w‖ = 1 ∧ Lists σ.ids ψ l ∧
      distance ψ (w • σ.psi) ≤ d ∧ o = .state l σ.live.card
  | .dump fmt, o => ∃ (ψ : Wave) (l : List (ℕ × ℂ)) (w : ℂ), ‖w‖ = 1 ∧ Lists σ.ids ψ l ∧
      distance ψ (w • σ.psi) ≤ d ∧ o = .text (stateText fmt l)
  | _, o => o = .none

/-- The same for a history. -/
def Ideal.AnswersWithin (eps d : ℝ) (σ : Ideal) : List Call → List Out → Prop
  | [], os => os = []
  | c :: cs, os => ∃ o os', os = o :: os' ∧ σ.AnswerWithin eps d c o ∧
      (σ.step c).AnswersWithin eps d cs os'

end Spec

/-- No uncontrolled rotation about Y is requested of a qubit with a pending rotation about X that is
within the tolerance of an odd number of half-turns. -/
def SteadyCall (env : Env) (s : Sim) : Call → Prop
  | .gate (.ry _) q => ¬ ∃ b, s.rxQ.get q = some b ∧ |Real.cos (b / 2)| ≤ env.eps
  | _ => True

/-- The same along a run. -/
def Steady (env : Env) : Sim → List Call → Prop
  | _, [] => True
  | s, c :: cs => SteadyCall env s c ∧ ∀ o s', call env c s = .ok (o, s') → Steady env s' cs

end Qir
