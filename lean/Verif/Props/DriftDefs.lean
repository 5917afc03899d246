import Verif.Props.TolDefs

/-!
# What the theorems about histories with measurements and a positive tolerance talk about
-/

noncomputable section
namespace Qir
open Spec Sim

namespace Spec

/-- How far the simulator may be from the ideal state `σ` when it answers the call `c`, having been
within `d` before it. -/
def Ideal.reach (eps : ℝ) (σ : Ideal) (d : ℝ) (c : Call) : ℝ :=
  d + 4 * √2 * eps * √(2 ^ σ.live.card) * c.work σ

open Classical in
/-- How far it may be after the call: an observation divides the distance by the probability of what
was observed, and the release of the last qubit starts afresh. -/
def Ideal.after (eps : ℝ) (σ : Ideal) (d : ℝ) : Call → ℝ
  | .measure q => 3 * σ.reach eps d (.measure q) / prob [q] (σ.outcome [q]) σ.psi
  | .jointMeasure qs => 3 * σ.reach eps d (.jointMeasure qs) / prob qs (σ.outcome qs) σ.psi
  | .release q => if σ.live = {q} then 0
      else 3 * σ.reach eps d (.release q) / prob [q] (σ.outcome [q]) σ.psi
  | .collapse v q => 3 * σ.reach eps d (.collapse v q) / prob [q] v σ.psi
  | c => σ.reach eps d c

/-- The distance does not decide what is observed: the random sample drawn by a measurement differs
by more than twice the distance from the probability it is compared with, and the outcome asked of a
collapse is not so improbable that the code may take it for impossible. -/
def Ideal.Decided (eps : ℝ) (σ : Ideal) (d : ℝ) : Call → Prop
  | .measure q => 2 * σ.reach eps d (.measure q) < |σ.rng 0 - prob [q] true σ.psi|
  | .jointMeasure qs => 2 * σ.reach eps d (.jointMeasure qs) < |σ.rng 0 - prob qs true σ.psi|
  | .release q => σ.live = {q} ∨ 2 * σ.reach eps d (.release q) < |σ.rng 0 - prob [q] true σ.psi|
  | .collapse v q => eps + 2 * σ.reach eps d (.collapse v q) < prob [q] v σ.psi
  | _ => True

/-- The same along a history. -/
def Ideal.AllDecided (eps : ℝ) (σ : Ideal) (d : ℝ) : List Call → Prop
  | [] => True
  | c :: cs => σ.Decided eps d c ∧ (σ.step c).AllDecided eps (σ.after eps d c) cs

/-- Which answers are right within `d`: measured bits exactly, the probability reported by a collapse
within `2 d`, and the other answers as in `AnswerWithin`. -/
def Ideal.AnswerNear (eps d : ℝ) (σ : Ideal) : Call → Out → Prop
  | .measure q, o => o = .bit (σ.outcome [q])
  | .jointMeasure qs, o => o = .bit (σ.outcome qs)
  | .collapse v q, o => ∃ p, o = .real p ∧ |p - prob [q] v σ.psi| ≤ 2 * d
  | c, o => σ.AnswerWithin eps d c o

/-- The same for a history that starts within `d`. -/
def Ideal.AnswersNear (eps : ℝ) (σ : Ideal) (d : ℝ) : List Call → List Out → Prop
  | [], os => os = []
  | c :: cs, os => ∃ o os', os = o :: os' ∧ σ.AnswerNear eps (σ.reach eps d c) c o ∧
      (σ.step c).AnswersNear eps (σ.after eps d c) cs os'

/-- How far the simulator may be after a history. -/
def Ideal.driftOf (eps : ℝ) (σ : Ideal) (d : ℝ) : List Call → ℝ
  | [] => d
  | c :: cs => (σ.step c).driftOf eps (σ.after eps d c) cs

end Spec

namespace Tol

open Classical in
/-- The call the code carries out: an uncontrolled rotation about Y of a qubit with a pending rotation
about X that is within the tolerance of an odd number of half-turns turns the other way. -/
def carriedOut (env : Env) (s : Sim) : Call → Call
  | .gate (.ry θ) q => if ∃ b, s.rxQ.get q = some b ∧ |Real.cos (b / 2)| ≤ env.eps
      then .gate (.ry (-θ)) q else .gate (.ry θ) q
  | c => c

/-- The same along a run. -/
def executed (env : Env) : Sim → List Call → List Call
  | _, [] => []
  | s, c :: cs => carriedOut env s c :: (match call env c s with
      | .ok (_, s') => executed env s' cs
      | .error _ => cs)

end Tol
end Qir
