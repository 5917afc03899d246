import Verif.Props.DriftDefs
import Verif.Model.Rounded

/-!
# What the theorems about rounded arithmetic talk about
-/

noncomputable section
namespace Qir
open Spec Sim

namespace Spec

/-- Half the error of a probability computed from the amplitudes of at most `N` qubits that are within `d` of the
ideal ones. -/
def slack (A : Arith) (N : ℕ) (d : ℝ) : ℝ := 5 / 4 * d + 10 * 2 ^ N * (A.u + A.eta)

/-- How far the simulator may be from the ideal state `σ` when it answers the call `c`, having been within `d`
before it. -/
def Ideal.reachR (A : Arith) (N : ℕ) (σ : Ideal) (d : ℝ) (c : Call) : ℝ :=
  d + 15 * A.eps * √(2 ^ N) * c.work σ

/-- How far it may be after an observation of the outcome `v` of the parity of `qs`. -/
def Ideal.observedR (A : Arith) (N : ℕ) (σ : Ideal) (d : ℝ) (c : Call) (qs : List ℕ) (v : Bool) : ℝ :=
  8 * slack A N (σ.reachR A N d c) / prob qs v σ.psi + 3 * A.eps * √(2 ^ N)

open Classical in
/-- How far it may be after the call. -/
def Ideal.afterR (A : Arith) (N : ℕ) (σ : Ideal) (d : ℝ) : Call → ℝ
  | .measure q => σ.observedR A N d (.measure q) [q] (σ.outcome [q])
  | .jointMeasure qs => σ.observedR A N d (.jointMeasure qs) qs (σ.outcome qs)
  | .release q => if σ.live = {q} then 0 else σ.observedR A N d (.release q) [q] (σ.outcome [q])
  | .collapse v q => σ.observedR A N d (.collapse v q) [q] v
  | c => σ.reachR A N d c

/-- The distance does not decide what is observed: the random sample drawn by a measurement differs from the
probability it is compared with by more than twice the error of that probability, and the outcome asked of a collapse
is not that improbable. -/
def Ideal.ClearR (A : Arith) (N : ℕ) (σ : Ideal) (d : ℝ) : Call → Prop
  | .measure q => 4 * slack A N (σ.reachR A N d (.measure q)) < |σ.rng 0 - prob [q] true σ.psi|
  | .jointMeasure qs => 4 * slack A N (σ.reachR A N d (.jointMeasure qs)) < |σ.rng 0 - prob qs true σ.psi|
  | .release q => σ.live = {q} ∨
      4 * slack A N (σ.reachR A N d (.release q)) < |σ.rng 0 - prob [q] true σ.psi|
  | .collapse v q => A.eps + 4 * slack A N (σ.reachR A N d (.collapse v q)) < prob [q] v σ.psi
  | _ => True

/-- That, there are never more than `N` qubits, and the errors stay below one half. -/
def Ideal.DecidedR (A : Arith) (N : ℕ) (σ : Ideal) (d : ℝ) (c : Call) : Prop :=
  (σ.step c).live.card ≤ N ∧ slack A N (σ.reachR A N d c) ≤ 1 / 2 ∧ σ.afterR A N d c ≤ 1 / 2 ∧ σ.ClearR A N d c

/-- The same along a history. -/
def Ideal.AllDecidedR (A : Arith) (N : ℕ) (σ : Ideal) (d : ℝ) : List Call → Prop
  | [] => True
  | c :: cs => σ.DecidedR A N d c ∧ (σ.step c).AllDecidedR A N (σ.afterR A N d c) cs

/-- The answers to a history that starts within `d` are right: measured bits exactly, state vectors within the slack,
probabilities within twice the slack. -/
def Ideal.AnswersNearR (A : Arith) (N : ℕ) (σ : Ideal) (d : ℝ) : List Call → List Out → Prop
  | [], os => os = []
  | c :: cs, os => ∃ o os', os = o :: os' ∧ σ.AnswerNear A.eps (slack A N (σ.reachR A N d c)) c o ∧
      (σ.step c).AnswersNearR A N (σ.afterR A N d c) cs os'

end Spec

namespace Rnd

/-- When the angle of an uncontrolled rotation about X or Y is added to a pending one, the rounding error of the sum is
at most the tolerance. -/
def AngleCall (A : Arith) (s : Sim) : Call → Prop
  | .gate (.rx θ) q => ∀ a, s.rxQ.get q = some a → A.u * |a + θ| + A.eta ≤ A.eps
  | .gate (.ry θ) q => ∀ a, s.ryQ.get q = some a → A.u * |a + θ| + A.eta ≤ A.eps
  | _ => True

/-- The same along a run. -/
def Angles (A : Arith) : Sim → List Call → Prop
  | _, [] => True
  | s, c :: cs => AngleCall A s c ∧ ∀ o s', call A c s = .ok (o, s') → Angles A s' cs

/-- The angle of an uncontrolled rotation about X or Y, plus the tolerance. -/
def _root_.Qir.Spec.Call.turn (A : Arith) : Call → ℝ
  | .gate (.rx θ) _ => |θ| + A.eps
  | .gate (.ry θ) _ => |θ| + A.eps
  | _ => 0

/-- The sum of these in a history. -/
def totalTurn (A : Arith) : List Call → ℝ
  | [] => 0
  | c :: cs => c.turn A + totalTurn A cs

open Classical in
/-- The call the code carries out: an uncontrolled rotation about Y of a qubit with a pending rotation about X that
looks like an odd number of half-turns turns the other way. -/
def carriedOut (A : Arith) (s : Sim) : Call → Call
  | .gate (.ry θ) q => if ∃ b, s.rxQ.get q = some b ∧ |A.cos (b / 2)| ≤ A.eps
      then .gate (.ry (-θ)) q else .gate (.ry θ) q
  | c => c

/-- The same along a run. -/
def executed (A : Arith) : Sim → List Call → List Call
  | _, [] => []
  | s, c :: cs => carriedOut A s c :: (match call A c s with
      | .ok (_, s') => executed A s' cs
      | .error _ => cs)

end Rnd
end Qir
