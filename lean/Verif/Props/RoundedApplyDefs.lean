import Verif.Props.RoundedDefs
import Verif.Model.RoundedApply
import Verif.Props.Apply

/-!
# What the theorems about `apply` in rounded arithmetic talk about
-/

noncomputable section
namespace Qir
open Spec Sim

namespace Spec

/-- The work of applying a matrix to `t` qubits, controls included: one unit for each of its rows and three for each
qubit, which has its pending rotations flushed and is moved. -/
def XCall.work (σ : Ideal) : XCall → ℕ
  | .base c => c.work σ
  | .apply cs _ ts => 2 ^ (cs ++ ts).length + 3 * (cs ++ ts).length

/-- How far the simulator may be from the ideal state when it answers the call `c`, having been within `d` before. -/
def Ideal.reachX (A : Arith) (N : ℕ) (σ : Ideal) (d : ℝ) (c : XCall) : ℝ :=
  d + 15 * A.eps * √(2 ^ N) * c.work σ

/-- How far it may be after the call. -/
def Ideal.afterX (A : Arith) (N : ℕ) (σ : Ideal) (d : ℝ) : XCall → ℝ
  | .base c => σ.afterR A N d c
  | c => σ.reachX A N d c

/-- There are never more than `N` qubits, the errors stay below one half, and observations are decided. -/
def Ideal.DecidedX (A : Arith) (N : ℕ) (σ : Ideal) (d : ℝ) : XCall → Prop
  | .base c => σ.DecidedR A N d c
  | c => σ.reachX A N d c ≤ 1 / 2

/-- The same along a history. -/
def Ideal.AllDecidedX (A : Arith) (N : ℕ) (σ : Ideal) (d : ℝ) : List XCall → Prop
  | [] => True
  | c :: cs => σ.DecidedX A N d c ∧ (σ.xstep c).AllDecidedX A N (σ.afterX A N d c) cs

/-- The answer is right within the error accumulated; `apply` answers nothing. -/
def Ideal.AnswerNearX (A : Arith) (N : ℕ) (σ : Ideal) (d : ℝ) : XCall → Out → Prop
  | .base c, o => σ.AnswerNear A.eps (slack A N (σ.reachX A N d (.base c))) c o
  | .apply _ _ _, o => o = .none

/-- The same for a history. -/
def Ideal.AnswersNearX (A : Arith) (N : ℕ) (σ : Ideal) (d : ℝ) : List XCall → List Out → Prop
  | [], os => os = []
  | c :: cs, os => ∃ o os', os = o :: os' ∧ σ.AnswerNearX A N d c o ∧
      (σ.xstep c).AnswersNearX A N (σ.afterX A N d c) cs os'

/-- The work of a history. -/
def Ideal.workX (σ : Ideal) : List XCall → ℕ
  | [] => 0
  | c :: cs => c.work σ + (σ.xstep c).workX cs

/-- Every answer is right within `d`. -/
def Ideal.AnswersWithinX (eps d : ℝ) (σ : Ideal) : List XCall → List Out → Prop
  | [], os => os = []
  | .base c :: cs, os => ∃ o os', os = o :: os' ∧ σ.AnswerWithin eps d c o ∧
      (σ.step c).AnswersWithinX eps d cs os'
  | .apply ks U ts :: cs, os => ∃ os', os = .none :: os' ∧
      (σ.xstep (.apply ks U ts)).AnswersWithinX eps d cs os'

/-- A gate, a query, an allocation or the application of a matrix. -/
def XCall.Plain : XCall → Prop
  | .base c => c.IsGate ∨ c.IsLook ∨ c = .allocate
  | .apply _ _ _ => True

end Spec

namespace Rnd

/-- The angle of an uncontrolled rotation about X or Y, plus the tolerance. -/
def _root_.Qir.Spec.XCall.turn (A : Arith) : XCall → ℝ
  | .base c => c.turn A
  | .apply _ _ _ => 0

/-- The sum of these in a history. -/
def totalTurnX (A : Arith) : List XCall → ℝ
  | [] => 0
  | c :: cs => c.turn A + totalTurnX A cs

/-- The call the code carries out, see `carriedOut`. -/
def carriedOutX (A : Arith) (s : Sim) : XCall → XCall
  | .base c => .base (carriedOut A s c)
  | c => c

/-- The same along a run. -/
def executedX (A : Arith) : Sim → List XCall → List XCall
  | _, [] => []
  | s, c :: cs => carriedOutX A s c :: (match callX A c s with
      | .ok (_, s') => executedX A s' cs
      | .error _ => cs)

/-- No `apply` of the run meets a gap below the number of its operands. -/
def NoGap (A : Arith) : Sim → List XCall → Prop
  | _, [] => True
  | s, c :: cs => (match c with
      | .base _ => True
      | .apply ks _ ts => ¬ Gap s (ks ++ ts).length) ∧ ∀ o s', callX A c s = .ok (o, s') → NoGap A s' cs

end Rnd
end Qir
