import Verif.Props.ChanceDefs

/-!
# A way around finding F1: what the property theorems talk about
-/

noncomputable section
namespace Qir.Back
open Spec Run

/-- The angle and the qubit of an uncontrolled rotation about Y. -/
def aboutY : QCall → Option (ℝ × ℕ)
  | .gate (.ry θ) q => some (θ, q)
  | .r .Y θ q => some (θ, q)
  | .rAdj .Y θ q => some (-θ, q)
  | _ => none

/-- The program with every uncontrolled rotation about Y replaced by one about X between two phase gates. -/
def unturned : Prog QCall QAns → Prog QCall QAns
  | .done => .done
  | .call c k => match aboutY c with
    | none => .call c fun a => unturned (k a)
    | some (θ, q) => .call (.gate .sadj q) fun _ => .call (.gate (.rx θ) q) fun _ => .call (.gate .s q) fun _ =>
        unturned (k .unit)

/-- The program names its qubits by number, with distinct operands; its rotations may be any. -/
def Tidy : Prog QCall QAns → Prop
  | .done => True
  | .call c k => c.Static ∧ c.Distinct ∧ c.Determined ∧ ∀ a, Tidy (k a)

end Qir.Back
