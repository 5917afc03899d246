import Verif.Model.Backend
import Verif.Props.Defs

/-!
# What the property theorems about the backend talk about
-/

noncomputable section
namespace Qir.Back
open Spec Sim Qir.Out

/-- The value of a result register. -/
def Backend.reg (s : Backend) (r : ℕ) : Bool := s.res.getD r false

/-- The device state a backend with the qubits `L` and the reported state `ψ` stands for. -/
def Backend.device (s : Backend) (L : Finset ℕ) (ψ : Wave) : Device :=
  { live := L, high := s.max, psi := ψ, rng := s.sim.rng, reg := s.reg, touched := !s.res.isEmpty }

/-- No uncontrolled rotation about Y is requested of a qubit with a pending half-turn about X. -/
def QCallOk (s : Backend) : QCall → Prop
  | .gate (.ry _) q | .r .Y _ q | .rAdj .Y _ q => ¬ PendingHalfTurn s.sim q
  | _ => True

/-- The states a program can bring the backend into with valid calls, whatever the samples in the unit interval
and the unseeded words. -/
inductive QReach (env : Env) (fmt : Fmt) : Backend → Prop
  | new {rng : ℕ → ℝ} (samples : ∀ n, 0 ≤ rng n ∧ rng n < 1) (os : ℕ → ℕ) : QReach env fmt (Backend.new rng os)
  | step {s s' : Backend} {L : Finset ℕ} {ψ : Wave} {c : QCall} {a : QAns} {out : Bytes} :
      QReach env fmt s → Shows env s.sim L ψ → (s.device L ψ).Valid c →
      qstep env fmt c s = .ok (a, out, s') → QReach env fmt s'

/-- A list of calls in a row: the answers, what is written, the state left. -/
def runQ (env : Env) (fmt : Fmt) : List QCall → Backend → Except Stop (List QAns × Bytes × Backend)
  | [], s => .ok ([], [], s)
  | c :: cs, s => do
    let (a, out, s) ← qstep env fmt c s
    let (as, out', s) ← runQ env fmt cs s
    return (a :: as, out ++ out', s)

end Qir.Back
