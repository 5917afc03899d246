import Verif.Model.Exp
import Verif.Spec.Machine

/-!
# The public methods of `QuantumSim` behind one dispatcher

`call` only forwards to the modelled methods; it exists so that histories can be lists.
-/

noncomputable section
namespace Qir
open Spec
namespace Sim

/-- The simulator's own Pauli enumeration, exp.rs:17-22. -/
def pauliArg : Pauli → MPauli
  | .I => .I
  | .X => .X
  | .Z => .Z
  | .Y => .Y

/-- The uncontrolled gates, lib.rs:639, 697, 764, 934, 838, 856, 878, 900, 1139, 1167, 921. -/
def gateCall (env : Env) (q : ℕ) : Gate → Sim → Except Panic Sim
  | .x => x q
  | .y => y q
  | .z => z q
  | .h => h env q
  | .s => sGate env q
  | .sadj => sadj env q
  | .t => t env q
  | .tadj => tadj env q
  | .rx θ => rx env θ q
  | .ry θ => ry env θ q
  | .rz θ => rz env θ q

/-- The multi-controlled gates, lib.rs:653, 708, 784, 950, 844, 862, 884, 906, 1154, 1179, 927. -/
def ctrlCall (env : Env) (cs : List ℕ) (q : ℕ) : Gate → Sim → Except Panic Sim
  | .x => mcx env cs q
  | .y => mcy env cs q
  | .z => mcz env cs q
  | .h => mch env cs q
  | .s => mcs env cs q
  | .sadj => mcsadj env cs q
  | .t => mct env cs q
  | .tadj => mctadj env cs q
  | .rx θ => mcrx env cs θ q
  | .ry θ => mcry env cs θ q
  | .rz θ => mcrz env cs θ q

/-- A method call without a result. Used for the methods of sparsesim/src/lib.rs and sparsesim/src/exp.rs that return
nothing, e.g. sparsesim/src/lib.rs:180, 639. -/
def quiet (r : Except Panic Sim) : Except Panic (Out × Sim) := do
  let s ← r
  return (.none, s)

/-- One public method call. The public methods are those of sparsesim/src/lib.rs:85-1289 and
sparsesim/src/exp.rs:24-204. -/
def call (env : Env) : Call → Sim → Except Panic (Out × Sim)
  | .gate g q, s => quiet (gateCall env q g s)
  | .ctrl g cs q, s => quiet (ctrlCall env cs q g s)
  | .phase cs φ q, s => quiet (mcphase env cs φ q s)
  | .exp cs ps θ ts, s => quiet (mcexp env cs (ps.map pauliArg) θ ts s)
  | .swap a b, s => quiet (swapQubitIds a b s)
  | .allocate, s => .ok (.id s.allocate.1, s.allocate.2)
  | .release q, s => quiet (release env q s)
  | .measure q, s => do
    let (b, s) ← measure env q s
    return (.bit b, s)
  | .jointMeasure qs, s => do
    let (b, s) ← jointMeasure env qs s
    return (.bit b, s)
  | .jointProb qs, s => do
    let (p, s) ← jointProbability env qs s
    return (.real p, s)
  | .isZero q, s => do
    let (b, s) ← qubitIsZero env q s
    return (.bit b, s)
  | .collapse v q, s => do
    let (p, s) ← forceCollapse env v q s
    return (.real p, s)
  | .getState, s => do
    let ((l, n), s) ← getState env s
    return (.state l n, s)
  | .dump fmt, s => do
    let (t, s) ← dump env fmt s
    return (.text t, s)

/-- A history of method calls; the first panic ends it. The public methods are those of sparsesim/src/lib.rs:85-1289
and sparsesim/src/exp.rs:24-204. -/
def runCalls (env : Env) : List Call → Sim → Except Panic (List Out × Sim)
  | [], s => .ok ([], s)
  | c :: cs, s => do
    let (o, s) ← call env c s
    let (os, s) ← runCalls env cs s
    return (o :: os, s)

end Sim
end Qir
