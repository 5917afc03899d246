import Verif.Model.Generic
import Verif.Model.Backend

/-!
# The backend over an arbitrary arithmetic

The functions of `Model/Backend` that touch the simulator or a number, on top of `Model/Generic`: nothing is assumed of the
numbers.  Those that only touch the result registers or the output are those of `Model/Backend`.  `Proof/GenericBackExact`
shows that with the arithmetic of the real numbers the functions here are those of `Model/Backend`.

The simplifications are those of `Model/Backend` and `Model/Generic`.  What the functions call outside the repository is the
structure `Lib`.
-/

namespace Qir
namespace Gen
open Spec (Pauli)
open Qir.Out Qir.Std
open Qir.Back (grow resultPtr resultEqual nonIdentity sizeMessage bytesOf boundsMessage)

variable {F : Type}

/-- `SimulatorState`, backend/src/lib.rs 37-41, and the random source of the thread. -/
structure GBackend (F : Type) where
  sim : GSim F
  res : List Bool
  max : ℕ
  os : ℕ → ℕ

/-- Functions of the standard library and of other crates. Used at backend/src/lib.rs:1024-1047,
backend/src/lib.rs:820-826 and stdlib/src/math.rs:109-127. -/
structure Lib (F : Type) where
  /-- `Display` of `BitVec` -/
  bits : List Bool → Bytes
  /-- `Display` of `Complex64` -/
  amplitude : Cx F → String
  /-- `f64::abs` -/
  abs : F → F
  /-- `random_range(min..=max)` of `rand` from one random word; `none` is its panic (bounds not finite or out of order) -/
  uniform : F → F → ℕ → Option F

/-- The ways in which a call ends the process: a panic of the simulator, `__quantum__rt__fail` with its message,
`unimplemented!`, a panic of `random_range`. stdlib/src/lib.rs:85-90 for `fail`; panics as sparsesim/src/lib.rs:295,
538, backend/src/lib.rs:1026. -/
inductive GStop
  | sim (p : Panic)
  | fail (msg : List Char)
  | unimplemented
  | range

/-- The state at the start of the process, lib.rs 43-49; the generator is that of `QuantumSim::default`. -/
def GBackend.new (N : Num F) (rng : ℕ → F) (os : ℕ → ℕ) : GBackend F := { sim := Gen.new N rng, res := [], max := 0, os := os }

/-- `__quantum__rt__initialize`, lib.rs 61-70.  The generator is moved by `take_rng`, sparsesim/src/lib.rs:110-112; what that
puts in its place goes with the old simulator. -/
def reinit (N : Num F) (s : GBackend F) : GBackend F := { s with sim := Gen.new N s.sim.rng, res := [], max := 0 }

/-- `ensure_sufficient_qubits`, lib.rs 72-77. -/
def ensure (q : ℕ) (s : GBackend F) : GBackend F :=
  if q + 1 > s.max then ensure q { s with sim := (allocate s.sim).2, max := s.max + 1 } else s
termination_by q + 1 - s.max

/-- The loops over arrays of qubits that call `ensure_sufficient_qubits` for each element, e.g. lib.rs 318-325. -/
def ensureAll (qs : List ℕ) (s : GBackend F) : GBackend F := qs.foldl (fun s q => ensure q s) s

/-- A panic of the simulator is a panic of the backend. The methods of sparsesim/src/lib.rs called throughout
backend/src/lib.rs:72-1047. -/
def lift {α : Type} : Except Panic α → Except GStop α
  | .ok a => .ok a
  | .error p => .error (.sim p)

/-- A method of the simulator without result. E.g. backend/src/lib.rs:151-158. -/
def act (f : GSim F → Except Panic (GSim F)) (s : GBackend F) : Except GStop (GBackend F) := do
  let m ← lift (f s.sim)
  return { s with sim := m }

/-- A method of the simulator with a result. E.g. backend/src/lib.rs:733-744. -/
def ask {α : Type} (f : GSim F → Except Panic (α × GSim F)) (s : GBackend F) : Except GStop (α × GBackend F) := do
  let (a, m) ← lift (f s.sim)
  return (a, { s with sim := m })

/-- A loop whose body can panic. E.g. backend/src/lib.rs:132-143. -/
def forEach {α : Type} (f : α → GBackend F → Except GStop (GBackend F)) : List α → GBackend F → Except GStop (GBackend F)
  | [], s => .ok s
  | a :: l, s => do
    let s ← f a s
    forEach f l s

namespace B

/-- `single_qubit_gate!`, lib.rs 146-201, and `single_qubit_rotation!`, lib.rs 275-306. -/
def gate (N : Num F) (g : GGate F) (q : ℕ) (s : GBackend F) : Except GStop (GBackend F) :=
  act (Gen.gateCall N q g) (ensure q s)

/-- `controlled_qubit_gate!`, lib.rs 203-273, `multicontrolled_qubit_gate!`, lib.rs 308-377, and
`multicontrolled_qubit_rotation!`, lib.rs 386-434. -/
def ctl (N : Num F) (g : GGate F) (cs : List ℕ) (q : ℕ) (s : GBackend F) : Except GStop (GBackend F) :=
  act (Gen.ctrlCall N cs q g) (ensureAll cs (ensure q s))

/-- `__quantum__qis__sx__body`, lib.rs 438-442. -/
def sx (N : Num F) (q : ℕ) (s : GBackend F) : Except GStop (GBackend F) := do
  let s ← gate N .h q s
  let s ← gate N .s q s
  gate N .h q s

/-- `__quantum__qis__rzz__body`, lib.rs 490-498. -/
def rzz (N : Num F) (θ : F) (a b : ℕ) (s : GBackend F) : Except GStop (GBackend F) := do
  let s ← ctl N .x [b] a s
  let s ← gate N (.rz θ) a s
  ctl N .x [b] a s

/-- `__quantum__qis__rxx__body`, lib.rs 446-460. -/
def rxx (N : Num F) (θ : F) (a b : ℕ) (s : GBackend F) : Except GStop (GBackend F) := do
  let s ← gate N .h a s
  let s ← gate N .h b s
  let s ← rzz N θ a b s
  let s ← gate N .h b s
  gate N .h a s

/-- `__quantum__qis__ryy__body`, lib.rs 464-486. -/
def ryy (N : Num F) (θ : F) (a b : ℕ) (s : GBackend F) : Except GStop (GBackend F) := do
  let s ← gate N .h a s
  let s ← gate N .s a s
  let s ← gate N .h a s
  let s ← gate N .h b s
  let s ← gate N .s b s
  let s ← gate N .h b s
  let s ← rzz N θ a b s
  let s ← gate N .h b s
  let s ← gate N .sadj b s
  let s ← gate N .h b s
  let s ← gate N .h a s
  let s ← gate N .sadj a s
  gate N .h a s

/-- `__quantum__qis__r__body`, lib.rs 502-509. -/
def r (N : Num F) (p : Pauli) (θ : F) (q : ℕ) (s : GBackend F) : Except GStop (GBackend F) :=
  match p with
  | .I => .ok s
  | .X => gate N (.rx θ) q s
  | .Y => gate N (.ry θ) q s
  | .Z => gate N (.rz θ) q s

/-- `__quantum__qis__r__adj`, lib.rs 513-515. -/
def rAdj (N : Num F) (p : Pauli) (θ : F) (q : ℕ) (s : GBackend F) : Except GStop (GBackend F) := r N p (N.neg θ) q s

/-- `__quantum__qis__r__ctl`, lib.rs 531-587. -/
def rCtl (N : Num F) (cs : List ℕ) (p : Pauli) (θ : F) (q : ℕ) (s : GBackend F) : Except GStop (GBackend F) :=
  match p with
  | .X => ctl N (.rx θ) cs q s
  | .Y => ctl N (.ry θ) cs q s
  | .Z => ctl N (.rz θ) cs q s
  | .I =>
    if cs.length > 0 then
      let s := ensureAll cs (ensure q s)
      match cs with
      | [] => .ok s
      | head :: rest => act (Gen.mcphase N rest (N.cis (N.div (N.neg θ) N.two)) head) s
    else .ok s

/-- `__quantum__qis__r__ctladj`, lib.rs 594-610. -/
def rCtlAdj (N : Num F) (cs : List ℕ) (p : Pauli) (θ : F) (q : ℕ) (s : GBackend F) : Except GStop (GBackend F) :=
  rCtl N cs p (N.neg θ) q s

/-- `__quantum__qis__exp__body`, exp.rs 36-68. -/
def exp (N : Num F) (ps : List Pauli) (θ : F) (qs : List ℕ) (s : GBackend F) : Except GStop (GBackend F) :=
  act (Gen.mcexp N [] (ps.map Sim.pauliArg) θ qs) (ensureAll qs s)

/-- `__quantum__qis__exp__adj`, exp.rs 75-83. -/
def expAdj (N : Num F) (ps : List Pauli) (θ : F) (qs : List ℕ) (s : GBackend F) : Except GStop (GBackend F) :=
  exp N ps (N.neg θ) qs s

/-- `__quantum__qis__exp__ctl`, exp.rs 99-139. -/
def expCtl (N : Num F) (cs : List ℕ) (ps : List Pauli) (θ : F) (qs : List ℕ) (s : GBackend F) :
    Except GStop (GBackend F) :=
  act (Gen.mcexp N cs (ps.map Sim.pauliArg) θ qs) (ensureAll qs (ensureAll cs s))

/-- `__quantum__qis__exp__ctladj`, exp.rs 147-163. -/
def expCtlAdj (N : Num F) (cs : List ℕ) (ps : List Pauli) (θ : F) (qs : List ℕ) (s : GBackend F) :
    Except GStop (GBackend F) :=
  expCtl N cs ps (N.neg θ) qs s

/-- `__quantum__qis__swap__body`, lib.rs 614-622. -/
def swap (N : Num F) (a b : ℕ) (s : GBackend F) : Except GStop (GBackend F) :=
  act (Gen.swapQubitIds N a b) (ensure b (ensure a s))

/-- `__quantum__qis__reset__body`, lib.rs 626-635. -/
def reset (N : Num F) (q : ℕ) (s : GBackend F) : Except GStop (GBackend F) := do
  let (b, s) ← ask (Gen.measure N q) (ensure q s)
  if b then act (Gen.x N q) s else return s

/-- `__quantum__qis__mresetz__body`, lib.rs 642-663. -/
def mresetz (N : Num F) (q r : ℕ) (s : GBackend F) : Except GStop (GBackend F) := do
  let s := ensure q s
  let s := { s with res := grow r s.res }
  let (b, s) ← ask (Gen.measure N q) s
  let s ← if b then act (Gen.x N q) s else pure s
  return { s with res := s.res.set r b }

/-- `__quantum__qis__mz__body`, lib.rs 669-686. -/
def mz (N : Num F) (q r : ℕ) (s : GBackend F) : Except GStop (GBackend F) := do
  let s := ensure q s
  let s := { s with res := grow r s.res }
  let (b, s) ← ask (Gen.measure N q) s
  return { s with res := s.res.set r b }

/-- `__quantum__qis__m__body`, lib.rs 733-744. -/
def m (N : Num F) (q : ℕ) (s : GBackend F) : Except GStop (ℕ × GBackend F) := do
  let (b, s) ← ask (Gen.measure N q) (ensure q s)
  return (resultPtr b, s)

/-- One turn of the loop of `map_to_z_basis`, lib.rs 115-125. -/
def mapOne (N : Num F) (pq : Pauli × ℕ) (s : GBackend F) : Except GStop (GBackend F) :=
  match pq.1 with
  | .X => act (Gen.h N pq.2) s
  | .Y => do
    let s ← act (Gen.h N pq.2) s
    let s ← act (Gen.gateCall N pq.2 .s) s
    act (Gen.h N pq.2) s
  | _ => .ok s

/-- One turn of the loop of `unmap_from_z_basis`, lib.rs 132-143. -/
def unmapOne (N : Num F) (pq : Pauli × ℕ) (s : GBackend F) : Except GStop (GBackend F) :=
  match pq.1 with
  | .X => act (Gen.h N pq.2) s
  | .Y => do
    let s ← act (Gen.h N pq.2) s
    let s ← act (Gen.gateCall N pq.2 .sadj) s
    act (Gen.h N pq.2) s
  | _ => .ok s

/-- `map_to_z_basis`, lib.rs 82-128. -/
def mapToZ (N : Num F) (ps : List Pauli) (qs : List ℕ) (s : GBackend F) :
    Except GStop (List (Pauli × ℕ) × GBackend F) :=
  if ps.length ≠ qs.length then .error (.fail sizeMessage)
  else do
    let combined := nonIdentity ps qs
    let s ← forEach (mapOne N) combined (ensureAll (combined.map Prod.snd) s)
    return (combined, s)

/-- `unmap_from_z_basis`, lib.rs 132-144. -/
def unmapFromZ (N : Num F) (l : List (Pauli × ℕ)) (s : GBackend F) : Except GStop (GBackend F) :=
  forEach (unmapOne N) l s

/-- `__quantum__qis__measure__body`, lib.rs 755-781. -/
def measure (N : Num F) (ps : List Pauli) (qs : List ℕ) (s : GBackend F) : Except GStop (ℕ × GBackend F) := do
  let (combined, s) ← mapToZ N ps qs s
  let (b, s) ← ask (Gen.jointMeasure N (combined.map Prod.snd)) s
  let s ← unmapFromZ N combined s
  return (resultPtr b, s)

/-- `qubit_is_zero`, lib.rs 784-791. -/
def qubitIsZero (N : Num F) (q : ℕ) (s : GBackend F) : Except GStop (Bool × GBackend F) :=
  ask (Gen.qubitIsZero N q) (ensure q s)

/-- `__quantum__qis__assertmeasurementprobability__body`, lib.rs 799-834. -/
def assertProb (N : Num F) (lib : Lib F) (ps : List Pauli) (qs : List ℕ) (result : ℕ) (prob : F) (msg : List Char) (tol : F)
    (s : GBackend F) : Except GStop (GBackend F) := do
  let (combined, s) ← mapToZ N ps qs s
  let (p, s) ← ask (Gen.jointProbability N (combined.map Prod.snd)) s
  let actual := if resultEqual result (resultPtr false) then N.sub N.one p else p
  if N.lt tol (lib.abs (N.sub actual prob)) then .error (.fail msg) else unmapFromZ N combined s

/-- `__quantum__rt__qubit_release`, lib.rs 987-992. -/
def qubitRelease (N : Num F) (q : ℕ) (s : GBackend F) : Except GStop (GBackend F) := act (Gen.release N q) s

/-- `__quantum__qis__dumpmachine__body`, lib.rs 1024-1047; `location` is whether it is not null. -/
def dumpMachine (N : Num F) (lib : Lib F) (location : Bool) (s : GBackend F) : Except GStop (Bytes × GBackend F) :=
  if location then .error .unimplemented
  else do
    let results := if s.res.isEmpty then [] else Run.utf8 "Global Results: " ++ lib.bits s.res ++ lineEnding
    let (t, s) ← ask (Gen.dump N lib.amplitude) s
    return (results ++ Run.utf8 t, s)

/-- `__quantum__qis__read_result__body`, lib.rs 692-703, and `__quantum__rt__read_result`, lib.rs 710-712. -/
def readResult (r : ℕ) (s : GBackend F) : Except GStop (Bool × GBackend F) :=
  let res := grow r s.res
  match res[r]? with
  | some b => .ok (b, { s with res := res })
  | none => .error (.sim .outOfBounds)

/-- `__quantum__rt__write_result`, lib.rs 718-729. -/
def writeResult (v : Bool) (r : ℕ) (s : GBackend F) : GBackend F := { s with res := (grow r s.res).set r v }

/-- The choice of the value in both `__quantum__rt__result_record_output`, lib.rs 886-896 and 914-924. -/
def recordedResult (r : ℕ) (s : GBackend F) : Except GStop (Bool × GBackend F) :=
  if s.res.isEmpty then .ok (resultEqual r (resultPtr true), s)
  else
    let res := grow r s.res
    match res[r]? with
    | some b => .ok (b, { s with res := res })
    | none => .error (.sim .outOfBounds)

/-- `__quantum__rt__qubit_allocate`, lib.rs 935-946. -/
def qubitAllocate (s : GBackend F) : ℕ × GBackend F :=
  let (q, sim) := allocate s.sim
  (q, { s with sim := sim, max := Nat.max s.max (q + 1) })

/-- `capture_quantum_state`, lib.rs 1013-1018. -/
def captureQuantumState (N : Num F) (s : GBackend F) : Except GStop ((List (ℕ × Cx F) × ℕ) × GBackend F) :=
  ask (getState N) s

end B

/-! ### The calls of a program -/

/-- A call of a library function by a QIR program, as in `Spec.QCall`. The functions are those of
backend/src/lib.rs:146-1053, backend/src/exp.rs:36-165, backend/src/result_bool.rs, stdlib/src/math.rs:109-127 and
stdlib/src/lib.rs:83-105. -/
inductive GQCall (F : Type)
  | gate (g : GGate F) (q : ℕ)
  | ctl (g : GGate F) (cs : List ℕ) (q : ℕ)
  | sx (q : ℕ)
  | rxx (θ : F) (a b : ℕ)
  | ryy (θ : F) (a b : ℕ)
  | rzz (θ : F) (a b : ℕ)
  | r (p : Pauli) (θ : F) (q : ℕ)
  | rAdj (p : Pauli) (θ : F) (q : ℕ)
  | rCtl (cs : List ℕ) (p : Pauli) (θ : F) (q : ℕ)
  | rCtlAdj (cs : List ℕ) (p : Pauli) (θ : F) (q : ℕ)
  | exp (ps : List Pauli) (θ : F) (qs : List ℕ)
  | expAdj (ps : List Pauli) (θ : F) (qs : List ℕ)
  | expCtl (cs : List ℕ) (ps : List Pauli) (θ : F) (qs : List ℕ)
  | expCtlAdj (cs : List ℕ) (ps : List Pauli) (θ : F) (qs : List ℕ)
  | swap (a b : ℕ)
  | reset (q : ℕ)
  | mresetz (q r : ℕ)
  | mz (q r : ℕ)
  | readResult (r : ℕ)
  | writeResult (v : Bool) (r : ℕ)
  | m (q : ℕ)
  | measure (ps : List Pauli) (qs : List ℕ)
  | isZero (q : ℕ)
  | assertProb (ps : List Pauli) (qs : List ℕ) (result : ℕ) (prob : F) (msg : List Char) (tol : F)
  | allocate
  | release (q : ℕ)
  | recordResult (r : ℕ) (tag : Option Bytes)
  | legacyResult (r : ℕ)
  | record (e : Record) (plain : ∀ b t, e ≠ .result b t)
  | legacy (e : Legacy) (plain : ∀ b, e ≠ .result b)
  | fail (msg : List Char)
  | dump (location : Bool)
  | barrier
  | reinit
  | drawInt (min max : ℤ)
  | drawDouble (min max : F)

/-- What comes back. The functions are those of backend/src/lib.rs:146-1053, backend/src/exp.rs:36-165,
backend/src/result_bool.rs, stdlib/src/math.rs:109-127 and stdlib/src/lib.rs:83-105. -/
inductive GAns (F : Type)
  | unit
  | bit (b : Bool)
  | ptr (n : ℕ)
  | int (n : ℤ)
  | real (x : F)

/-- A silent call. E.g. backend/src/lib.rs:151-158. -/
def silent (r : Except GStop (GBackend F)) : Except GStop (GAns F × Bytes × GBackend F) := do
  let s ← r
  return (.unit, [], s)

/-- The state after a draw has taken two words. stdlib/src/math.rs:116, 126. -/
def drew (s : GBackend F) : GBackend F := { s with os := fun n => s.os (n + 2) }

/-- One call. The functions are those of backend/src/lib.rs:146-1053, backend/src/exp.rs:36-165,
backend/src/result_bool.rs, stdlib/src/math.rs:109-127 and stdlib/src/lib.rs:83-105. -/
def qstep (N : Num F) (lib : Lib F) (c : GQCall F) (s : GBackend F) : Except GStop (GAns F × Bytes × GBackend F) :=
  match c with
  | .gate g q => silent (B.gate N g q s)
  | .ctl g cs q => silent (B.ctl N g cs q s)
  | .sx q => silent (B.sx N q s)
  | .rxx θ a b => silent (B.rxx N θ a b s)
  | .ryy θ a b => silent (B.ryy N θ a b s)
  | .rzz θ a b => silent (B.rzz N θ a b s)
  | .r p θ q => silent (B.r N p θ q s)
  | .rAdj p θ q => silent (B.rAdj N p θ q s)
  | .rCtl cs p θ q => silent (B.rCtl N cs p θ q s)
  | .rCtlAdj cs p θ q => silent (B.rCtlAdj N cs p θ q s)
  | .exp ps θ qs => silent (B.exp N ps θ qs s)
  | .expAdj ps θ qs => silent (B.expAdj N ps θ qs s)
  | .expCtl cs ps θ qs => silent (B.expCtl N cs ps θ qs s)
  | .expCtlAdj cs ps θ qs => silent (B.expCtlAdj N cs ps θ qs s)
  | .swap a b => silent (B.swap N a b s)
  | .reset q => silent (B.reset N q s)
  | .mresetz q r => silent (B.mresetz N q r s)
  | .mz q r => silent (B.mz N q r s)
  | .readResult r => do
    let (b, s) ← B.readResult r s
    return (.bit b, [], s)
  | .writeResult v r => .ok (.unit, [], B.writeResult v r s)
  | .m q => do
    let (n, s) ← B.m N q s
    return (.ptr n, [], s)
  | .measure ps qs => do
    let (n, s) ← B.measure N ps qs s
    return (.ptr n, [], s)
  | .isZero q => do
    let (b, s) ← B.qubitIsZero N q s
    return (.bit b, [], s)
  | .assertProb ps qs result prob msg tol => silent (B.assertProb N lib ps qs result prob msg tol s)
  | .allocate => .ok (.ptr (B.qubitAllocate s).1, [], (B.qubitAllocate s).2)
  | .release q => silent (B.qubitRelease N q s)
  | .recordResult r tag => do
    let (b, s) ← B.recordedResult r s
    return (.unit, bytesOf (resultRecordOutput b tag), s)
  | .legacyResult r => do
    let (b, s) ← B.recordedResult r s
    return (.unit, bytesOf (emitLegacy (.result b)), s)
  | .record e _ => .ok (.unit, bytesOf (emit e), s)
  | .legacy e _ => .ok (.unit, bytesOf (emitLegacy e), s)
  | .fail msg => .error (.fail msg)
  | .dump location => do
    let (out, s) ← B.dumpMachine N lib location s
    return (.unit, out, s)
  | .barrier => .ok (.unit, [], s)
  | .reinit => .ok (.unit, [], Gen.reinit N s)
  | .drawInt min max =>
    match drawRandomInt min max (s.os 0) (s.os 1) with
    | .ok n => .ok (.int n, [], drew s)
    | .error _ => .error (.fail boundsMessage)
  | .drawDouble min max =>
    if N.lt max min then .error (.fail boundsMessage)
    else match lib.uniform min max (s.os 0) with
      | some x => .ok (.real x, [], drew s)
      | none => .error .range

/-- What a call has written when it ends the process: `__quantum__rt__fail` first records its message,
stdlib/src/lib.rs 85-90. -/
def GStop.output : GStop → Bytes
  | .fail msg => bytesOf (message msg)
  | _ => []

/-- The library behind the runner. runner/src/lib.rs:332-605 binds the names to the functions of backend/src/lib.rs
and of stdlib/src. -/
def step (N : Num F) (lib : Lib F) : Run.StepFn (GQCall F) (GAns F) (GBackend F) := fun c s =>
  match qstep N lib c s with
  | .ok r => .ok r
  | .error e => .error e.output

end Gen
end Qir
