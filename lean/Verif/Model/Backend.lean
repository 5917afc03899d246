import Verif.Model.Api
import Verif.Model.Math
import Verif.Model.Runner
import Verif.Spec.Device

/-!
# The backend

Model of `backend/src/lib.rs`, `backend/src/exp.rs` and `backend/src/result_bool.rs`: the functions a QIR
program calls, on top of the simulator.

Simplifications.  Pointers to qubits and results are the numbers they are cast to.  Runtime arrays and argument
tuples are given by their contents; the copies of argument tuples that `r__ctl`, `r__ctladj` and `exp__ctladj`
make and free again do not appear.  (`qubit_allocate_array` and `qubit_release_array` with the real heap are in
`Verif.Model.QubitArray`.)  The text of a bit vector and of a complex number (`bitvec`, `num-complex`) are the
parameters `Fmt`.  `rand::rng()` is a second random source that nothing in the repository seeds, the list `os` of
its future words; a draw takes two words.
-/

noncomputable section
namespace Qir
open Spec Sim Out Qir.Std
namespace Back

/-- `SimulatorState`, backend/src/lib.rs 37-41, and the random source of the thread. -/
structure Backend where
  sim : Sim
  res : List Bool
  max : ℕ
  os : ℕ → ℕ

/-- The text produced by `Display` of `BitVec` and of `Complex64`. Used at backend/src/lib.rs:1024-1047 and
sparsesim/src/lib.rs:247-279. -/
structure Fmt where
  bits : List Bool → Bytes
  amplitude : ℂ → String

/-- The ways in which a call ends the process: a panic of the simulator, `__quantum__rt__fail` with its message,
`unimplemented!`. stdlib/src/lib.rs:85-90 for `fail`; panics as sparsesim/src/lib.rs:295, 538,
backend/src/lib.rs:1026. -/
inductive Stop
  | sim (p : Panic)
  | fail (msg : List Char)
  | unimplemented
deriving DecidableEq

/-- A panic of the simulator is a panic of the backend. The methods of sparsesim/src/lib.rs called throughout
backend/src/lib.rs:72-1047. -/
def lift {α : Type} : Except Panic α → Except Stop α
  | .ok a => .ok a
  | .error p => .error (.sim p)

/-- The state at the start of the process, lib.rs 43-49; the generator is that of `QuantumSim::default`. -/
def Backend.new (rng : ℕ → ℝ) (os : ℕ → ℕ) : Backend := { sim := Sim.new rng, res := [], max := 0, os := os }

/-- `set_rng_seed`, lib.rs 52-57; the seed is represented by the stream it produces. -/
def setRngSeed (stream : ℕ → ℝ) (s : Backend) : Backend := { s with sim := s.sim.setRng stream }

/-- `__quantum__rt__initialize`, lib.rs 61-70.  The generator is moved by `take_rng`, sparsesim/src/lib.rs:110-112; what that
puts in its place goes with the old simulator. -/
def reinit (s : Backend) : Backend :=
  { s with sim := Sim.new s.sim.rng, res := [], max := 0 }

/-- `ensure_sufficient_qubits`, lib.rs 72-77. -/
def ensure (q : ℕ) (s : Backend) : Backend :=
  if q + 1 > s.max then ensure q { s with sim := s.sim.allocate.2, max := s.max + 1 } else s
termination_by q + 1 - s.max

/-- The loops over arrays of qubits that call `ensure_sufficient_qubits` for each element, e.g. lib.rs 318-325. -/
def ensureAll (qs : List ℕ) (s : Backend) : Backend := qs.foldl (fun s q => ensure q s) s

/-- A method of the simulator without result. E.g. backend/src/lib.rs:151-158. -/
def act (f : Sim → Except Panic Sim) (s : Backend) : Except Stop Backend := do
  let m ← lift (f s.sim)
  return { s with sim := m }

/-- A method of the simulator with a result. E.g. backend/src/lib.rs:733-744. -/
def ask {α : Type} (f : Sim → Except Panic (α × Sim)) (s : Backend) : Except Stop (α × Backend) := do
  let (a, m) ← lift (f s.sim)
  return (a, { s with sim := m })

/-- `single_qubit_gate!`, lib.rs 146-201, and `single_qubit_rotation!`, lib.rs 275-306. -/
def gate (env : Env) (g : Gate) (q : ℕ) (s : Backend) : Except Stop Backend :=
  act (gateCall env q g) (ensure q s)

/-- `controlled_qubit_gate!`, lib.rs 203-273, `multicontrolled_qubit_gate!`, lib.rs 308-377, and
`multicontrolled_qubit_rotation!`, lib.rs 386-434. -/
def ctl (env : Env) (g : Gate) (cs : List ℕ) (q : ℕ) (s : Backend) : Except Stop Backend :=
  act (ctrlCall env cs q g) (ensureAll cs (ensure q s))

/-- `__quantum__qis__sx__body`, lib.rs 438-442. -/
def sx (env : Env) (q : ℕ) (s : Backend) : Except Stop Backend := do
  let s ← gate env .h q s
  let s ← gate env .s q s
  gate env .h q s

/-- `__quantum__qis__rzz__body`, lib.rs 490-498. -/
def rzz (env : Env) (θ : ℝ) (a b : ℕ) (s : Backend) : Except Stop Backend := do
  let s ← ctl env .x [b] a s
  let s ← gate env (.rz θ) a s
  ctl env .x [b] a s

/-- `__quantum__qis__rxx__body`, lib.rs 446-460. -/
def rxx (env : Env) (θ : ℝ) (a b : ℕ) (s : Backend) : Except Stop Backend := do
  let s ← gate env .h a s
  let s ← gate env .h b s
  let s ← rzz env θ a b s
  let s ← gate env .h b s
  gate env .h a s

/-- `__quantum__qis__ryy__body`, lib.rs 464-486. -/
def ryy (env : Env) (θ : ℝ) (a b : ℕ) (s : Backend) : Except Stop Backend := do
  let s ← gate env .h a s
  let s ← gate env .s a s
  let s ← gate env .h a s
  let s ← gate env .h b s
  let s ← gate env .s b s
  let s ← gate env .h b s
  let s ← rzz env θ a b s
  let s ← gate env .h b s
  let s ← gate env .sadj b s
  let s ← gate env .h b s
  let s ← gate env .h a s
  let s ← gate env .sadj a s
  gate env .h a s

/-- `__quantum__qis__r__body`, lib.rs 502-509. -/
def r (env : Env) (p : Pauli) (θ : ℝ) (q : ℕ) (s : Backend) : Except Stop Backend :=
  match p with
  | .I => .ok s
  | .X => gate env (.rx θ) q s
  | .Y => gate env (.ry θ) q s
  | .Z => gate env (.rz θ) q s

/-- `__quantum__qis__r__adj`, lib.rs 513-515. -/
def rAdj (env : Env) (p : Pauli) (θ : ℝ) (q : ℕ) (s : Backend) : Except Stop Backend := r env p (-θ) q s

/-- `__quantum__qis__r__ctl`, lib.rs 531-587. -/
def rCtl (env : Env) (cs : List ℕ) (p : Pauli) (θ : ℝ) (q : ℕ) (s : Backend) : Except Stop Backend :=
  match p with
  | .X => ctl env (.rx θ) cs q s
  | .Y => ctl env (.ry θ) cs q s
  | .Z => ctl env (.rz θ) cs q s
  | .I =>
    if cs.length > 0 then
      let s := ensureAll cs (ensure q s)
      match cs with
      | [] => .ok s
      | head :: rest => act (mcphase env rest (Complex.exp (Complex.mk 0 (-θ / 2))) head) s
    else .ok s

/-- `__quantum__qis__r__ctladj`, lib.rs 594-610. -/
def rCtlAdj (env : Env) (cs : List ℕ) (p : Pauli) (θ : ℝ) (q : ℕ) (s : Backend) : Except Stop Backend :=
  rCtl env cs p (-θ) q s

/-- `__quantum__qis__exp__body`, exp.rs 36-68; `map_pauli`, exp.rs 22-29, is `pauliArg`. -/
def exp (env : Env) (ps : List Pauli) (θ : ℝ) (qs : List ℕ) (s : Backend) : Except Stop Backend :=
  act (mcexp env [] (ps.map pauliArg) θ qs) (ensureAll qs s)

/-- `__quantum__qis__exp__adj`, exp.rs 75-83. -/
def expAdj (env : Env) (ps : List Pauli) (θ : ℝ) (qs : List ℕ) (s : Backend) : Except Stop Backend :=
  exp env ps (-θ) qs s

/-- `__quantum__qis__exp__ctl`, exp.rs 99-139. -/
def expCtl (env : Env) (cs : List ℕ) (ps : List Pauli) (θ : ℝ) (qs : List ℕ) (s : Backend) :
    Except Stop Backend :=
  act (mcexp env cs (ps.map pauliArg) θ qs) (ensureAll qs (ensureAll cs s))

/-- `__quantum__qis__exp__ctladj`, exp.rs 147-163. -/
def expCtlAdj (env : Env) (cs : List ℕ) (ps : List Pauli) (θ : ℝ) (qs : List ℕ) (s : Backend) :
    Except Stop Backend :=
  expCtl env cs ps (-θ) qs s

/-- `__quantum__qis__swap__body`, lib.rs 614-622. -/
def swap (a b : ℕ) (s : Backend) : Except Stop Backend := act (swapQubitIds a b) (ensure b (ensure a s))

/-- `__quantum__qis__reset__body`, lib.rs 626-635. -/
def reset (env : Env) (q : ℕ) (s : Backend) : Except Stop Backend := do
  let (b, s) ← ask (Sim.measure env q) (ensure q s)
  if b then act (x q) s else return s

/-- The growth of the result vector: `if res.len() < id + 1 { res.resize(id + 1, false) }`, e.g. lib.rs 648-650. -/
def grow (r : ℕ) (l : List Bool) : List Bool :=
  if l.length < r + 1 then l ++ List.replicate (r + 1 - l.length) false else l

/-- `__quantum__qis__mresetz__body`, lib.rs 642-663. -/
def mresetz (env : Env) (q r : ℕ) (s : Backend) : Except Stop Backend := do
  let s := ensure q s
  let s := { s with res := grow r s.res }
  let (b, s) ← ask (Sim.measure env q) s
  let s ← if b then act (x q) s else pure s
  return { s with res := s.res.set r b }

/-- `__quantum__qis__mz__body`, lib.rs 669-686. -/
def mz (env : Env) (q r : ℕ) (s : Backend) : Except Stop Backend := do
  let s := ensure q s
  let s := { s with res := grow r s.res }
  let (b, s) ← ask (Sim.measure env q) s
  return { s with res := s.res.set r b }

/-- `__quantum__qis__read_result__body`, lib.rs 692-703, and `__quantum__rt__read_result`, lib.rs 710-712. -/
def readResult (r : ℕ) (s : Backend) : Except Stop (Bool × Backend) :=
  let res := grow r s.res
  match res[r]? with
  | some b => .ok (b, { s with res := res })
  | Option.none => .error (.sim .outOfBounds)

/-- `__quantum__rt__write_result`, lib.rs 718-729. -/
def writeResult (v : Bool) (r : ℕ) (s : Backend) : Backend := { s with res := (grow r s.res).set r v }

/-- `__quantum__rt__result_get_zero` and `_get_one`, result_bool.rs 9-17: the pointers. -/
def resultPtr (b : Bool) : ℕ := if b then 1 else 0

/-- `__quantum__rt__result_equal`, result_bool.rs 20-22. -/
def resultEqual (a b : ℕ) : Bool := decide (a = b)

/-- The text of `__quantum__rt__result_to_string`, result_bool.rs 32-46. -/
def resultToString (a : ℕ) : List Char := if resultEqual a (resultPtr true) then ['O', 'n', 'e'] else ['Z', 'e', 'r', 'o']

/-- `__quantum__qis__m__body`, lib.rs 733-744. -/
def m (env : Env) (q : ℕ) (s : Backend) : Except Stop (ℕ × Backend) := do
  let (b, s) ← ask (Sim.measure env q) (ensure q s)
  return (resultPtr b, s)

/-- The collected list of `map_to_z_basis`, lib.rs 100-113: pairs with the identity are left out. -/
def nonIdentity (ps : List Pauli) (qs : List ℕ) : List (Pauli × ℕ) := (ps.zip qs).filter fun pq => pq.1 ≠ .I

/-- One turn of the loop of `map_to_z_basis`, lib.rs 115-125. -/
def mapOne (env : Env) (pq : Pauli × ℕ) (s : Backend) : Except Stop Backend :=
  match pq.1 with
  | .X => act (h env pq.2) s
  | .Y => do
    let s ← act (h env pq.2) s
    let s ← act (sGate env pq.2) s
    act (h env pq.2) s
  | _ => .ok s

/-- One turn of the loop of `unmap_from_z_basis`, lib.rs 132-143. -/
def unmapOne (env : Env) (pq : Pauli × ℕ) (s : Backend) : Except Stop Backend :=
  match pq.1 with
  | .X => act (h env pq.2) s
  | .Y => do
    let s ← act (h env pq.2) s
    let s ← act (sadj env pq.2) s
    act (h env pq.2) s
  | _ => .ok s

/-- A loop whose body can panic. E.g. backend/src/lib.rs:132-143. -/
def forEach {α : Type} (f : α → Backend → Except Stop Backend) : List α → Backend → Except Stop Backend
  | [], s => .ok s
  | a :: l, s => do
    let s ← f a s
    forEach f l s

/-- The message of lib.rs 93. -/
def sizeMessage : List Char := "Pauli array and Qubit array must be the same size.".toList

/-- `map_to_z_basis`, lib.rs 82-128. -/
def mapToZ (env : Env) (ps : List Pauli) (qs : List ℕ) (s : Backend) :
    Except Stop (List (Pauli × ℕ) × Backend) :=
  if ps.length ≠ qs.length then .error (.fail sizeMessage)
  else do
    let combined := nonIdentity ps qs
    let s ← forEach (mapOne env) combined (ensureAll (combined.map Prod.snd) s)
    return (combined, s)

/-- `unmap_from_z_basis`, lib.rs 132-144. -/
def unmapFromZ (env : Env) (l : List (Pauli × ℕ)) (s : Backend) : Except Stop Backend :=
  forEach (unmapOne env) l s

/-- `__quantum__qis__measure__body`, lib.rs 755-781. -/
def measure (env : Env) (ps : List Pauli) (qs : List ℕ) (s : Backend) : Except Stop (ℕ × Backend) := do
  let (combined, s) ← mapToZ env ps qs s
  let (b, s) ← ask (jointMeasure env (combined.map Prod.snd)) s
  let s ← unmapFromZ env combined s
  return (resultPtr b, s)

/-- `qubit_is_zero`, lib.rs 784-791. -/
def qubitIsZero (env : Env) (q : ℕ) (s : Backend) : Except Stop (Bool × Backend) :=
  ask (Sim.qubitIsZero env q) (ensure q s)

open Classical in
/-- `__quantum__qis__assertmeasurementprobability__body`, lib.rs 799-834. -/
def assertProb (env : Env) (ps : List Pauli) (qs : List ℕ) (result : ℕ) (prob : ℝ) (msg : List Char) (tol : ℝ)
    (s : Backend) : Except Stop Backend := do
  let (combined, s) ← mapToZ env ps qs s
  let (p, s) ← ask (jointProbability env (combined.map Prod.snd)) s
  let actual := if resultEqual result (resultPtr false) then 1 - p else p
  if |actual - prob| > tol then .error (.fail msg) else unmapFromZ env combined s

/-- The choice of the value in both `__quantum__rt__result_record_output`, lib.rs 886-896 and 914-924. -/
def recordedResult (r : ℕ) (s : Backend) : Except Stop (Bool × Backend) :=
  if s.res.isEmpty then .ok (resultEqual r (resultPtr true), s)
  else
    let res := grow r s.res
    match res[r]? with
    | some b => .ok (b, { s with res := res })
    | Option.none => .error (.sim .outOfBounds)

/-- `__quantum__rt__qubit_allocate`, lib.rs 935-946. -/
def qubitAllocate (s : Backend) : ℕ × Backend :=
  let (q, sim) := s.sim.allocate
  (q, { s with sim := sim, max := Nat.max s.max (q + 1) })

/-- `__quantum__rt__qubit_release`, lib.rs 987-992. -/
def qubitRelease (env : Env) (q : ℕ) (s : Backend) : Except Stop Backend := act (release env q) s

/-- The text of `__quantum__rt__qubit_to_string`, lib.rs 998-1007. -/
def qubitToString (q : ℕ) : List Char := digits q

/-- `capture_quantum_state`, lib.rs 1013-1018. -/
def captureQuantumState (env : Env) (s : Backend) : Except Stop ((List (ℕ × ℂ) × ℕ) × Backend) :=
  ask (getState env) s

/-- `__quantum__qis__dumpmachine__body`, lib.rs 1024-1047; `location` is whether it is not null. -/
def dumpMachine (env : Env) (fmt : Fmt) (location : Bool) (s : Backend) : Except Stop (Bytes × Backend) :=
  if location then .error .unimplemented
  else do
    let results := if s.res.isEmpty then [] else Run.utf8 "Global Results: " ++ fmt.bits s.res ++ lineEnding
    let (t, s) ← ask (dump env fmt.amplitude) s
    return (results ++ Run.utf8 t, s)

/-! ### The calls of a program -/

/-- The bytes a function of the output recorder writes. stdlib/src/output_recording.rs:82-113. -/
def bytesOf (f : Io → Io) : Bytes := (f ⟨[], ⟨[], false⟩, []⟩).recorder.buffer

/-- A silent call. E.g. backend/src/lib.rs:151-158. -/
def silent (r : Except Stop Backend) : Except Stop (QAns × Bytes × Backend) := do
  let s ← r
  return (.unit, [], s)

/-- The two words of the next draw. stdlib/src/math.rs:116. -/
def nextWords (s : Backend) : ℕ × ℕ × Backend := (s.os 0, s.os 1, { s with os := fun n => s.os (n + 2) })

/-- The messages of math.rs 113, 123. -/
def boundsMessage : List Char := "Invalid Argument: minimum > maximum".toList

/-- One call. The functions are those of backend/src/lib.rs:146-1053, backend/src/exp.rs:36-165,
backend/src/result_bool.rs, stdlib/src/math.rs:109-127 and stdlib/src/lib.rs:83-105. -/
def qstep (env : Env) (fmt : Fmt) (c : QCall) (s : Backend) : Except Stop (QAns × Bytes × Backend) :=
  match c with
  | .gate g q => silent (gate env g q s)
  | .ctl g cs q => silent (ctl env g cs q s)
  | .sx q => silent (sx env q s)
  | .rxx θ a b => silent (rxx env θ a b s)
  | .ryy θ a b => silent (ryy env θ a b s)
  | .rzz θ a b => silent (rzz env θ a b s)
  | .r p θ q => silent (r env p θ q s)
  | .rAdj p θ q => silent (rAdj env p θ q s)
  | .rCtl cs p θ q => silent (rCtl env cs p θ q s)
  | .rCtlAdj cs p θ q => silent (rCtlAdj env cs p θ q s)
  | .exp ps θ qs => silent (exp env ps θ qs s)
  | .expAdj ps θ qs => silent (expAdj env ps θ qs s)
  | .expCtl cs ps θ qs => silent (expCtl env cs ps θ qs s)
  | .expCtlAdj cs ps θ qs => silent (expCtlAdj env cs ps θ qs s)
  | .swap a b => silent (swap a b s)
  | .reset q => silent (reset env q s)
  | .mresetz q r => silent (mresetz env q r s)
  | .mz q r => silent (mz env q r s)
  | .readResult r => do
    let (b, s) ← readResult r s
    return (.bit b, [], s)
  | .writeResult v r => .ok (.unit, [], writeResult v r s)
  | .m q => do
    let (n, s) ← m env q s
    return (.ptr n, [], s)
  | .measure ps qs => do
    let (n, s) ← measure env ps qs s
    return (.ptr n, [], s)
  | .isZero q => do
    let (b, s) ← qubitIsZero env q s
    return (.bit b, [], s)
  | .assertProb ps qs result prob msg tol => silent (assertProb env ps qs result prob msg tol s)
  | .allocate => .ok (.ptr (qubitAllocate s).1, [], (qubitAllocate s).2)
  | .release q => silent (qubitRelease env q s)
  | .recordResult r tag => do
    let (b, s) ← recordedResult r s
    return (.unit, bytesOf (resultRecordOutput b tag), s)
  | .legacyResult r => do
    let (b, s) ← recordedResult r s
    return (.unit, bytesOf (emitLegacy (.result b)), s)
  | .record e _ => .ok (.unit, bytesOf (emit e), s)
  | .legacy e _ => .ok (.unit, bytesOf (emitLegacy e), s)
  | .fail msg => .error (.fail msg)
  | .dump location => do
    let (out, s) ← dumpMachine env fmt location s
    return (.unit, out, s)
  | .barrier => .ok (.unit, [], s)
  | .reinit => .ok (.unit, [], reinit s)
  | .drawInt min max =>
    match drawRandomInt min max (nextWords s).1 (nextWords s).2.1 with
    | .ok n => .ok (.int n, [], (nextWords s).2.2)
    | .error _ => .error (.fail boundsMessage)
  | .drawDouble min max =>
    match drawRandomDouble min max ((nextWords s).1 / (words - 1)) with
    | .ok x => .ok (.real x, [], (nextWords s).2.2)
    | .error _ => .error (.fail boundsMessage)

/-- What a call has written when it ends the process: `__quantum__rt__fail` first records its message,
stdlib/src/lib.rs 85-90. -/
def Stop.output : Stop → Bytes
  | .fail msg => bytesOf (message msg)
  | _ => []

/-- The library behind the runner. runner/src/lib.rs:332-605 binds the names to the functions of backend/src/lib.rs
and of stdlib/src. -/
def step (env : Env) (fmt : Fmt) : Run.StepFn QCall QAns Backend := fun c s =>
  match qstep env fmt c s with
  | .ok r => .ok r
  | .error e => .error e.output

end Back
end Qir
