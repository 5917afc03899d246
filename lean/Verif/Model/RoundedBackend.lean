import Verif.Model.Backend
import Verif.Model.Rounded

/-!
# The backend with rounded arithmetic

The functions of `Model/Backend` that call the simulator, on top of the simulator with rounded arithmetic
(`Model/Rounded`).  Those that only touch the results, the number of qubits or the output are those of
`Model/Backend`.  `Proof/RoundedBackExact` shows that with exact arithmetic the functions here are those of
`Model/Backend`.

The simplifications are those of `Model/Backend` and `Model/Rounded`.  The conversion of a random word to a number by
`draw_random_double` is not rounded.
-/

noncomputable section
namespace Qir.RBack
open Spec Qir.Out Qir.Std
open Qir.Back (Backend Fmt Stop act ask ensure ensureAll lift silent forEach grow resultPtr resultEqual nonIdentity
  sizeMessage bytesOf boundsMessage nextWords)

/-- `single_qubit_gate!`, lib.rs 146-201, and `single_qubit_rotation!`, lib.rs 275-306. -/
def gate (A : Arith) (g : Gate) (q : ℕ) (s : Backend) : Except Stop Backend :=
  act (Rnd.gateCall A q g) (ensure q s)

/-- `controlled_qubit_gate!`, lib.rs 203-273, `multicontrolled_qubit_gate!`, lib.rs 308-377, and
`multicontrolled_qubit_rotation!`, lib.rs 386-434. -/
def ctl (A : Arith) (g : Gate) (cs : List ℕ) (q : ℕ) (s : Backend) : Except Stop Backend :=
  act (Rnd.ctrlCall A cs q g) (ensureAll cs (ensure q s))

/-- `__quantum__qis__sx__body`, lib.rs 438-442. -/
def sx (A : Arith) (q : ℕ) (s : Backend) : Except Stop Backend := do
  let s ← gate A .h q s
  let s ← gate A .s q s
  gate A .h q s

/-- `__quantum__qis__rzz__body`, lib.rs 490-498. -/
def rzz (A : Arith) (θ : ℝ) (a b : ℕ) (s : Backend) : Except Stop Backend := do
  let s ← ctl A .x [b] a s
  let s ← gate A (.rz θ) a s
  ctl A .x [b] a s

/-- `__quantum__qis__rxx__body`, lib.rs 446-460. -/
def rxx (A : Arith) (θ : ℝ) (a b : ℕ) (s : Backend) : Except Stop Backend := do
  let s ← gate A .h a s
  let s ← gate A .h b s
  let s ← rzz A θ a b s
  let s ← gate A .h b s
  gate A .h a s

/-- `__quantum__qis__ryy__body`, lib.rs 464-486. -/
def ryy (A : Arith) (θ : ℝ) (a b : ℕ) (s : Backend) : Except Stop Backend := do
  let s ← gate A .h a s
  let s ← gate A .s a s
  let s ← gate A .h a s
  let s ← gate A .h b s
  let s ← gate A .s b s
  let s ← gate A .h b s
  let s ← rzz A θ a b s
  let s ← gate A .h b s
  let s ← gate A .sadj b s
  let s ← gate A .h b s
  let s ← gate A .h a s
  let s ← gate A .sadj a s
  gate A .h a s

/-- `__quantum__qis__r__body`, lib.rs 502-509. -/
def r (A : Arith) (p : Pauli) (θ : ℝ) (q : ℕ) (s : Backend) : Except Stop Backend :=
  match p with
  | .I => .ok s
  | .X => gate A (.rx θ) q s
  | .Y => gate A (.ry θ) q s
  | .Z => gate A (.rz θ) q s

/-- `__quantum__qis__r__adj`, lib.rs 513-515. -/
def rAdj (A : Arith) (p : Pauli) (θ : ℝ) (q : ℕ) (s : Backend) : Except Stop Backend := r A p (-θ) q s

/-- `__quantum__qis__r__ctl`, lib.rs 531-587; the phase is made of cosine and sine. -/
def rCtl (A : Arith) (cs : List ℕ) (p : Pauli) (θ : ℝ) (q : ℕ) (s : Backend) : Except Stop Backend :=
  match p with
  | .X => ctl A (.rx θ) cs q s
  | .Y => ctl A (.ry θ) cs q s
  | .Z => ctl A (.rz θ) cs q s
  | .I =>
    if cs.length > 0 then
      let s := ensureAll cs (ensure q s)
      match cs with
      | [] => .ok s
      | head :: rest => act (Rnd.mcphase A rest ⟨A.cos (-θ / 2), A.sin (-θ / 2)⟩ head) s
    else .ok s

/-- `__quantum__qis__r__ctladj`, lib.rs 594-610. -/
def rCtlAdj (A : Arith) (cs : List ℕ) (p : Pauli) (θ : ℝ) (q : ℕ) (s : Backend) : Except Stop Backend :=
  rCtl A cs p (-θ) q s

/-- `__quantum__qis__exp__body`, exp.rs 36-68. -/
def exp (A : Arith) (ps : List Pauli) (θ : ℝ) (qs : List ℕ) (s : Backend) : Except Stop Backend :=
  act (Rnd.mcexp A [] (ps.map Sim.pauliArg) θ qs) (ensureAll qs s)

/-- `__quantum__qis__exp__adj`, exp.rs 75-83. -/
def expAdj (A : Arith) (ps : List Pauli) (θ : ℝ) (qs : List ℕ) (s : Backend) : Except Stop Backend :=
  exp A ps (-θ) qs s

/-- `__quantum__qis__exp__ctl`, exp.rs 99-139. -/
def expCtl (A : Arith) (cs : List ℕ) (ps : List Pauli) (θ : ℝ) (qs : List ℕ) (s : Backend) :
    Except Stop Backend :=
  act (Rnd.mcexp A cs (ps.map Sim.pauliArg) θ qs) (ensureAll qs (ensureAll cs s))

/-- `__quantum__qis__exp__ctladj`, exp.rs 147-163. -/
def expCtlAdj (A : Arith) (cs : List ℕ) (ps : List Pauli) (θ : ℝ) (qs : List ℕ) (s : Backend) :
    Except Stop Backend :=
  expCtl A cs ps (-θ) qs s

/-- `__quantum__qis__swap__body`, lib.rs 614-622. -/
def swap (A : Arith) (a b : ℕ) (s : Backend) : Except Stop Backend :=
  act (Rnd.swapQubitIds A a b) (ensure b (ensure a s))

/-- `__quantum__qis__reset__body`, lib.rs 626-635. -/
def reset (A : Arith) (q : ℕ) (s : Backend) : Except Stop Backend := do
  let (b, s) ← ask (Rnd.measure A q) (ensure q s)
  if b then act (Rnd.x A q) s else return s

/-- `__quantum__qis__mresetz__body`, lib.rs 642-663. -/
def mresetz (A : Arith) (q r : ℕ) (s : Backend) : Except Stop Backend := do
  let s := ensure q s
  let s := { s with res := grow r s.res }
  let (b, s) ← ask (Rnd.measure A q) s
  let s ← if b then act (Rnd.x A q) s else pure s
  return { s with res := s.res.set r b }

/-- `__quantum__qis__mz__body`, lib.rs 669-686. -/
def mz (A : Arith) (q r : ℕ) (s : Backend) : Except Stop Backend := do
  let s := ensure q s
  let s := { s with res := grow r s.res }
  let (b, s) ← ask (Rnd.measure A q) s
  return { s with res := s.res.set r b }

/-- `__quantum__qis__m__body`, lib.rs 733-744. -/
def m (A : Arith) (q : ℕ) (s : Backend) : Except Stop (ℕ × Backend) := do
  let (b, s) ← ask (Rnd.measure A q) (ensure q s)
  return (resultPtr b, s)

/-- One turn of the loop of `map_to_z_basis`, lib.rs 115-125. -/
def mapOne (A : Arith) (pq : Pauli × ℕ) (s : Backend) : Except Stop Backend :=
  match pq.1 with
  | .X => act (Rnd.h A pq.2) s
  | .Y => do
    let s ← act (Rnd.h A pq.2) s
    let s ← act (Rnd.gateCall A pq.2 .s) s
    act (Rnd.h A pq.2) s
  | _ => .ok s

/-- One turn of the loop of `unmap_from_z_basis`, lib.rs 132-143. -/
def unmapOne (A : Arith) (pq : Pauli × ℕ) (s : Backend) : Except Stop Backend :=
  match pq.1 with
  | .X => act (Rnd.h A pq.2) s
  | .Y => do
    let s ← act (Rnd.h A pq.2) s
    let s ← act (Rnd.gateCall A pq.2 .sadj) s
    act (Rnd.h A pq.2) s
  | _ => .ok s

/-- `map_to_z_basis`, lib.rs 82-128. -/
def mapToZ (A : Arith) (ps : List Pauli) (qs : List ℕ) (s : Backend) :
    Except Stop (List (Pauli × ℕ) × Backend) :=
  if ps.length ≠ qs.length then .error (.fail sizeMessage)
  else do
    let combined := nonIdentity ps qs
    let s ← forEach (mapOne A) combined (ensureAll (combined.map Prod.snd) s)
    return (combined, s)

/-- `unmap_from_z_basis`, lib.rs 132-144. -/
def unmapFromZ (A : Arith) (l : List (Pauli × ℕ)) (s : Backend) : Except Stop Backend :=
  forEach (unmapOne A) l s

/-- `__quantum__qis__measure__body`, lib.rs 755-781. -/
def measure (A : Arith) (ps : List Pauli) (qs : List ℕ) (s : Backend) : Except Stop (ℕ × Backend) := do
  let (combined, s) ← mapToZ A ps qs s
  let (b, s) ← ask (Rnd.jointMeasure A (combined.map Prod.snd)) s
  let s ← unmapFromZ A combined s
  return (resultPtr b, s)

/-- `qubit_is_zero`, lib.rs 784-791. -/
def qubitIsZero (A : Arith) (q : ℕ) (s : Backend) : Except Stop (Bool × Backend) :=
  ask (Rnd.qubitIsZero A q) (ensure q s)

open Classical in
/-- `__quantum__qis__assertmeasurementprobability__body`, lib.rs 799-834. -/
def assertProb (A : Arith) (ps : List Pauli) (qs : List ℕ) (result : ℕ) (prob : ℝ) (msg : List Char) (tol : ℝ)
    (s : Backend) : Except Stop Backend := do
  let (combined, s) ← mapToZ A ps qs s
  let (p, s) ← ask (Rnd.jointProbability A (combined.map Prod.snd)) s
  let actual := if resultEqual result (resultPtr false) then A.fl (1 - p) else p
  if |A.fl (actual - prob)| > tol then .error (.fail msg) else unmapFromZ A combined s

/-- `__quantum__rt__qubit_release`, lib.rs 987-992. -/
def qubitRelease (A : Arith) (q : ℕ) (s : Backend) : Except Stop Backend := act (Rnd.release A q) s

/-- `__quantum__qis__dumpmachine__body`, lib.rs 1024-1047; `location` is whether it is not null. -/
def dumpMachine (A : Arith) (fmt : Fmt) (location : Bool) (s : Backend) : Except Stop (Bytes × Backend) :=
  if location then .error .unimplemented
  else do
    let results := if s.res.isEmpty then [] else Run.utf8 "Global Results: " ++ fmt.bits s.res ++ lineEnding
    let (t, s) ← ask (Rnd.dump A fmt.amplitude) s
    return (results ++ Run.utf8 t, s)

/-- One call. The functions are those of backend/src/lib.rs:146-1053, backend/src/exp.rs:36-165,
backend/src/result_bool.rs, stdlib/src/math.rs:109-127 and stdlib/src/lib.rs:83-105. -/
def qstep (A : Arith) (fmt : Fmt) (c : QCall) (s : Backend) : Except Stop (QAns × Bytes × Backend) :=
  match c with
  | .gate g q => silent (gate A g q s)
  | .ctl g cs q => silent (ctl A g cs q s)
  | .sx q => silent (sx A q s)
  | .rxx θ a b => silent (rxx A θ a b s)
  | .ryy θ a b => silent (ryy A θ a b s)
  | .rzz θ a b => silent (rzz A θ a b s)
  | .r p θ q => silent (r A p θ q s)
  | .rAdj p θ q => silent (rAdj A p θ q s)
  | .rCtl cs p θ q => silent (rCtl A cs p θ q s)
  | .rCtlAdj cs p θ q => silent (rCtlAdj A cs p θ q s)
  | .exp ps θ qs => silent (exp A ps θ qs s)
  | .expAdj ps θ qs => silent (expAdj A ps θ qs s)
  | .expCtl cs ps θ qs => silent (expCtl A cs ps θ qs s)
  | .expCtlAdj cs ps θ qs => silent (expCtlAdj A cs ps θ qs s)
  | .swap a b => silent (swap A a b s)
  | .reset q => silent (reset A q s)
  | .mresetz q r => silent (mresetz A q r s)
  | .mz q r => silent (mz A q r s)
  | .readResult r => do
    let (b, s) ← Back.readResult r s
    return (.bit b, [], s)
  | .writeResult v r => .ok (.unit, [], Back.writeResult v r s)
  | .m q => do
    let (n, s) ← m A q s
    return (.ptr n, [], s)
  | .measure ps qs => do
    let (n, s) ← measure A ps qs s
    return (.ptr n, [], s)
  | .isZero q => do
    let (b, s) ← qubitIsZero A q s
    return (.bit b, [], s)
  | .assertProb ps qs result prob msg tol => silent (assertProb A ps qs result prob msg tol s)
  | .allocate => .ok (.ptr (Back.qubitAllocate s).1, [], (Back.qubitAllocate s).2)
  | .release q => silent (qubitRelease A q s)
  | .recordResult r tag => do
    let (b, s) ← Back.recordedResult r s
    return (.unit, bytesOf (resultRecordOutput b tag), s)
  | .legacyResult r => do
    let (b, s) ← Back.recordedResult r s
    return (.unit, bytesOf (emitLegacy (.result b)), s)
  | .record e _ => .ok (.unit, bytesOf (emit e), s)
  | .legacy e _ => .ok (.unit, bytesOf (emitLegacy e), s)
  | .fail msg => .error (.fail msg)
  | .dump location => do
    let (out, s) ← dumpMachine A fmt location s
    return (.unit, out, s)
  | .barrier => .ok (.unit, [], s)
  | .reinit => .ok (.unit, [], Back.reinit s)
  | .drawInt min max =>
    match drawRandomInt min max (nextWords s).1 (nextWords s).2.1 with
    | .ok n => .ok (.int n, [], (nextWords s).2.2)
    | .error _ => .error (.fail boundsMessage)
  | .drawDouble min max =>
    match drawRandomDouble min max ((nextWords s).1 / (words - 1)) with
    | .ok x => .ok (.real x, [], (nextWords s).2.2)
    | .error _ => .error (.fail boundsMessage)

/-- The library behind the runner. runner/src/lib.rs:332-605 binds the names to the functions of backend/src/lib.rs
and of stdlib/src. -/
def step (A : Arith) (fmt : Fmt) : Run.StepFn QCall QAns Backend := fun c s =>
  match qstep A fmt c s with
  | .ok r => .ok r
  | .error e => .error e.output

end Qir.RBack
