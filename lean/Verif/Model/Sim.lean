import Mathlib.Data.Complex.Basic
import Mathlib.Analysis.SpecialFunctions.Trigonometric.Basic
import Verif.Model.IMap

/-!
# Model of `sparsesim/src/lib.rs` (`QuantumSim`)

* `Complex64` is `ℂ`, `f64` is `ℝ` (exact arithmetic), `BigUint` is `ℕ`, `usize`/`u64` are `ℕ`.
* A panic is a value of type `Panic`; every method returns `Except Panic _`.
* The tolerance of the zero test is the parameter `eps` of `Env` (`1e-10` in the code).
* The iteration order of an `FxHashMap` is the arbitrary permutation `shuffle` of `Env`.
* The random generator is the infinite list `rng : ℕ → ℝ` of its future samples.
-/

noncomputable section

namespace Qir

/-- The panics raised by the simulator. The message texts are not modelled. sparsesim/src/lib.rs:295, 538, 554, 563,
1208-1218. -/
inductive Panic
  /-- "Duplicate qubit id '…' found in application." lib.rs:537-540, exp.rs:77 -/
  | duplicateQubit
  /-- "Unable to find qubit with id …" e.g. lib.rs:295 -/
  | unknownQubit
  /-- `IndexMap::index: index out of bounds`, `expect("key should be present in map")`,
  `Option::unwrap` on `None` (lib.rs:1247), slice index out of range (exp.rs:89) -/
  | outOfBounds
  /-- failed `assert!` of `apply`, lib.rs:1208-1218, 1284-1287 -/
  | assertion
deriving DecidableEq

/-- Everything the simulator does not determine itself. sparsesim/src/nearly_zero.rs:11-24; the hash maps of
sparsesim/src/lib.rs:968-975 and 1089-1096. -/
structure Env where
  /-- tolerance of `is_nearly_zero`, nearly_zero.rs:11-24 -/
  eps : ℝ
  /-- iteration order of a freshly collected hash map -/
  shuffle : List (ℕ × ℂ) → List (ℕ × ℂ)
  /-- iteration visits every entry exactly once -/
  shuffle_perm : ∀ l, (shuffle l).Perm l

/-- `OpCode`, lib.rs:62-71. -/
inductive OpCode
  | X | Y | Z | S | Sadj | T | Tadj
  | Rz (theta : ℝ)

/-- `FlushLevel`, lib.rs:75-79. -/
inductive FlushLevel
  | H | HRx | HRxRy
deriving DecidableEq

/-- `QUEUE_LIMIT`, lib.rs:32. -/
def QUEUE_LIMIT : ℕ := 10000

/-- `QuantumSim`, lib.rs:37-58. -/
structure Sim where
  state : List (ℕ × ℂ)
  idMap : IMap ℕ
  rng : ℕ → ℝ
  hFlag : ℕ
  rxQ : IMap ℝ
  ryQ : IMap ℝ
  opQ : List (List ℕ × ℕ × OpCode)

/-- `f64::is_nearly_zero`, nearly_zero.rs:11-15: `self.max(0) - 0.min(self) <= 1e-10`, that is
`|x| ≤ eps`. -/
def NearlyZeroR (eps x : ℝ) : Prop := max x 0 - min 0 x ≤ eps

/-- `Complex::is_nearly_zero`, nearly_zero.rs:17-24: both components. -/
def NearlyZero (eps : ℝ) (z : ℂ) : Prop := NearlyZeroR eps z.re ∧ NearlyZeroR eps z.im

instance (eps x : ℝ) : Decidable (NearlyZeroR eps x) := Classical.propDecidable _
instance (eps : ℝ) (z : ℂ) : Decidable (NearlyZero eps z) := Classical.propDecidable _

/-- `FRAC_1_SQRT_2`. sparsesim/src/lib.rs:871, 991. -/
def fracSqrt2 : ℝ := 1 / Real.sqrt 2

/-- `BigUint::set_bit` (num-bigint), by its documented effect. sparsesim/src/lib.rs:202, 527, 635. -/
def setBit (n i : ℕ) (b : Bool) : ℕ := if n.testBit i = b then n else n ^^^ (1 <<< i)

/-- `BigUint::count_ones` (num-bigint): the number of one bits. sparsesim/src/lib.rs:402, 452. -/
def countOnes (n : ℕ) : ℕ := ((List.range (n + 1)).filter (fun i => n.testBit i)).length

namespace Sim

/-- `QuantumSim::new`, lib.rs:91-103. -/
def new (rng : ℕ → ℝ) : Sim :=
  { state := [(0, 1)], idMap := IMap.empty, rng := rng, hFlag := 0,
    rxQ := IMap.empty, ryQ := IMap.empty, opQ := [] }

/-- `set_rng_seed`, lib.rs:106-108; the seed is represented by the stream it produces. -/
def setRng (stream : ℕ → ℝ) (s : Sim) : Sim := { s with rng := stream }

/-! ### Amplitude-level transformations -/

/-- `x_transform`, lib.rs:634-636. -/
def xTransform (e : ℕ × ℂ) (target : ℕ) : ℕ × ℂ := (setBit e.1 target (!e.1.testBit target), e.2)

/-- `y_transform`, lib.rs:687-694. -/
def yTransform (e : ℕ × ℂ) (target : ℕ) : ℕ × ℂ :=
  let index := setBit e.1 target (!e.1.testBit target)
  (index, e.2 * (if index.testBit target then Complex.I else -Complex.I))

/-- `phase_transform`, lib.rs:732-742. -/
def phaseTransform (phase : ℂ) (e : ℕ × ℂ) (target : ℕ) : ℕ × ℂ :=
  (e.1, e.2 * (if e.1.testBit target then phase else 1))

/-- `z_transform`, lib.rs:759-761. -/
def zTransform (e : ℕ × ℂ) (target : ℕ) : ℕ × ℂ := phaseTransform (-1) e target

/-- `s_transform`, lib.rs:833-835. -/
def sTransform (e : ℕ × ℂ) (target : ℕ) : ℕ × ℂ := phaseTransform Complex.I e target

/-- `sadj_transform`, lib.rs:851-853. -/
def sadjTransform (e : ℕ × ℂ) (target : ℕ) : ℕ × ℂ := phaseTransform (-Complex.I) e target

/-- `t_transform`, lib.rs:869-875. -/
def tTransform (e : ℕ × ℂ) (target : ℕ) : ℕ × ℂ := phaseTransform ⟨fracSqrt2, fracSqrt2⟩ e target

/-- `tadj_transform`, lib.rs:891-897. -/
def tadjTransform (e : ℕ × ℂ) (target : ℕ) : ℕ × ℂ := phaseTransform ⟨fracSqrt2, -fracSqrt2⟩ e target

/-- `rz_transform`, lib.rs:913-918. -/
def rzTransform (e : ℕ × ℂ) (theta : ℝ) (target : ℕ) : ℕ × ℂ :=
  (e.1, e.2 * Complex.exp ⟨0, theta / 2 * (if e.1.testBit target then 1 else -1)⟩)

/-- One iteration of `apply_ops`, lib.rs:1297-1312. -/
def applyOp (op : List ℕ × ℕ × OpCode) (e : ℕ × ℂ) : ℕ × ℂ :=
  if op.1.all (fun c => e.1.testBit c) then
    match op.2.2 with
    | .X => xTransform e op.2.1
    | .Y => yTransform e op.2.1
    | .Z => zTransform e op.2.1
    | .S => sTransform e op.2.1
    | .Sadj => sadjTransform e op.2.1
    | .T => tTransform e op.2.1
    | .Tadj => tadjTransform e op.2.1
    | .Rz theta => rzTransform e theta op.2.1
  else e

/-- `apply_ops`, lib.rs:1292-1313. -/
def applyOps (ops : List (List ℕ × ℕ × OpCode)) (e : ℕ × ℂ) : ℕ × ℂ :=
  ops.foldl (fun e op => applyOp op e) e

/-! ### Identifier resolution and the operation queue -/

/-- `check_for_duplicates`, lib.rs:534-542 (the reported id is not modelled). -/
def checkForDuplicates (ids : List ℕ) : Except Panic Unit :=
  if ids.Nodup then .ok () else .error .duplicateQubit

/-- `id_map.get(id).unwrap_or_else(|| panic!("Unable to find qubit with id {id}"))`. sparsesim/src/lib.rs:295, 321,
347, 379, 504, 508, 554, 563. -/
def resolveId (m : IMap ℕ) (id : ℕ) : Except Panic ℕ :=
  match m.get id with
  | some loc => .ok loc
  | none => .error .unknownQubit

/-- The same, mapped over a list (lib.rs:289-297, 557-566). -/
def resolveIds (m : IMap ℕ) : List ℕ → Except Panic (List ℕ)
  | [] => .ok []
  | id :: t => do
    let loc ← resolveId m id
    let rest ← resolveIds m t
    return loc :: rest

/-- `self.id_map[key]`, index_map.rs:330-333. -/
def indexId (m : IMap ℕ) (id : ℕ) : Except Panic ℕ :=
  match m.get id with
  | some loc => .ok loc
  | none => .error .outOfBounds

/-- `resolve_and_check_qubits`, lib.rs:546-569. -/
def resolveAndCheck (m : IMap ℕ) (target : ℕ) (ctls : List ℕ) : Except Panic (ℕ × List ℕ) := do
  checkForDuplicates (ctls ++ [target])
  let t ← resolveId m target
  let cs ← resolveIds m ctls
  return (t, cs)

/-- The iterator of `take_ops`, lib.rs:413-420. -/
def resolveOps (m : IMap ℕ) :
    List (List ℕ × ℕ × OpCode) → Except Panic (List (List ℕ × ℕ × OpCode))
  | [] => .ok []
  | (ctls, target, op) :: rest => do
    let (t, cs) ← resolveAndCheck m target ctls
    let rest' ← resolveOps m rest
    return (cs, t, op) :: rest'

/-- `take_ops`, lib.rs:412-423. -/
def takeOps (s : Sim) : Except Panic (List (List ℕ × ℕ × OpCode) × Sim) := do
  let ops ← resolveOps s.idMap s.opQ
  return (ops, { s with opQ := [] })

/-- `flush_ops`, lib.rs:610-617. -/
def flushOps (s : Sim) : Except Panic Sim :=
  if s.opQ.isEmpty then .ok s
  else do
    let (ops, s) ← takeOps s
    return { s with state := s.state.map (applyOps ops) }

/-- `enqueue_op`, lib.rs:571-576. -/
def enqueueOp (target : ℕ) (ctls : List ℕ) (op : OpCode) (s : Sim) : Except Panic Sim := do
  let s ← if s.opQ.length = QUEUE_LIMIT then flushOps s else .ok s
  return { s with opQ := s.opQ ++ [(ctls, target, op)] }

/-- `has_queued_hrxy`, lib.rs:578-582. -/
def hasQueued (s : Sim) (target : ℕ) : Bool :=
  s.hFlag.testBit target || s.rxQ.containsKey target || s.ryQ.containsKey target

/-- `collect()` of (index, amplitude) pairs into an `FxHashMap`: a later pair replaces an earlier
one with the same index. sparsesim/src/lib.rs:968-975, 1089-1096. -/
def insertPair (m : List (ℕ × ℂ)) (p : ℕ × ℂ) : List (ℕ × ℂ) :=
  if m.any (fun q => q.1 == p.1) then m.map (fun q => if q.1 == p.1 then p else q) else m ++ [p]

/-- The collected map as a list of its entries, before the hash order is applied. sparsesim/src/lib.rs:968-975,
1089-1096. -/
def collectMap (l : List (ℕ × ℂ)) : List (ℕ × ℂ) := l.foldl insertPair []

/-- `mapped_state.get(&k)`. sparsesim/src/lib.rs:985, 1006, 1103, 1117. -/
def lookupMap (m : List (ℕ × ℂ)) (k : ℕ) : Option ℂ := (m.find? (fun p => p.1 == k)).map Prod.snd

/-! ### Gates that change the support -/

/-- The body of the fold in `apply_mch`, lib.rs:982-1025, for one map entry. -/
def mchEntry (eps : ℝ) (m : List (ℕ × ℂ)) (ctls : List ℕ) (target : ℕ) (e : ℕ × ℂ) :
    List (ℕ × ℂ) :=
  if ctls.all (fun c => e.1.testBit c) then
    let flipped := setBit 0 target true
    let flippedIndex := e.1 ^^^ flipped
    match lookupMap m flippedIndex with
    | none =>
      [(setBit e.1 target false, e.2 * fracSqrt2),
       (setBit e.1 target true, e.2 * fracSqrt2 * (if e.1.testBit target then -1 else 1))]
    | some flippedValue =>
      if !e.1.testBit target then
        (if NearlyZero eps (e.2 + flippedValue) then []
          else [(e.1, (e.2 + flippedValue) * fracSqrt2)]) ++
        (if NearlyZero eps (e.2 - flippedValue) then []
          else [(e.1 ||| flipped, (e.2 - flippedValue) * fracSqrt2)])
      else []
  else [e]

/-- `apply_mch`, lib.rs:962-1027. -/
def applyMch (env : Env) (ctls : List ℕ) (target : ℕ) (s : Sim) : Except Panic Sim := do
  let (t, cs) ← resolveAndCheck s.idMap target ctls
  let (ops, s) ← takeOps s
  let m := env.shuffle (collectMap (s.state.map (applyOps ops)))
  return { s with state := m.flatMap (mchEntry env.eps m cs t) }

/-- `m00` of `mcrotation`, lib.rs:1034. -/
def rotM00 (theta : ℝ) : ℂ := ⟨Real.cos (theta / 2), 0⟩

/-- `m01` of `mcrotation`, lib.rs:1035-1040. -/
def rotM01 (theta : ℝ) (signFlip : Bool) : ℂ :=
  ⟨0, Real.sin (theta / (-2))⟩ * (if signFlip then -Complex.I else 1)

/-- The body of the fold in the general case of `mcrotation`, lib.rs:1100-1133. -/
def rotEntry (eps : ℝ) (m : List (ℕ × ℂ)) (ctls : List ℕ) (target : ℕ) (m00 m01 m10 : ℂ)
    (e : ℕ × ℂ) : List (ℕ × ℂ) :=
  if ctls.all (fun c => e.1.testBit c) then
    let flipped := setBit 0 target true
    let flippedIndex := e.1 ^^^ flipped
    match lookupMap m flippedIndex with
    | none =>
      if e.1.testBit target then [(flippedIndex, e.2 * m01), (e.1, e.2 * m00)]
      else [(e.1, e.2 * m00), (flippedIndex, e.2 * m10)]
    | some flippedVal =>
      if !e.1.testBit target then
        (if NearlyZero eps (e.2 * m00 + flippedVal * m01) then []
          else [(e.1, e.2 * m00 + flippedVal * m01)]) ++
        (if NearlyZero eps (e.2 * m10 + flippedVal * m00) then []
          else [(flippedIndex, e.2 * m10 + flippedVal * m00)])
      else []
  else [e]

/-- Multiply by `factor` where all controls are one: `if ctls.iter().all(|c| index.bit(*c))
{ *value *= factor; }`, lib.rs:1062-1064 and 1075-1077. -/
def scaleIf (ctls : List ℕ) (factor : ℂ) (e : ℕ × ℂ) : ℕ × ℂ :=
  if ctls.all (fun c => e.1.testBit c) then (e.1, e.2 * factor) else e

/-- `mcrotation`, lib.rs:1032-1136.  The code calls `self.mcy`/`self.mcx` in the half-turn case;
to break the mutual recursion the call is the parameter `pauli`, instantiated at every call site
with exactly that gate. -/
def mcrotation (env : Env) (pauli : Sim → Except Panic Sim) (ctls : List ℕ) (theta : ℝ)
    (target : ℕ) (signFlip : Bool) (s : Sim) : Except Panic Sim :=
  let m00 := rotM00 theta
  let m01 := rotM01 theta signFlip
  if NearlyZero env.eps m00 then do
    let s ← pauli s
    let (_, cs) ← resolveAndCheck s.idMap target ctls
    let factor := m01 * (if signFlip then Complex.I else 1)
    if factor ≠ 1 then
      let (ops, s) ← takeOps s
      return { s with state := s.state.map (fun e => scaleIf cs factor (applyOps ops e)) }
    else return s
  else if NearlyZero env.eps m01 then
    if NearlyZero env.eps (m00 + 1) then do
      let (ops, s) ← takeOps s
      let (_, cs) ← resolveAndCheck s.idMap target ctls
      return { s with state := s.state.map (fun e => scaleIf cs (-1) (applyOps ops e)) }
    else .ok s
  else do
    let (t, cs) ← resolveAndCheck s.idMap target ctls
    let m10 := m01 * (if signFlip then -1 else 1)
    let (ops, s) ← takeOps s
    let m := env.shuffle (collectMap (s.state.map (applyOps ops)))
    return { s with state := m.flatMap (rotEntry env.eps m cs t m00 m01 m10) }

/-- `x`, lib.rs:639-650. -/
def x (target : ℕ) (s : Sim) : Except Panic Sim :=
  let s := { s with ryQ := s.ryQ.modify target (fun a => a * (-1)) }
  if s.hFlag.testBit target then enqueueOp target [] .Z s else enqueueOp target [] .X s

/-- `y`, lib.rs:697-704. -/
def y (target : ℕ) (s : Sim) : Except Panic Sim :=
  let s := { s with rxQ := s.rxQ.modify target (fun a => a * (-1)) }
  enqueueOp target [] .Y s

/-- `flush_rx`, lib.rs:619-624 (`mcx(&[], target)` is `x(target)`, lib.rs:654-657). -/
def flushRx (env : Env) (target : ℕ) (s : Sim) : Except Panic Sim :=
  match s.rxQ.get target with
  | some theta => do
    let s ← mcrotation env (x target) [] theta target false s
    return { s with rxQ := s.rxQ.remove target }
  | none => .ok s

/-- `flush_ry`, lib.rs:626-631 (`mcy(&[], target)` is `y(target)`, lib.rs:709-712). -/
def flushRy (env : Env) (target : ℕ) (s : Sim) : Except Panic Sim :=
  match s.ryQ.get target with
  | some theta => do
    let s ← mcrotation env (y target) [] theta target true s
    return { s with ryQ := s.ryQ.remove target }
  | none => .ok s

/-- The Hadamard part of the loop body of `flush_queue`, lib.rs:592-595. -/
def flushH (env : Env) (target : ℕ) (s : Sim) : Except Panic Sim :=
  if s.hFlag.testBit target then do
    let s ← applyMch env [] target s
    return { s with hFlag := setBit s.hFlag target false }
  else .ok s

/-- One iteration of the loop of `flush_queue`, lib.rs:592-603. -/
def flushOne (env : Env) (level : FlushLevel) (target : ℕ) (s : Sim) : Except Panic Sim := do
  let s ← flushH env target s
  match level with
  | .H => return s
  | .HRx => flushRx env target s
  | .HRxRy => do
    let s ← flushRx env target s
    flushRy env target s

/-- The loop of `flush_queue`, lib.rs:591-604. -/
def flushLoop (env : Env) (level : FlushLevel) : List ℕ → Sim → Except Panic Sim
  | [], s => .ok s
  | target :: rest, s => do
    let s ← flushOne env level target s
    flushLoop env level rest s

/-- `flush_queue`, lib.rs:590-608. -/
def flushQueue (env : Env) (qubits : List ℕ) (level : FlushLevel) (s : Sim) : Except Panic Sim := do
  let s ← flushLoop env level qubits s
  flushOps s

/-- `maybe_flush_queue`, lib.rs:584-588. -/
def maybeFlush (env : Env) (qubits : List ℕ) (level : FlushLevel) (s : Sim) : Except Panic Sim :=
  if qubits.any (fun q => s.hasQueued q) then flushQueue env qubits level s else .ok s

/-- `if cond { self.flush_queue(qubits, level) }`, the guard several gates start with. E.g.
sparsesim/src/lib.rs:716-718, 1140-1142. -/
def flushIf (env : Env) (cond : Bool) (qubits : List ℕ) (level : FlushLevel) (s : Sim) :
    Except Panic Sim :=
  if cond then flushQueue env qubits level s else .ok s

/-! ### Public gates -/

/-- The treatment of the controls in `mcx`, lib.rs:664-672. -/
def mcxFlushCtls (env : Env) (c0 : ℕ) (ctls' : List ℕ) (target : ℕ) (s : Sim) : Except Panic Sim :=
  if (c0 :: ctls').length > 1 then maybeFlush env (c0 :: ctls') .HRxRy s
  else flushIf env (s.ryQ.containsKey c0 || s.rxQ.containsKey c0
      || (s.hFlag.testBit c0 && !s.hFlag.testBit target)) (c0 :: ctls') .HRxRy s

/-- `mcx`, lib.rs:653-684. -/
def mcx (env : Env) (ctls : List ℕ) (target : ℕ) (s : Sim) : Except Panic Sim :=
  match ctls with
  | [] => x target s
  | c0 :: ctls' => do
    let s ← flushIf env (s.ryQ.containsKey target) [target] .HRxRy s
    let s ← mcxFlushCtls env c0 ctls' target s
    if s.hFlag.testBit target then
      if (c0 :: ctls').length = 1 ∧ s.hFlag.testBit c0 then enqueueOp c0 [target] .X s
      else enqueueOp target (c0 :: ctls') .Z s
    else enqueueOp target (c0 :: ctls') .X s

/-- `if cond { self.enqueue_op(target, ctls, op) }`, lib.rs:721-725. -/
def enqueueIf (cond : Bool) (target : ℕ) (ctls : List ℕ) (op : OpCode) (s : Sim) :
    Except Panic Sim :=
  if cond then enqueueOp target ctls op s else .ok s

/-- `mcy`, lib.rs:708-729. -/
def mcy (env : Env) (ctls : List ℕ) (target : ℕ) (s : Sim) : Except Panic Sim :=
  match ctls with
  | [] => y target s
  | c0 :: ctls' => do
    let s ← maybeFlush env (c0 :: ctls') .HRxRy s
    let s ← flushIf env (s.rxQ.containsKey target) [target] .HRx s
    let s ← enqueueIf (s.hFlag.testBit target) c0 ctls' .Z s
    enqueueOp target (c0 :: ctls') .Y s

/-- `mcphase`, lib.rs:745-756. -/
def mcphase (env : Env) (ctls : List ℕ) (phase : ℂ) (target : ℕ) (s : Sim) : Except Panic Sim := do
  let s ← flushQueue env ctls .HRxRy s
  let s ← flushQueue env [target] .HRxRy s
  let (t, cs) ← resolveAndCheck s.idMap target ctls
  return { s with
    state := s.state.map (fun e =>
      if cs.all (fun c => e.1.testBit c) then phaseTransform phase e t else e) }

/-- `z`, lib.rs:764-781. -/
def z (target : ℕ) (s : Sim) : Except Panic Sim :=
  let s := { s with ryQ := s.ryQ.modify target (fun a => a * (-1)) }
  let s := { s with rxQ := s.rxQ.modify target (fun a => a * (-1)) }
  if s.hFlag.testBit target then enqueueOp target [] .X s else enqueueOp target [] .Z s

/-- The contribution of one qubit to `count` in `mcz`, lib.rs:793-798. -/
def mczWeight (s : Sim) (q : ℕ) : ℕ :=
  (if s.hFlag.testBit q then 1 else 0) +
    (if s.rxQ.containsKey q || s.ryQ.containsKey q then 2 else 0)

/-- `count` in `mcz`, lib.rs:791-804. -/
def mczCount (s : Sim) (ctls : List ℕ) (target : ℕ) : ℕ :=
  ctls.foldl (fun accum c => accum + s.mczWeight c) 0 + s.mczWeight target

/-- `mcz`, lib.rs:784-830. -/
def mcz (env : Env) (ctls : List ℕ) (target : ℕ) (s : Sim) : Except Panic Sim :=
  match ctls with
  | [] => z target s
  | c0 :: ctls' =>
    if s.mczCount (c0 :: ctls') target = 1 then
      match (c0 :: ctls').find? (fun c => s.hFlag.testBit c) with
      | some hCtl =>
        enqueueOp hCtl ((c0 :: ctls').map (fun c => if c = hCtl then target else c)) .X s
      | none => enqueueOp target (c0 :: ctls') .X s
    else do
      let s ← flushQueue env (c0 :: ctls') .HRxRy s
      let s ← flushQueue env [target] .HRxRy s
      enqueueOp target (c0 :: ctls') .Z s

/-- `s`, `sadj`, `t`, `tadj`, `rz`: lib.rs:838-841, 856-859, 878-881, 900-903, 921-924 all have
this shape. -/
def diagGate (env : Env) (op : OpCode) (target : ℕ) (s : Sim) : Except Panic Sim := do
  let s ← maybeFlush env [target] .HRxRy s
  enqueueOp target [] op s

/-- `mcs`, `mcsadj`, `mct`, `mctadj`, `mcrz`: lib.rs:844-848, 862-866, 884-888, 906-910, 927-931. -/
def mcDiagGate (env : Env) (op : OpCode) (ctls : List ℕ) (target : ℕ) (s : Sim) :
    Except Panic Sim := do
  let s ← maybeFlush env ctls .HRxRy s
  let s ← maybeFlush env [target] .HRxRy s
  enqueueOp target ctls op s

/-- `s`, lib.rs:838-841. -/
def sGate (env : Env) (target : ℕ) (s : Sim) : Except Panic Sim := diagGate env .S target s
/-- `sadj`, lib.rs:856-859. -/
def sadj (env : Env) (target : ℕ) (s : Sim) : Except Panic Sim := diagGate env .Sadj target s
/-- `t`, lib.rs:878-881. -/
def t (env : Env) (target : ℕ) (s : Sim) : Except Panic Sim := diagGate env .T target s
/-- `tadj`, lib.rs:900-903. -/
def tadj (env : Env) (target : ℕ) (s : Sim) : Except Panic Sim := diagGate env .Tadj target s
/-- `rz`, lib.rs:921-924. -/
def rz (env : Env) (theta : ℝ) (target : ℕ) (s : Sim) : Except Panic Sim :=
  diagGate env (.Rz theta) target s
/-- `mcs`, lib.rs:844-848. -/
def mcs (env : Env) (ctls : List ℕ) (target : ℕ) (s : Sim) : Except Panic Sim :=
  mcDiagGate env .S ctls target s
/-- `mcsadj`, lib.rs:862-866. -/
def mcsadj (env : Env) (ctls : List ℕ) (target : ℕ) (s : Sim) : Except Panic Sim :=
  mcDiagGate env .Sadj ctls target s
/-- `mct`, lib.rs:884-888. -/
def mct (env : Env) (ctls : List ℕ) (target : ℕ) (s : Sim) : Except Panic Sim :=
  mcDiagGate env .T ctls target s
/-- `mctadj`, lib.rs:906-910. -/
def mctadj (env : Env) (ctls : List ℕ) (target : ℕ) (s : Sim) : Except Panic Sim :=
  mcDiagGate env .Tadj ctls target s
/-- `mcrz`, lib.rs:927-931. -/
def mcrz (env : Env) (ctls : List ℕ) (theta : ℝ) (target : ℕ) (s : Sim) : Except Panic Sim :=
  mcDiagGate env (.Rz theta) ctls target s

/-- `h`, lib.rs:934-947. -/
def h (env : Env) (target : ℕ) (s : Sim) : Except Panic Sim := do
  let s := { s with ryQ := s.ryQ.modify target (fun a => a * (-1)) }
  let s ← flushIf env (s.rxQ.containsKey target) [target] .HRx s
  return { s with hFlag := setBit s.hFlag target (!s.hFlag.testBit target) }

/-- `mch`, lib.rs:950-957. -/
def mch (env : Env) (ctls : List ℕ) (target : ℕ) (s : Sim) : Except Panic Sim := do
  let s ← flushQueue env ctls .HRxRy s
  let s ← flushIf env (s.ryQ.containsKey target || s.rxQ.containsKey target) [target] .HRxRy s
  applyMch env ctls target s

/-- The queue update of `rx` and `ry`, lib.rs:1143-1150 and 1168-1175. -/
def addAngle (eps : ℝ) (q : IMap ℝ) (target : ℕ) (theta : ℝ) : IMap ℝ :=
  match q.get target with
  | some a =>
    let q := q.modify target (fun a => a + theta)
    if NearlyZeroR eps (a + theta) then q.remove target else q
  | none => q.insert target theta

/-- `rx`, lib.rs:1139-1151. -/
def rx (env : Env) (theta : ℝ) (target : ℕ) (s : Sim) : Except Panic Sim := do
  let s ← flushIf env (s.hFlag.testBit target || s.ryQ.containsKey target) [target] .HRxRy s
  return { s with rxQ := addAngle env.eps s.rxQ target theta }

/-- `mcrx`, lib.rs:1154-1164. -/
def mcrx (env : Env) (ctls : List ℕ) (theta : ℝ) (target : ℕ) (s : Sim) : Except Panic Sim := do
  let s ← flushQueue env ctls .HRxRy s
  let s ← if s.ryQ.containsKey target then flushQueue env [target] .HRxRy s
    else flushIf env (s.hFlag.testBit target) [target] .H s
  mcrotation env (mcx env ctls target) ctls theta target false s

/-- `ry`, lib.rs:1167-1176. -/
def ry (env : Env) (theta : ℝ) (target : ℕ) (s : Sim) : Except Panic Sim :=
  .ok { s with ryQ := addAngle env.eps s.ryQ target theta }

/-- `mcry`, lib.rs:1179-1189. -/
def mcry (env : Env) (ctls : List ℕ) (theta : ℝ) (target : ℕ) (s : Sim) : Except Panic Sim := do
  let s ← flushQueue env ctls .HRxRy s
  let s ← if s.rxQ.containsKey target then flushQueue env [target] .HRx s
    else flushIf env (s.hFlag.testBit target) [target] .H s
  mcrotation env (mcy env ctls target) ctls theta target true s

/-! ### Allocation, release, swaps -/

/-- "first available sequential" number, lib.rs:157-168: the longest prefix of the sorted list in
which every element equals its position; one more than its last element, or zero. -/
def firstFree (sorted : List ℕ) : ℕ :=
  match ((sorted.zipIdx).takeWhile (fun p => p.2 == p.1)).getLast? with
  | some p => p.1 + 1
  | none => 0

/-- `allocate`, lib.rs:151-173. -/
def allocate (s : Sim) : ℕ × Sim :=
  let sortedKeys := s.idMap.iter.map Prod.fst
  let sortedVals := s.idMap.values.mergeSort (fun a b => decide (a ≤ b))
  let newKey := firstFree sortedKeys
  let newVal := firstFree sortedVals
  (newKey, { s with idMap := s.idMap.insert newKey newVal })

/-- `mask` of lib.rs:394-396 and 436-438. -/
def locMask (locs : List ℕ) : ℕ := locs.foldl (fun accum loc => accum ||| (1 <<< loc)) 0

/-- `(&index & &mask).count_ones() & 1 > 0`, lib.rs:402. -/
def oddParity (index mask : ℕ) : Bool := countOnes (index &&& mask) % 2 == 1

/-- `check_joint_probability`, lib.rs:393-408. -/
def checkJointProbability (locs : List ℕ) (s : Sim) : Except Panic (ℝ × Sim) := do
  let mask := locMask locs
  let (ops, s) ← takeOps s
  let state := s.state.map (applyOps ops)
  let p := state.foldl (fun accum e =>
    if oddParity e.1 mask then accum + Complex.normSq e.2 else accum) 0
  return (p, { s with state := state })

/-- `joint_collapse`, lib.rs:435-459. -/
def jointCollapse (locs : List ℕ) (val : Bool) (scalingDenominator : ℝ) (s : Sim) : Sim :=
  let mask := locMask locs
  let scaling : ℝ := 1 / Real.sqrt (if val then scalingDenominator else 1 - scalingDenominator)
  { s with state := s.state.filterMap (fun e =>
      if oddParity e.1 mask = val then some (e.1, e.2 * (scaling : ℂ)) else none) }

/-- `joint_probability`, lib.rs:283-300. -/
def jointProbability (env : Env) (ids : List ℕ) (s : Sim) : Except Panic (ℝ × Sim) := do
  let s ← maybeFlush env ids .HRxRy s
  checkForDuplicates ids
  let locs ← resolveIds s.idMap ids
  checkJointProbability locs s

/-- `qubit_is_zero`, lib.rs:303-305. -/
def qubitIsZero (env : Env) (id : ℕ) (s : Sim) : Except Panic (Bool × Sim) := do
  let (p, s) ← jointProbability env [id] s
  return (decide (NearlyZeroR env.eps p), s)

/-- `rng.random::<f64>()`: the next sample. sparsesim/src/lib.rs:322, 383. -/
def nextSample (s : Sim) : ℝ × Sim := (s.rng 0, { s with rng := fun n => s.rng (n + 1) })

/-- `measure`, lib.rs:312-327. -/
def measure (env : Env) (id : ℕ) (s : Sim) : Except Panic (Bool × Sim) := do
  let s ← maybeFlush env [id] .HRxRy s
  let loc ← resolveId s.idMap id
  let (sample, s) := s.nextSample
  let (prob, s) ← checkJointProbability [loc] s
  let res := decide (sample < prob)
  return (res, jointCollapse [loc] res prob s)

/-- `force_collapse`, lib.rs:338-358. -/
def forceCollapse (env : Env) (val : Bool) (id : ℕ) (s : Sim) : Except Panic (ℝ × Sim) := do
  let s ← maybeFlush env [id] .HRxRy s
  let loc ← resolveId s.idMap id
  let (prob, s) ← checkJointProbability [loc] s
  let s :=
    if (val = true ∧ ¬ NearlyZeroR env.eps prob) ∨ (val = false ∧ ¬ NearlyZeroR env.eps (1 - prob))
    then jointCollapse [loc] val prob s else s
  return (if val then prob else 1 - prob, s)

/-- `joint_measure`, lib.rs:367-388. -/
def jointMeasure (env : Env) (ids : List ℕ) (s : Sim) : Except Panic (Bool × Sim) := do
  let s ← maybeFlush env ids .HRxRy s
  checkForDuplicates ids
  let locs ← resolveIds s.idMap ids
  let (sample, s) := s.nextSample
  let (prob, s) ← checkJointProbability locs s
  let res := decide (sample < prob)
  return (res, jointCollapse locs res prob s)

/-- The effect of `release` on the state, before the identifier is removed, lib.rs:181-207. -/
def releaseState (env : Env) (id : ℕ) (s : Sim) : Except Panic Sim :=
  if s.idMap.iter.length = 1 then
    .ok { s with opQ := [], hFlag := 0, rxQ := IMap.empty, ryQ := IMap.empty, state := [(0, 1)] }
  else do
    let (res, s) ← measure env id s
    let loc ← indexId s.idMap id
    if res then
      return { s with state := s.state.map (fun e =>
        if e.1.testBit loc then (setBit e.1 loc false, e.2) else e) }
    else return s

/-- `release`, lib.rs:180-210. -/
def release (env : Env) (id : ℕ) (s : Sim) : Except Panic Sim := do
  let s ← releaseState env id s
  return { s with idMap := s.idMap.remove id }

/-- The exchange of two optional queue entries in `swap_qubit_ids`, lib.rs:475-486 and 488-499. -/
def swapEntries (q : IMap ℝ) (q1 q2 : ℕ) : IMap ℝ :=
  let a1 := q.get q1
  let a2 := q.get q2
  let q := match a1 with
    | some a => q.insert q2 a
    | none => q.remove q2
  match a2 with
    | some a => q.insert q1 a
    | none => q.remove q1

/-- `swap_qubit_ids`, lib.rs:464-511. -/
def swapQubitIds (q1 q2 : ℕ) (s : Sim) : Except Panic Sim := do
  let s ← flushOps s
  let h1 := s.hFlag.testBit q1
  let h2 := s.hFlag.testBit q2
  let s := { s with hFlag := setBit (setBit s.hFlag q1 h2) q2 h1 }
  let s := { s with rxQ := swapEntries s.rxQ q1 q2 }
  let s := { s with ryQ := swapEntries s.ryQ q1 q2 }
  let m1 ← resolveId s.idMap q1
  let m2 ← resolveId s.idMap q2
  return { s with idMap := (s.idMap.modify q1 (fun _ => m2)).modify q2 (fun _ => m1) }

/-- The key update of `swap_qubit_state`, lib.rs:524-531. -/
def swapKey (q1 q2 : ℕ) (e : ℕ × ℂ) : ℕ × ℂ :=
  if e.1.testBit q1 ≠ e.1.testBit q2 then
    (setBit (setBit e.1 q1 (!e.1.testBit q1)) q2 (!e.1.testBit q2), e.2)
  else e

/-- `swap_qubit_state`, lib.rs:514-532.  The arguments are locations, yet they are passed to
`flush_queue` as if they were identifiers, exactly as in the code. -/
def swapQubitState (env : Env) (q1 q2 : ℕ) (s : Sim) : Except Panic Sim :=
  if q1 = q2 then .ok s
  else do
    let s ← flushQueue env [q1, q2] .HRxRy s
    return { s with state := s.state.map (swapKey q1 q2) }

/-- `id_map.iter().find(|&(_, &value)| value == loc)`, lib.rs:128 and 1243-1246. -/
def findByLoc (m : IMap ℕ) (loc : ℕ) : Option ℕ :=
  (m.iter.find? (fun p => p.2 == loc)).map Prod.fst

/-- One iteration of the relocation loop of `get_state` and `dump`, lib.rs:125-139, 224-238. -/
def relocateOne (env : Env) (index key : ℕ) (s : Sim) : Except Panic Sim := do
  let loc ← indexId s.idMap key
  if index ≠ loc then
    let s ← swapQubitState env loc index s
    let s := match findByLoc s.idMap index with
      | some swappedKey => { s with idMap := s.idMap.modify swappedKey (fun _ => loc) }
      | none => s
    return { s with idMap := s.idMap.modify key (fun _ => index) }
  else return s

/-- The relocation loop, lib.rs:124-140 and 223-239. -/
def relocate (env : Env) : ℕ → List ℕ → Sim → Except Panic Sim
  | _, [], s => .ok s
  | index, key :: rest, s => do
    let s ← relocateOne env index key s
    relocate env (index + 1) rest s

/-- `state.sort_unstable_by(|a, b| a.0.cmp(&b.0))`, lib.rs:143 and 265 (keys are distinct, so
stability does not matter). -/
def sortState (l : List (ℕ × ℂ)) : List (ℕ × ℂ) := l.mergeSort (fun a b => decide (a.1 ≤ b.1))

/-- `get_state`, lib.rs:118-145. -/
def getState (env : Env) (s : Sim) : Except Panic ((List (ℕ × ℂ) × ℕ) × Sim) := do
  let sortedKeys := s.idMap.iter.map Prod.fst
  let s ← flushQueue env sortedKeys .HRxRy s
  let s ← relocate env 0 sortedKeys s
  return ((sortState s.state, sortedKeys.length), s)

/-- The text of `dump_impl(false)`, lib.rs:247-274: the output buffer is extended entry by entry;
`fmt` is the `Display` of `Complex64`. -/
def dumpText (fmt : ℂ → String) (l : List (ℕ × ℂ)) : String :=
  let output := "STATE: [ "
  let output := l.foldl
    (fun output e => output ++ ("|" ++ toString e.1 ++ "⟩: " ++ fmt e.2 ++ ", ")) output
  let output := output ++ "]"
  output ++ "\n"

/-- `dump`, lib.rs:216-242 (`sort_unstable` of the already sorted keys is the identity). -/
def dump (env : Env) (fmt : ℂ → String) (s : Sim) : Except Panic (String × Sim) := do
  let sortedKeys := s.idMap.iter.map Prod.fst
  let s ← flushQueue env sortedKeys .HRxRy s
  let s ← relocate env 0 sortedKeys s
  let s := { s with state := sortState s.state }
  return (dumpText fmt s.state, s)

end Sim
end Qir
