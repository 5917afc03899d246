import Verif.Model.Exp

/-!
# The simulator over an arbitrary arithmetic

`Model/Sim` computes with real numbers and `Model/Rounded` with rounded real numbers; neither has infinities or
not-a-numbers.  Here is the same code over any type `F` of machine numbers with any operations at all: nothing is assumed
of them.  `f64` with its infinities and not-a-numbers is one instance (`Tests/Float` runs it).  A function that
touches no number is that of `Model/Sim`.  What is proved of this model holds whatever the numbers do.

* `FRAC_1_SQRT_2`, `1e-10` and the literals are constants of the arithmetic.
* The iteration order of a hash map is the arbitrary permutation `shuffle`.
* The random generator is the infinite list `rng` of its future samples.
* `Complex64::exp` of `0 + θ i` is `from_polar (exp 0) θ` with `exp 0 = 1` (num-complex).
* `apply` is in `Model/GenericApply`.
-/

namespace Qir
namespace Gen

/-- `Complex64`: a pair of numbers. Used throughout sparsesim/src/lib.rs, e.g. sparsesim/src/lib.rs:92. -/
structure Cx (F : Type) where
  re : F
  im : F

/-- The arithmetic: constants and operations of `f64`, with no law. The operations used in sparsesim/src/lib.rs,
sparsesim/src/exp.rs and sparsesim/src/nearly_zero.rs. -/
structure Num (F : Type) where
  zero : F
  one : F
  two : F
  /-- `1e-10`, nearly_zero.rs:13 -/
  eps : F
  /-- `FRAC_1_SQRT_2` -/
  fracSqrt2 : F
  add : F → F → F
  sub : F → F → F
  mul : F → F → F
  div : F → F → F
  neg : F → F
  /-- `f64::max`, `f64::min` -/
  max : F → F → F
  min : F → F → F
  sqrt : F → F
  cos : F → F
  sin : F → F
  /-- the comparisons `<`, `<=` and `==` -/
  lt : F → F → Bool
  le : F → F → Bool
  eq : F → F → Bool
  /-- iteration order of a freshly collected hash map -/
  shuffle : List (ℕ × Cx F) → List (ℕ × Cx F)
  /-- iteration visits every entry exactly once -/
  shuffle_perm : ∀ l, (shuffle l).Perm l

variable {F : Type}

namespace Num

/-- `Complex64::one()`. sparsesim/src/lib.rs:92, 191. -/
def oneC (N : Num F) : Cx F := ⟨N.one, N.zero⟩

/-- `Complex64::i()`. sparsesim/src/lib.rs:690. -/
def iC (N : Num F) : Cx F := ⟨N.zero, N.one⟩

/-- `-z`. sparsesim/src/lib.rs:692, 760. -/
def negC (N : Num F) (z : Cx F) : Cx F := ⟨N.neg z.re, N.neg z.im⟩

/-- `Complex64 * Complex64` (num-complex). sparsesim/src/lib.rs:737, 1107, 1119. -/
def mulC (N : Num F) (z w : Cx F) : Cx F :=
  ⟨N.sub (N.mul z.re w.re) (N.mul z.im w.im), N.add (N.mul z.re w.im) (N.mul z.im w.re)⟩

/-- `Complex64 * f64`. sparsesim/src/lib.rs:991, 1010. -/
def scale (N : Num F) (z : Cx F) (r : F) : Cx F := ⟨N.mul z.re r, N.mul z.im r⟩

/-- `Complex64 + Complex64`. sparsesim/src/lib.rs:1008, 1119, 1124. -/
def addC (N : Num F) (z w : Cx F) : Cx F := ⟨N.add z.re w.re, N.add z.im w.im⟩

/-- `Complex64 - Complex64`. sparsesim/src/lib.rs:1013. -/
def subC (N : Num F) (z w : Cx F) : Cx F := ⟨N.sub z.re w.re, N.sub z.im w.im⟩

/-- `norm_sqr`. sparsesim/src/lib.rs:403. -/
def normSqr (N : Num F) (z : Cx F) : F := N.add (N.mul z.re z.re) (N.mul z.im z.im)

/-- `==` on complex numbers. sparsesim/src/lib.rs:1058. -/
def eqC (N : Num F) (z w : Cx F) : Bool := N.eq z.re w.re && N.eq z.im w.im

/-- `Complex64::exp(Complex64::new(0.0, angle))`. sparsesim/src/lib.rs:914-917. -/
def cis (N : Num F) (angle : F) : Cx F := ⟨N.mul N.one (N.cos angle), N.mul N.one (N.sin angle)⟩

/-- `f64::is_nearly_zero`, nearly_zero.rs:11-15. -/
def nearlyZero (N : Num F) (x : F) : Bool := N.le (N.sub (N.max x N.zero) (N.min N.zero x)) N.eps

/-- `Complex::is_nearly_zero`, nearly_zero.rs:17-24. -/
def nearlyZeroC (N : Num F) (z : Cx F) : Bool := N.nearlyZero z.re && N.nearlyZero z.im

end Num

/-- `OpCode`, lib.rs:62-71. -/
inductive GOp (F : Type)
  | X | Y | Z | S | Sadj | T | Tadj
  | Rz (theta : F)

/-- `QuantumSim`, lib.rs:37-58. -/
structure GSim (F : Type) where
  state : List (ℕ × Cx F)
  idMap : IMap ℕ
  rng : ℕ → F
  hFlag : ℕ
  rxQ : IMap F
  ryQ : IMap F
  opQ : List (List ℕ × ℕ × GOp F)

open Qir.Sim (resolveId resolveIds indexId resolveAndCheck checkForDuplicates firstFree locMask oddParity findByLoc
  ExpMasks expMasks expCheckDup)

/-- `QuantumSim::new`, lib.rs:91-103. -/
def new (N : Num F) (rng : ℕ → F) : GSim F :=
  { state := [(0, N.oneC)], idMap := IMap.empty, rng := rng, hFlag := 0,
    rxQ := IMap.empty, ryQ := IMap.empty, opQ := [] }

/-- `x_transform`, lib.rs:634-636. -/
def xTransform (e : ℕ × Cx F) (target : ℕ) : ℕ × Cx F := (setBit e.1 target (!e.1.testBit target), e.2)

/-- The iterator of `take_ops`, lib.rs:413-420. -/
def resolveOps (m : IMap ℕ) : List (List ℕ × ℕ × GOp F) → Except Panic (List (List ℕ × ℕ × GOp F))
  | [] => .ok []
  | (ctls, target, op) :: rest => do
    let (t, cs) ← resolveAndCheck m target ctls
    let rest' ← resolveOps m rest
    return (cs, t, op) :: rest'

/-- `take_ops`, lib.rs:412-423. -/
def takeOps (s : GSim F) : Except Panic (List (List ℕ × ℕ × GOp F) × GSim F) := do
  let ops ← resolveOps s.idMap s.opQ
  return (ops, { s with opQ := [] })

/-- `has_queued_hrxy`, lib.rs:578-582. -/
def hasQueued (s : GSim F) (target : ℕ) : Bool :=
  s.hFlag.testBit target || s.rxQ.containsKey target || s.ryQ.containsKey target

/-- `collect()` of (index, amplitude) pairs into an `FxHashMap`: a later pair replaces an earlier one with the same
index. sparsesim/src/lib.rs:968-975, 1089-1096. -/
def insertPair (m : List (ℕ × Cx F)) (p : ℕ × Cx F) : List (ℕ × Cx F) :=
  if m.any (fun q => q.1 == p.1) then m.map (fun q => if q.1 == p.1 then p else q) else m ++ [p]

/-- The collected map as a list of its entries, before the hash order is applied. sparsesim/src/lib.rs:968-975,
1089-1096. -/
def collectMap (l : List (ℕ × Cx F)) : List (ℕ × Cx F) := l.foldl insertPair []

/-- `mapped_state.get(&k)`. sparsesim/src/lib.rs:985, 1006, 1103, 1117. -/
def lookupMap (m : List (ℕ × Cx F)) (k : ℕ) : Option (Cx F) := (m.find? (fun p => p.1 == k)).map Prod.snd

/-! ### Queued operations -/

/-- `y_transform`, lib.rs:687-694. -/
def yTransform (N : Num F) (e : ℕ × Cx F) (target : ℕ) : ℕ × Cx F :=
  let index := setBit e.1 target (!e.1.testBit target)
  (index, N.mulC e.2 (if index.testBit target then N.iC else N.negC N.iC))

/-- `phase_transform`, lib.rs:732-742. -/
def phaseTransform (N : Num F) (phase : Cx F) (e : ℕ × Cx F) (target : ℕ) : ℕ × Cx F :=
  (e.1, N.mulC e.2 (if e.1.testBit target then phase else N.oneC))

/-- `rz_transform`, lib.rs:913-918. -/
def rzTransform (N : Num F) (e : ℕ × Cx F) (theta : F) (target : ℕ) : ℕ × Cx F :=
  let angle := N.mul (N.div theta N.two) (if e.1.testBit target then N.one else N.neg N.one)
  (e.1, N.mulC e.2 (N.cis angle))

/-- One iteration of `apply_ops`, lib.rs:1297-1312; the phases are those of lib.rs:759-761, 833-835, 851-853, 869-875,
891-897. -/
def applyOp (N : Num F) (op : List ℕ × ℕ × GOp F) (e : ℕ × Cx F) : ℕ × Cx F :=
  if op.1.all (fun c => e.1.testBit c) then
    match op.2.2 with
    | .X => xTransform e op.2.1
    | .Y => yTransform N e op.2.1
    | .Z => phaseTransform N (N.negC N.oneC) e op.2.1
    | .S => phaseTransform N N.iC e op.2.1
    | .Sadj => phaseTransform N (N.negC N.iC) e op.2.1
    | .T => phaseTransform N ⟨N.fracSqrt2, N.fracSqrt2⟩ e op.2.1
    | .Tadj => phaseTransform N ⟨N.fracSqrt2, N.neg N.fracSqrt2⟩ e op.2.1
    | .Rz theta => rzTransform N e theta op.2.1
  else e

/-- `apply_ops`, lib.rs:1292-1313. -/
def applyOps (N : Num F) (ops : List (List ℕ × ℕ × GOp F)) (e : ℕ × Cx F) : ℕ × Cx F :=
  ops.foldl (fun e op => applyOp N op e) e

/-- `flush_ops`, lib.rs:610-617. -/
def flushOps (N : Num F) (s : GSim F) : Except Panic (GSim F) :=
  if s.opQ.isEmpty then .ok s
  else do
    let (ops, s) ← takeOps s
    return { s with state := s.state.map (applyOps N ops) }

/-- `enqueue_op`, lib.rs:571-576. -/
def enqueueOp (N : Num F) (target : ℕ) (ctls : List ℕ) (op : GOp F) (s : GSim F) : Except Panic (GSim F) := do
  let s ← if s.opQ.length = QUEUE_LIMIT then flushOps N s else .ok s
  return { s with opQ := s.opQ ++ [(ctls, target, op)] }

/-! ### Gates that change the support -/

/-- The body of the fold in `apply_mch`, lib.rs:982-1025. -/
def mchEntry (N : Num F) (m : List (ℕ × Cx F)) (ctls : List ℕ) (target : ℕ) (e : ℕ × Cx F) : List (ℕ × Cx F) :=
  if ctls.all (fun c => e.1.testBit c) then
    let flipped := setBit 0 target true
    let flippedIndex := e.1 ^^^ flipped
    match lookupMap m flippedIndex with
    | none =>
      [(setBit e.1 target false, N.scale e.2 N.fracSqrt2),
       (setBit e.1 target true, N.scale (N.scale e.2 N.fracSqrt2) (if e.1.testBit target then N.neg N.one else N.one))]
    | some flippedValue =>
      if !e.1.testBit target then
        (if N.nearlyZeroC (N.addC e.2 flippedValue) then []
          else [(e.1, N.scale (N.addC e.2 flippedValue) N.fracSqrt2)]) ++
        (if N.nearlyZeroC (N.subC e.2 flippedValue) then []
          else [(e.1 ||| flipped, N.scale (N.subC e.2 flippedValue) N.fracSqrt2)])
      else []
  else [e]

/-- `apply_mch`, lib.rs:962-1027. -/
def applyMch (N : Num F) (ctls : List ℕ) (target : ℕ) (s : GSim F) : Except Panic (GSim F) := do
  let (t, cs) ← resolveAndCheck s.idMap target ctls
  let (ops, s) ← takeOps s
  let m := N.shuffle (collectMap (s.state.map (applyOps N ops)))
  return { s with state := m.flatMap (mchEntry N m cs t) }

/-- `m00` of `mcrotation`, lib.rs:1034. -/
def rotM00 (N : Num F) (theta : F) : Cx F := ⟨N.cos (N.div theta N.two), N.zero⟩

/-- `m01` of `mcrotation`, lib.rs:1035-1040. -/
def rotM01 (N : Num F) (theta : F) (signFlip : Bool) : Cx F :=
  N.mulC ⟨N.zero, N.sin (N.div theta (N.neg N.two))⟩ (if signFlip then N.negC N.iC else N.oneC)

/-- The body of the fold in the general case of `mcrotation`, lib.rs:1100-1133. -/
def rotEntry (N : Num F) (m : List (ℕ × Cx F)) (ctls : List ℕ) (target : ℕ) (m00 m01 m10 : Cx F)
    (e : ℕ × Cx F) : List (ℕ × Cx F) :=
  if ctls.all (fun c => e.1.testBit c) then
    let flipped := setBit 0 target true
    let flippedIndex := e.1 ^^^ flipped
    match lookupMap m flippedIndex with
    | none =>
      if e.1.testBit target then [(flippedIndex, N.mulC e.2 m01), (e.1, N.mulC e.2 m00)]
      else [(e.1, N.mulC e.2 m00), (flippedIndex, N.mulC e.2 m10)]
    | some flippedVal =>
      if !e.1.testBit target then
        (if N.nearlyZeroC (N.addC (N.mulC e.2 m00) (N.mulC flippedVal m01)) then []
          else [(e.1, N.addC (N.mulC e.2 m00) (N.mulC flippedVal m01))]) ++
        (if N.nearlyZeroC (N.addC (N.mulC e.2 m10) (N.mulC flippedVal m00)) then []
          else [(flippedIndex, N.addC (N.mulC e.2 m10) (N.mulC flippedVal m00))])
      else []
  else [e]

/-- `if ctls.iter().all(|c| index.bit(*c)) { *value *= factor; }`, lib.rs:1062-1064 and 1075-1077. -/
def scaleIf (N : Num F) (ctls : List ℕ) (factor : Cx F) (e : ℕ × Cx F) : ℕ × Cx F :=
  if ctls.all (fun c => e.1.testBit c) then (e.1, N.mulC e.2 factor) else e

/-- `mcrotation`, lib.rs:1032-1136; `pauli` is the call of `self.mcy` or `self.mcx`. -/
def mcrotation (N : Num F) (pauli : GSim F → Except Panic (GSim F)) (ctls : List ℕ) (theta : F)
    (target : ℕ) (signFlip : Bool) (s : GSim F) : Except Panic (GSim F) :=
  let m00 := rotM00 N theta
  let m01 := rotM01 N theta signFlip
  if N.nearlyZeroC m00 then do
    let s ← pauli s
    let (_, cs) ← resolveAndCheck s.idMap target ctls
    let factor := N.mulC m01 (if signFlip then N.iC else N.oneC)
    if !N.eqC factor N.oneC then
      let (ops, s) ← takeOps s
      return { s with state := s.state.map (fun e => scaleIf N cs factor (applyOps N ops e)) }
    else return s
  else if N.nearlyZeroC m01 then
    if N.nearlyZeroC (N.addC m00 N.oneC) then do
      let (ops, s) ← takeOps s
      let (_, cs) ← resolveAndCheck s.idMap target ctls
      return { s with state := s.state.map (fun e => scaleIf N cs (N.negC N.oneC) (applyOps N ops e)) }
    else .ok s
  else do
    let (t, cs) ← resolveAndCheck s.idMap target ctls
    let m10 := N.scale m01 (if signFlip then N.neg N.one else N.one)
    let (ops, s) ← takeOps s
    let m := N.shuffle (collectMap (s.state.map (applyOps N ops)))
    return { s with state := m.flatMap (rotEntry N m cs t m00 m01 m10) }

/-- `x`, lib.rs:639-650. -/
def x (N : Num F) (target : ℕ) (s : GSim F) : Except Panic (GSim F) :=
  let s := { s with ryQ := s.ryQ.modify target (fun a => N.mul a (N.neg N.one)) }
  if s.hFlag.testBit target then enqueueOp N target [] .Z s else enqueueOp N target [] .X s

/-- `y`, lib.rs:697-704. -/
def y (N : Num F) (target : ℕ) (s : GSim F) : Except Panic (GSim F) :=
  let s := { s with rxQ := s.rxQ.modify target (fun a => N.mul a (N.neg N.one)) }
  enqueueOp N target [] .Y s

/-! ### The queues of rotations -/

/-- `flush_rx`, lib.rs:619-624. -/
def flushRx (N : Num F) (target : ℕ) (s : GSim F) : Except Panic (GSim F) :=
  match s.rxQ.get target with
  | some theta => do
    let s ← mcrotation N (x N target) [] theta target false s
    return { s with rxQ := s.rxQ.remove target }
  | none => .ok s

/-- `flush_ry`, lib.rs:626-631. -/
def flushRy (N : Num F) (target : ℕ) (s : GSim F) : Except Panic (GSim F) :=
  match s.ryQ.get target with
  | some theta => do
    let s ← mcrotation N (y N target) [] theta target true s
    return { s with ryQ := s.ryQ.remove target }
  | none => .ok s

/-- lib.rs:592-595. -/
def flushH (N : Num F) (target : ℕ) (s : GSim F) : Except Panic (GSim F) :=
  if s.hFlag.testBit target then do
    let s ← applyMch N [] target s
    return { s with hFlag := setBit s.hFlag target false }
  else .ok s

/-- One iteration of the loop of `flush_queue`, lib.rs:592-603. -/
def flushOne (N : Num F) (level : FlushLevel) (target : ℕ) (s : GSim F) : Except Panic (GSim F) := do
  let s ← flushH N target s
  match level with
  | .H => return s
  | .HRx => flushRx N target s
  | .HRxRy => do
    let s ← flushRx N target s
    flushRy N target s

/-- The loop of `flush_queue`, lib.rs:591-604. -/
def flushLoop (N : Num F) (level : FlushLevel) : List ℕ → GSim F → Except Panic (GSim F)
  | [], s => .ok s
  | target :: rest, s => do
    let s ← flushOne N level target s
    flushLoop N level rest s

/-- `flush_queue`, lib.rs:590-608. -/
def flushQueue (N : Num F) (qubits : List ℕ) (level : FlushLevel) (s : GSim F) : Except Panic (GSim F) := do
  let s ← flushLoop N level qubits s
  flushOps N s

/-- `maybe_flush_queue`, lib.rs:584-588. -/
def maybeFlush (N : Num F) (qubits : List ℕ) (level : FlushLevel) (s : GSim F) : Except Panic (GSim F) :=
  if qubits.any (fun q => hasQueued s q) then flushQueue N qubits level s else .ok s

/-- `if cond { self.flush_queue(qubits, level) }`. E.g. sparsesim/src/lib.rs:716-718, 1140-1142. -/
def flushIf (N : Num F) (cond : Bool) (qubits : List ℕ) (level : FlushLevel) (s : GSim F) : Except Panic (GSim F) :=
  if cond then flushQueue N qubits level s else .ok s

/-! ### Public gates -/

/-- lib.rs:664-672. -/
def mcxFlushCtls (N : Num F) (c0 : ℕ) (ctls' : List ℕ) (target : ℕ) (s : GSim F) : Except Panic (GSim F) :=
  if (c0 :: ctls').length > 1 then maybeFlush N (c0 :: ctls') .HRxRy s
  else flushIf N (s.ryQ.containsKey c0 || s.rxQ.containsKey c0
      || (s.hFlag.testBit c0 && !s.hFlag.testBit target)) (c0 :: ctls') .HRxRy s

/-- `mcx`, lib.rs:653-684. -/
def mcx (N : Num F) (ctls : List ℕ) (target : ℕ) (s : GSim F) : Except Panic (GSim F) :=
  match ctls with
  | [] => x N target s
  | c0 :: ctls' => do
    let s ← flushIf N (s.ryQ.containsKey target) [target] .HRxRy s
    let s ← mcxFlushCtls N c0 ctls' target s
    if s.hFlag.testBit target then
      if (c0 :: ctls').length = 1 ∧ s.hFlag.testBit c0 then enqueueOp N c0 [target] .X s
      else enqueueOp N target (c0 :: ctls') .Z s
    else enqueueOp N target (c0 :: ctls') .X s

/-- lib.rs:721-725. -/
def enqueueIf (N : Num F) (cond : Bool) (target : ℕ) (ctls : List ℕ) (op : GOp F) (s : GSim F) : Except Panic (GSim F) :=
  if cond then enqueueOp N target ctls op s else .ok s

/-- `mcy`, lib.rs:708-729. -/
def mcy (N : Num F) (ctls : List ℕ) (target : ℕ) (s : GSim F) : Except Panic (GSim F) :=
  match ctls with
  | [] => y N target s
  | c0 :: ctls' => do
    let s ← maybeFlush N (c0 :: ctls') .HRxRy s
    let s ← flushIf N (s.rxQ.containsKey target) [target] .HRx s
    let s ← enqueueIf N (s.hFlag.testBit target) c0 ctls' .Z s
    enqueueOp N target (c0 :: ctls') .Y s

/-- `mcphase`, lib.rs:745-756. -/
def mcphase (N : Num F) (ctls : List ℕ) (phase : Cx F) (target : ℕ) (s : GSim F) : Except Panic (GSim F) := do
  let s ← flushQueue N ctls .HRxRy s
  let s ← flushQueue N [target] .HRxRy s
  let (t, cs) ← resolveAndCheck s.idMap target ctls
  return { s with
    state := s.state.map (fun e =>
      if cs.all (fun c => e.1.testBit c) then phaseTransform N phase e t else e) }

/-- `z`, lib.rs:764-781. -/
def z (N : Num F) (target : ℕ) (s : GSim F) : Except Panic (GSim F) :=
  let s := { s with ryQ := s.ryQ.modify target (fun a => N.mul a (N.neg N.one)) }
  let s := { s with rxQ := s.rxQ.modify target (fun a => N.mul a (N.neg N.one)) }
  if s.hFlag.testBit target then enqueueOp N target [] .X s else enqueueOp N target [] .Z s

/-- The contribution of one qubit to `count` in `mcz`, lib.rs:793-798. -/
def mczWeight (s : GSim F) (q : ℕ) : ℕ :=
  (if s.hFlag.testBit q then 1 else 0) + (if s.rxQ.containsKey q || s.ryQ.containsKey q then 2 else 0)

/-- `count` in `mcz`, lib.rs:791-804. -/
def mczCount (s : GSim F) (ctls : List ℕ) (target : ℕ) : ℕ :=
  ctls.foldl (fun accum c => accum + mczWeight s c) 0 + mczWeight s target

/-- `mcz`, lib.rs:784-830. -/
def mcz (N : Num F) (ctls : List ℕ) (target : ℕ) (s : GSim F) : Except Panic (GSim F) :=
  match ctls with
  | [] => z N target s
  | c0 :: ctls' =>
    if mczCount s (c0 :: ctls') target = 1 then
      match (c0 :: ctls').find? (fun c => s.hFlag.testBit c) with
      | some hCtl =>
        enqueueOp N hCtl ((c0 :: ctls').map (fun c => if c = hCtl then target else c)) .X s
      | none => enqueueOp N target (c0 :: ctls') .X s
    else do
      let s ← flushQueue N (c0 :: ctls') .HRxRy s
      let s ← flushQueue N [target] .HRxRy s
      enqueueOp N target (c0 :: ctls') .Z s

/-- `s`, `sadj`, `t`, `tadj`, `rz`: lib.rs:838-841, 856-859, 878-881, 900-903, 921-924. -/
def diagGate (N : Num F) (op : GOp F) (target : ℕ) (s : GSim F) : Except Panic (GSim F) := do
  let s ← maybeFlush N [target] .HRxRy s
  enqueueOp N target [] op s

/-- `mcs`, `mcsadj`, `mct`, `mctadj`, `mcrz`: lib.rs:844-848, 862-866, 884-888, 906-910, 927-931. -/
def mcDiagGate (N : Num F) (op : GOp F) (ctls : List ℕ) (target : ℕ) (s : GSim F) : Except Panic (GSim F) := do
  let s ← maybeFlush N ctls .HRxRy s
  let s ← maybeFlush N [target] .HRxRy s
  enqueueOp N target ctls op s

/-- `h`, lib.rs:934-947. -/
def h (N : Num F) (target : ℕ) (s : GSim F) : Except Panic (GSim F) := do
  let s := { s with ryQ := s.ryQ.modify target (fun a => N.mul a (N.neg N.one)) }
  let s ← flushIf N (s.rxQ.containsKey target) [target] .HRx s
  return { s with hFlag := setBit s.hFlag target (!s.hFlag.testBit target) }

/-- `mch`, lib.rs:950-957. -/
def mch (N : Num F) (ctls : List ℕ) (target : ℕ) (s : GSim F) : Except Panic (GSim F) := do
  let s ← flushQueue N ctls .HRxRy s
  let s ← flushIf N (s.ryQ.containsKey target || s.rxQ.containsKey target) [target] .HRxRy s
  applyMch N ctls target s

/-- The queue update of `rx` and `ry`, lib.rs:1143-1150 and 1168-1175. -/
def addAngle (N : Num F) (q : IMap F) (target : ℕ) (theta : F) : IMap F :=
  match q.get target with
  | some a =>
    let q := q.modify target (fun a => N.add a theta)
    if N.nearlyZero (N.add a theta) then q.remove target else q
  | none => q.insert target theta

/-- `rx`, lib.rs:1139-1151. -/
def rx (N : Num F) (theta : F) (target : ℕ) (s : GSim F) : Except Panic (GSim F) := do
  let s ← flushIf N (s.hFlag.testBit target || s.ryQ.containsKey target) [target] .HRxRy s
  return { s with rxQ := addAngle N s.rxQ target theta }

/-- `mcrx`, lib.rs:1154-1164. -/
def mcrx (N : Num F) (ctls : List ℕ) (theta : F) (target : ℕ) (s : GSim F) : Except Panic (GSim F) := do
  let s ← flushQueue N ctls .HRxRy s
  let s ← if s.ryQ.containsKey target then flushQueue N [target] .HRxRy s
    else flushIf N (s.hFlag.testBit target) [target] .H s
  mcrotation N (mcx N ctls target) ctls theta target false s

/-- `ry`, lib.rs:1167-1176. -/
def ry (N : Num F) (theta : F) (target : ℕ) (s : GSim F) : Except Panic (GSim F) :=
  .ok { s with ryQ := addAngle N s.ryQ target theta }

/-- `mcry`, lib.rs:1179-1189. -/
def mcry (N : Num F) (ctls : List ℕ) (theta : F) (target : ℕ) (s : GSim F) : Except Panic (GSim F) := do
  let s ← flushQueue N ctls .HRxRy s
  let s ← if s.rxQ.containsKey target then flushQueue N [target] .HRx s
    else flushIf N (s.hFlag.testBit target) [target] .H s
  mcrotation N (mcy N ctls target) ctls theta target true s

/-! ### The exponential -/

/-- The pure Pauli-Z case, exp.rs:99-144. -/
def expDiag (N : Num F) (ctls : List ℕ) (yz : ℕ) (idCoeff pauliCoeff : Cx F) (st : List (ℕ × Cx F)) : List (ℕ × Cx F) :=
  let pauliCoeff := N.addC pauliCoeff idCoeff
  let idCoeff := N.subC ⟨N.mul N.two idCoeff.re, N.mul N.two idCoeff.im⟩ pauliCoeff
  if N.nearlyZeroC pauliCoeff then
    st.filterMap (fun e =>
      if ctls.all (fun c => e.1.testBit c) && oddParity e.1 yz then some (e.1, N.mulC e.2 idCoeff)
      else none)
  else if N.nearlyZeroC idCoeff then
    st.filterMap (fun e =>
      if ctls.all (fun c => e.1.testBit c) && oddParity e.1 yz then some (e.1, N.mulC e.2 pauliCoeff)
      else none)
  else
    st.map (fun e =>
      if ctls.all (fun c => e.1.testBit c) then
        (e.1, N.mulC e.2 (if oddParity e.1 yz = false then pauliCoeff else idCoeff))
      else e)

/-- The factor for the `Y`s, exp.rs:147-153. -/
def yPhase (N : Num F) (yCount : ℕ) : Cx F :=
  if yCount % 4 = 1 then N.iC
  else if yCount % 4 = 2 then N.negC N.oneC
  else if yCount % 4 = 3 then N.negC N.iC
  else N.oneC

/-- One iteration of the loop of exp.rs:163-200. -/
def expEntry (N : Num F) (m : List (ℕ × Cx F)) (ctls : List ℕ) (xy yz : ℕ)
    (idCoeff pauliCoeff pauliCoeffAlt : Cx F) (e : ℕ × Cx F) : List (ℕ × Cx F) :=
  if ctls.all (fun c => e.1.testBit c) then
    let alt := e.1 ^^^ xy
    let odd := oddParity e.1 yz
    match lookupMap m alt with
    | none =>
      [(e.1, N.mulC e.2 idCoeff), (alt, N.mulC e.2 (if odd = false then pauliCoeff else N.negC pauliCoeff))]
    | some altValue =>
      if e.1 < alt then
        let new0 := N.addC (N.mulC e.2 idCoeff) (N.mulC altValue (if odd then N.negC pauliCoeffAlt else pauliCoeffAlt))
        let new1 := N.addC (N.mulC altValue idCoeff) (N.mulC e.2 (if odd then N.negC pauliCoeff else pauliCoeff))
        (if N.nearlyZeroC new0 then [] else [(e.1, new0)]) ++
        (if N.nearlyZeroC new1 then [] else [(alt, new1)])
      else []
  else [e]

/-- The state update of `mcexp`, exp.rs:80-201. -/
def expState (N : Num F) (ctls : List ℕ) (mk : ExpMasks) (theta : F) (st : List (ℕ × Cx F)) : List (ℕ × Cx F) :=
  let idCoeff : Cx F := ⟨N.cos theta, N.zero⟩
  let pauliCoeff : Cx F := ⟨N.zero, N.sin theta⟩
  if mk.xy = 0 then expDiag N ctls mk.yz idCoeff pauliCoeff st
  else
    let pauliCoeff := N.mulC pauliCoeff (yPhase N mk.yCount)
    let pauliCoeffAlt := if mk.yCount % 2 = 0 then pauliCoeff else N.negC pauliCoeff
    let m := N.shuffle (collectMap st)
    m.flatMap (expEntry N m ctls mk.xy mk.yz idCoeff pauliCoeff pauliCoeffAlt)

/-- `mcexp`, exp.rs:34-203. -/
def mcexp (N : Num F) (ctls : List ℕ) (paulis : List MPauli) (theta : F) (targets : List ℕ)
    (s : GSim F) : Except Panic (GSim F) := do
  let s ← flushQueue N ctls .HRxRy s
  let s ← flushQueue N targets .HRxRy s
  let cs ← resolveIds s.idMap ctls
  let ts ← resolveIds s.idMap targets
  expCheckDup cs ts
  let mk ← expMasks paulis ts { xy := 0, yz := 0, yCount := 0 }
  return { s with state := expState N cs mk theta s.state }

/-! ### Swaps and queries -/

/-- `allocate`, lib.rs:151-173. -/
def allocate (s : GSim F) : ℕ × GSim F :=
  let sortedKeys := s.idMap.iter.map Prod.fst
  let sortedVals := s.idMap.values.mergeSort (fun a b => decide (a ≤ b))
  let newKey := firstFree sortedKeys
  let newVal := firstFree sortedVals
  (newKey, { s with idMap := s.idMap.insert newKey newVal })

/-- The exchange of two optional queue entries in `swap_qubit_ids`, lib.rs:475-486 and 488-499. -/
def swapEntries (q : IMap F) (q1 q2 : ℕ) : IMap F :=
  let a1 := q.get q1
  let a2 := q.get q2
  let q := match a1 with
    | some a => q.insert q2 a
    | none => q.remove q2
  match a2 with
    | some a => q.insert q1 a
    | none => q.remove q1

/-- `swap_qubit_ids`, lib.rs:464-511. -/
def swapQubitIds (N : Num F) (q1 q2 : ℕ) (s : GSim F) : Except Panic (GSim F) := do
  let s ← flushOps N s
  let h1 := s.hFlag.testBit q1
  let h2 := s.hFlag.testBit q2
  let s := { s with hFlag := setBit (setBit s.hFlag q1 h2) q2 h1 }
  let s := { s with rxQ := swapEntries s.rxQ q1 q2 }
  let s := { s with ryQ := swapEntries s.ryQ q1 q2 }
  let m1 ← resolveId s.idMap q1
  let m2 ← resolveId s.idMap q2
  return { s with idMap := (s.idMap.modify q1 (fun _ => m2)).modify q2 (fun _ => m1) }

/-- `check_joint_probability`, lib.rs:393-408. -/
def checkJointProbability (N : Num F) (locs : List ℕ) (s : GSim F) : Except Panic (F × GSim F) := do
  let mask := locMask locs
  let (ops, s) ← takeOps s
  let state := s.state.map (applyOps N ops)
  let p := state.foldl (fun accum e =>
    if oddParity e.1 mask then N.add accum (N.normSqr e.2) else accum) N.zero
  return (p, { s with state := state })

/-- `joint_probability`, lib.rs:283-300. -/
def jointProbability (N : Num F) (ids : List ℕ) (s : GSim F) : Except Panic (F × GSim F) := do
  let s ← maybeFlush N ids .HRxRy s
  checkForDuplicates ids
  let locs ← resolveIds s.idMap ids
  checkJointProbability N locs s

/-- `qubit_is_zero`, lib.rs:303-305. -/
def qubitIsZero (N : Num F) (id : ℕ) (s : GSim F) : Except Panic (Bool × GSim F) := do
  let (p, s) ← jointProbability N [id] s
  return (N.nearlyZero p, s)

/-- `joint_collapse`, lib.rs:435-459. -/
def jointCollapse (N : Num F) (locs : List ℕ) (val : Bool) (scalingDenominator : F) (s : GSim F) : GSim F :=
  let mask := locMask locs
  let scaling : F := N.div N.one (N.sqrt (if val then scalingDenominator else N.sub N.one scalingDenominator))
  { s with state := s.state.filterMap (fun e =>
      if oddParity e.1 mask = val then some (e.1, N.scale e.2 scaling) else none) }

/-- `rng.random::<f64>()`: the next sample. sparsesim/src/lib.rs:322, 383. -/
def nextSample (s : GSim F) : F × GSim F := (s.rng 0, { s with rng := fun n => s.rng (n + 1) })

/-- `measure`, lib.rs:312-327. -/
def measure (N : Num F) (id : ℕ) (s : GSim F) : Except Panic (Bool × GSim F) := do
  let s ← maybeFlush N [id] .HRxRy s
  let loc ← resolveId s.idMap id
  let (sample, s) := nextSample s
  let (prob, s) ← checkJointProbability N [loc] s
  let res := N.lt sample prob
  return (res, jointCollapse N [loc] res prob s)

/-- `force_collapse`, lib.rs:338-358. -/
def forceCollapse (N : Num F) (val : Bool) (id : ℕ) (s : GSim F) : Except Panic (F × GSim F) := do
  let s ← maybeFlush N [id] .HRxRy s
  let loc ← resolveId s.idMap id
  let (prob, s) ← checkJointProbability N [loc] s
  let s :=
    if (val && !N.nearlyZero prob) || (!val && !N.nearlyZero (N.sub N.one prob))
    then jointCollapse N [loc] val prob s else s
  return (if val then prob else N.sub N.one prob, s)

/-- `joint_measure`, lib.rs:367-388. -/
def jointMeasure (N : Num F) (ids : List ℕ) (s : GSim F) : Except Panic (Bool × GSim F) := do
  let s ← maybeFlush N ids .HRxRy s
  checkForDuplicates ids
  let locs ← resolveIds s.idMap ids
  let (sample, s) := nextSample s
  let (prob, s) ← checkJointProbability N locs s
  let res := N.lt sample prob
  return (res, jointCollapse N locs res prob s)

/-- The effect of `release` on the state, before the identifier is removed, lib.rs:181-207. -/
def releaseState (N : Num F) (id : ℕ) (s : GSim F) : Except Panic (GSim F) :=
  if s.idMap.iter.length = 1 then
    .ok { s with opQ := [], hFlag := 0, rxQ := IMap.empty, ryQ := IMap.empty, state := [(0, N.oneC)] }
  else do
    let (res, s) ← measure N id s
    let loc ← indexId s.idMap id
    if res then
      return { s with state := s.state.map (fun e =>
        if e.1.testBit loc then (setBit e.1 loc false, e.2) else e) }
    else return s

/-- `release`, lib.rs:180-210. -/
def release (N : Num F) (id : ℕ) (s : GSim F) : Except Panic (GSim F) := do
  let s ← releaseState N id s
  return { s with idMap := s.idMap.remove id }

/-- The key update of `swap_qubit_state`, lib.rs:524-531. -/
def swapKey (q1 q2 : ℕ) (e : ℕ × Cx F) : ℕ × Cx F :=
  if e.1.testBit q1 ≠ e.1.testBit q2 then
    (setBit (setBit e.1 q1 (!e.1.testBit q1)) q2 (!e.1.testBit q2), e.2)
  else e

/-- `swap_qubit_state`, lib.rs:514-532. -/
def swapQubitState (N : Num F) (q1 q2 : ℕ) (s : GSim F) : Except Panic (GSim F) :=
  if q1 = q2 then .ok s
  else do
    let s ← flushQueue N [q1, q2] .HRxRy s
    return { s with state := s.state.map (swapKey q1 q2) }

/-- One iteration of the relocation loop of `get_state` and `dump`, lib.rs:125-139, 224-238. -/
def relocateOne (N : Num F) (index key : ℕ) (s : GSim F) : Except Panic (GSim F) := do
  let loc ← indexId s.idMap key
  if index ≠ loc then
    let s ← swapQubitState N loc index s
    let s := match findByLoc s.idMap index with
      | some swappedKey => { s with idMap := s.idMap.modify swappedKey (fun _ => loc) }
      | none => s
    return { s with idMap := s.idMap.modify key (fun _ => index) }
  else return s

/-- The relocation loop, lib.rs:124-140 and 223-239. -/
def relocate (N : Num F) : ℕ → List ℕ → GSim F → Except Panic (GSim F)
  | _, [], s => .ok s
  | index, key :: rest, s => do
    let s ← relocateOne N index key s
    relocate N (index + 1) rest s

/-- `state.sort_unstable_by(|a, b| a.0.cmp(&b.0))`, lib.rs:143 and 265. -/
def sortState (l : List (ℕ × Cx F)) : List (ℕ × Cx F) := l.mergeSort (fun a b => decide (a.1 ≤ b.1))

/-- `get_state`, lib.rs:118-145. -/
def getState (N : Num F) (s : GSim F) : Except Panic ((List (ℕ × Cx F) × ℕ) × GSim F) := do
  let sortedKeys := s.idMap.iter.map Prod.fst
  let s ← flushQueue N sortedKeys .HRxRy s
  let s ← relocate N 0 sortedKeys s
  return ((sortState s.state, sortedKeys.length), s)

/-- The text of `dump_impl(false)`, lib.rs:247-274. -/
def dumpText (fmt : Cx F → String) (l : List (ℕ × Cx F)) : String :=
  let output := "STATE: [ "
  let output := l.foldl
    (fun output e => output ++ ("|" ++ toString e.1 ++ "⟩: " ++ fmt e.2 ++ ", ")) output
  let output := output ++ "]"
  output ++ "\n"

/-- `dump`, lib.rs:216-242. -/
def dump (N : Num F) (fmt : Cx F → String) (s : GSim F) : Except Panic (String × GSim F) := do
  let sortedKeys := s.idMap.iter.map Prod.fst
  let s ← flushQueue N sortedKeys .HRxRy s
  let s ← relocate N 0 sortedKeys s
  let s := { s with state := sortState s.state }
  return (dumpText fmt s.state, s)

/-! ### Calls -/

/-- The gates with one target. sparsesim/src/lib.rs:639-947. -/
inductive GGate (F : Type)
  | x | y | z | h | s | sadj | t | tadj
  | rx (θ : F) | ry (θ : F) | rz (θ : F)

/-- What a client can ask for. The public methods are those of sparsesim/src/lib.rs:85-1289 and
sparsesim/src/exp.rs:24-204. -/
inductive GCall (F : Type)
  | gate (g : GGate F) (q : ℕ)
  | ctrl (g : GGate F) (cs : List ℕ) (q : ℕ)
  | phase (cs : List ℕ) (φ : Cx F) (q : ℕ)
  | exp (cs : List ℕ) (ps : List MPauli) (θ : F) (ts : List ℕ)
  | swap (a b : ℕ)
  | allocate
  | release (q : ℕ)
  | measure (q : ℕ)
  | jointMeasure (qs : List ℕ)
  | jointProb (qs : List ℕ)
  | isZero (q : ℕ)
  | collapse (v : Bool) (q : ℕ)
  | getState
  | dump (fmt : Cx F → String)

/-- What the client gets back. The public methods are those of sparsesim/src/lib.rs:85-1289 and
sparsesim/src/exp.rs:24-204. -/
inductive GOut (F : Type)
  | none
  | id (q : ℕ)
  | bit (b : Bool)
  | real (x : F)
  | state (l : List (ℕ × Cx F)) (n : ℕ)
  | text (t : String)

/-- The uncontrolled gates, lib.rs:639, 697, 764, 934, 838, 856, 878, 900, 1139, 1167, 921. -/
def gateCall (N : Num F) (q : ℕ) : GGate F → GSim F → Except Panic (GSim F)
  | .x => x N q
  | .y => y N q
  | .z => z N q
  | .h => h N q
  | .s => diagGate N .S q
  | .sadj => diagGate N .Sadj q
  | .t => diagGate N .T q
  | .tadj => diagGate N .Tadj q
  | .rx θ => rx N θ q
  | .ry θ => ry N θ q
  | .rz θ => diagGate N (.Rz θ) q

/-- The multi-controlled gates, lib.rs:653, 708, 784, 950, 844, 862, 884, 906, 1154, 1179, 927. -/
def ctrlCall (N : Num F) (cs : List ℕ) (q : ℕ) : GGate F → GSim F → Except Panic (GSim F)
  | .x => mcx N cs q
  | .y => mcy N cs q
  | .z => mcz N cs q
  | .h => mch N cs q
  | .s => mcDiagGate N .S cs q
  | .sadj => mcDiagGate N .Sadj cs q
  | .t => mcDiagGate N .T cs q
  | .tadj => mcDiagGate N .Tadj cs q
  | .rx θ => mcrx N cs θ q
  | .ry θ => mcry N cs θ q
  | .rz θ => mcDiagGate N (.Rz θ) cs q

/-- A method call without a result. E.g. sparsesim/src/lib.rs:180, 639. -/
def quiet (r : Except Panic (GSim F)) : Except Panic (GOut F × GSim F) := do
  let s ← r
  return (.none, s)

/-- One public method call. The public methods are those of sparsesim/src/lib.rs:85-1289 and
sparsesim/src/exp.rs:24-204. -/
def call (N : Num F) : GCall F → GSim F → Except Panic (GOut F × GSim F)
  | .gate g q, s => quiet (gateCall N q g s)
  | .ctrl g cs q, s => quiet (ctrlCall N cs q g s)
  | .phase cs φ q, s => quiet (mcphase N cs φ q s)
  | .exp cs ps θ ts, s => quiet (mcexp N cs ps θ ts s)
  | .swap a b, s => quiet (swapQubitIds N a b s)
  | .allocate, s => .ok (.id (allocate s).1, (allocate s).2)
  | .release q, s => quiet (release N q s)
  | .measure q, s => do
    let (b, s) ← measure N q s
    return (.bit b, s)
  | .jointMeasure qs, s => do
    let (b, s) ← jointMeasure N qs s
    return (.bit b, s)
  | .jointProb qs, s => do
    let (p, s) ← jointProbability N qs s
    return (.real p, s)
  | .isZero q, s => do
    let (b, s) ← qubitIsZero N q s
    return (.bit b, s)
  | .collapse v q, s => do
    let (p, s) ← forceCollapse N v q s
    return (.real p, s)
  | .getState, s => do
    let ((l, n), s) ← getState N s
    return (.state l n, s)
  | .dump fmt, s => do
    let (t, s) ← dump N fmt s
    return (.text t, s)

/-- A history of method calls; the first panic ends it. The public methods are those of sparsesim/src/lib.rs:85-1289
and sparsesim/src/exp.rs:24-204. -/
def runCalls (N : Num F) : List (GCall F) → GSim F → Except Panic (List (GOut F) × GSim F)
  | [], s => .ok ([], s)
  | c :: cs, s => do
    let (o, s) ← call N c s
    let (os, s) ← runCalls N cs s
    return (o :: os, s)

end Gen
end Qir
