import Verif.Model.Api

/-!
# The simulator with rounded arithmetic

`Model/Sim` and `Model/Exp` compute with real and complex numbers.  Here are the same functions with every
arithmetic operation on amplitudes, angles and probabilities followed by a rounding `fl`, and with approximate sine and
cosine, as the code does with `f64`.  A function that neither computes with such numbers nor calls one that does is that
of `Model/Sim`.  `Proof/RoundedExact` shows that with exact arithmetic the functions here are those of `Model/Sim`.

* Products of complex numbers are computed as in `num-complex`: `re = fl (fl (a c) - fl (b d))`,
  `im = fl (fl (a d) + fl (b c))`; a complex number times a real one, sums and differences componentwise.
* Changes of sign and the division of an angle by two are exact (as they are in binary arithmetic).
* The exponential of an imaginary number is made of cosine and sine (`from_polar (exp 0) θ`).
* Infinities and not-a-numbers do not occur; all numbers that occur are of moderate size.
* Square roots and divisions are correctly rounded, as IEEE 754 asks for.
* `apply` is in `Model/RoundedApply`.
-/

noncomputable section
namespace Qir

/-- What the simulator does not determine itself, with the arithmetic. The operations used in sparsesim/src/lib.rs,
sparsesim/src/exp.rs and sparsesim/src/nearly_zero.rs. -/
structure Arith extends Env where
  /-- rounding of a real result -/
  fl : ℝ → ℝ
  /-- `f64::cos`, `f64::sin` -/
  cos : ℝ → ℝ
  sin : ℝ → ℝ
  /-- relative and absolute rounding error (for `f64`: 2⁻⁵³, and 2⁻¹⁰⁷⁵ because of underflow) -/
  u : ℝ
  eta : ℝ
  u_nonneg : 0 ≤ u
  eta_nonneg : 0 ≤ eta
  fl_err : ∀ x, |fl x - x| ≤ u * |x| + eta
  cos_err : ∀ x, |cos x - Real.cos x| ≤ u + eta
  sin_err : ∀ x, |sin x - Real.sin x| ≤ u + eta
  cos_neg : ∀ x, cos (-x) = cos x

/-- Exact arithmetic. No counterpart in /repo: the arithmetic of `Model/Sim.lean`. -/
def Arith.exact (env : Env) : Arith :=
  { env with
    fl := fun x => x
    cos := Real.cos
    sin := Real.sin
    u := 0
    eta := 0
    u_nonneg := le_refl _
    eta_nonneg := le_refl _
    fl_err := by simp
    cos_err := by simp
    sin_err := by simp
    cos_neg := Real.cos_neg }

namespace Arith

/-- `Complex64 * Complex64`. sparsesim/src/lib.rs:737, 1107, 1119. -/
def mul (A : Arith) (z w : ℂ) : ℂ :=
  ⟨A.fl (A.fl (z.re * w.re) - A.fl (z.im * w.im)), A.fl (A.fl (z.re * w.im) + A.fl (z.im * w.re))⟩

/-- `Complex64 * f64` and `f64 * Complex64`. sparsesim/src/lib.rs:991, 1010. -/
def scale (A : Arith) (z : ℂ) (r : ℝ) : ℂ := ⟨A.fl (z.re * r), A.fl (z.im * r)⟩

/-- `Complex64 + Complex64`. sparsesim/src/lib.rs:1008, 1119, 1124. -/
def add (A : Arith) (z w : ℂ) : ℂ := ⟨A.fl (z.re + w.re), A.fl (z.im + w.im)⟩

/-- `Complex64 - Complex64`. sparsesim/src/lib.rs:1013. -/
def sub (A : Arith) (z w : ℂ) : ℂ := ⟨A.fl (z.re - w.re), A.fl (z.im - w.im)⟩

/-- `norm_sqr`. sparsesim/src/lib.rs:403. -/
def normSqr (A : Arith) (z : ℂ) : ℝ := A.fl (A.fl (z.re * z.re) + A.fl (z.im * z.im))

/-- The constant `FRAC_1_SQRT_2`. sparsesim/src/lib.rs:871, 991. -/
def fracSqrt2 (A : Arith) : ℝ := A.fl Qir.fracSqrt2

end Arith

namespace Rnd
open Sim

/-! ### Queued operations -/

/-- `y_transform`, lib.rs:687-694. -/
def yTransform (A : Arith) (e : ℕ × ℂ) (target : ℕ) : ℕ × ℂ :=
  let index := setBit e.1 target (!e.1.testBit target)
  (index, A.mul e.2 (if index.testBit target then Complex.I else -Complex.I))

/-- `phase_transform`, lib.rs:732-742. -/
def phaseTransform (A : Arith) (phase : ℂ) (e : ℕ × ℂ) (target : ℕ) : ℕ × ℂ :=
  (e.1, A.mul e.2 (if e.1.testBit target then phase else 1))

/-- `rz_transform`, lib.rs:913-918. -/
def rzTransform (A : Arith) (e : ℕ × ℂ) (theta : ℝ) (target : ℕ) : ℕ × ℂ :=
  let angle := theta / 2 * (if e.1.testBit target then 1 else -1)
  (e.1, A.mul e.2 ⟨A.cos angle, A.sin angle⟩)

/-- One iteration of `apply_ops`, lib.rs:1297-1312; the phases are those of lib.rs:759-761, 833-835, 851-853, 869-875,
891-897. -/
def applyOp (A : Arith) (op : List ℕ × ℕ × OpCode) (e : ℕ × ℂ) : ℕ × ℂ :=
  if op.1.all (fun c => e.1.testBit c) then
    match op.2.2 with
    | .X => xTransform e op.2.1
    | .Y => yTransform A e op.2.1
    | .Z => phaseTransform A (-1) e op.2.1
    | .S => phaseTransform A Complex.I e op.2.1
    | .Sadj => phaseTransform A (-Complex.I) e op.2.1
    | .T => phaseTransform A ⟨A.fracSqrt2, A.fracSqrt2⟩ e op.2.1
    | .Tadj => phaseTransform A ⟨A.fracSqrt2, -A.fracSqrt2⟩ e op.2.1
    | .Rz theta => rzTransform A e theta op.2.1
  else e

/-- `apply_ops`, lib.rs:1292-1313. -/
def applyOps (A : Arith) (ops : List (List ℕ × ℕ × OpCode)) (e : ℕ × ℂ) : ℕ × ℂ :=
  ops.foldl (fun e op => applyOp A op e) e

/-- `flush_ops`, lib.rs:610-617. -/
def flushOps (A : Arith) (s : Sim) : Except Panic Sim :=
  if s.opQ.isEmpty then .ok s
  else do
    let (ops, s) ← takeOps s
    return { s with state := s.state.map (applyOps A ops) }

/-- `enqueue_op`, lib.rs:571-576. -/
def enqueueOp (A : Arith) (target : ℕ) (ctls : List ℕ) (op : OpCode) (s : Sim) : Except Panic Sim := do
  let s ← if s.opQ.length = QUEUE_LIMIT then flushOps A s else .ok s
  return { s with opQ := s.opQ ++ [(ctls, target, op)] }

/-! ### Gates that change the support -/

/-- The body of the fold in `apply_mch`, lib.rs:982-1025. -/
def mchEntry (A : Arith) (m : List (ℕ × ℂ)) (ctls : List ℕ) (target : ℕ) (e : ℕ × ℂ) : List (ℕ × ℂ) :=
  if ctls.all (fun c => e.1.testBit c) then
    let flipped := setBit 0 target true
    let flippedIndex := e.1 ^^^ flipped
    match lookupMap m flippedIndex with
    | none =>
      [(setBit e.1 target false, A.scale e.2 A.fracSqrt2),
       (setBit e.1 target true, A.scale (A.scale e.2 A.fracSqrt2) (if e.1.testBit target then -1 else 1))]
    | some flippedValue =>
      if !e.1.testBit target then
        (if NearlyZero A.eps (A.add e.2 flippedValue) then []
          else [(e.1, A.scale (A.add e.2 flippedValue) A.fracSqrt2)]) ++
        (if NearlyZero A.eps (A.sub e.2 flippedValue) then []
          else [(e.1 ||| flipped, A.scale (A.sub e.2 flippedValue) A.fracSqrt2)])
      else []
  else [e]

/-- `apply_mch`, lib.rs:962-1027. -/
def applyMch (A : Arith) (ctls : List ℕ) (target : ℕ) (s : Sim) : Except Panic Sim := do
  let (t, cs) ← resolveAndCheck s.idMap target ctls
  let (ops, s) ← takeOps s
  let m := A.shuffle (collectMap (s.state.map (applyOps A ops)))
  return { s with state := m.flatMap (mchEntry A m cs t) }

/-- `m00` of `mcrotation`, lib.rs:1034. -/
def rotM00 (A : Arith) (theta : ℝ) : ℂ := ⟨A.cos (theta / 2), 0⟩

/-- `m01` of `mcrotation`, lib.rs:1035-1040. -/
def rotM01 (A : Arith) (theta : ℝ) (signFlip : Bool) : ℂ :=
  A.mul ⟨0, A.sin (theta / (-2))⟩ (if signFlip then -Complex.I else 1)

/-- The body of the fold in the general case of `mcrotation`, lib.rs:1100-1133. -/
def rotEntry (A : Arith) (m : List (ℕ × ℂ)) (ctls : List ℕ) (target : ℕ) (m00 m01 m10 : ℂ)
    (e : ℕ × ℂ) : List (ℕ × ℂ) :=
  if ctls.all (fun c => e.1.testBit c) then
    let flipped := setBit 0 target true
    let flippedIndex := e.1 ^^^ flipped
    match lookupMap m flippedIndex with
    | none =>
      if e.1.testBit target then [(flippedIndex, A.mul e.2 m01), (e.1, A.mul e.2 m00)]
      else [(e.1, A.mul e.2 m00), (flippedIndex, A.mul e.2 m10)]
    | some flippedVal =>
      if !e.1.testBit target then
        (if NearlyZero A.eps (A.add (A.mul e.2 m00) (A.mul flippedVal m01)) then []
          else [(e.1, A.add (A.mul e.2 m00) (A.mul flippedVal m01))]) ++
        (if NearlyZero A.eps (A.add (A.mul e.2 m10) (A.mul flippedVal m00)) then []
          else [(flippedIndex, A.add (A.mul e.2 m10) (A.mul flippedVal m00))])
      else []
  else [e]

/-- `if ctls.iter().all(|c| index.bit(*c)) { *value *= factor; }`, lib.rs:1062-1064 and 1075-1077. -/
def scaleIf (A : Arith) (ctls : List ℕ) (factor : ℂ) (e : ℕ × ℂ) : ℕ × ℂ :=
  if ctls.all (fun c => e.1.testBit c) then (e.1, A.mul e.2 factor) else e

/-- `mcrotation`, lib.rs:1032-1136; `pauli` is the call of `self.mcy` or `self.mcx`. -/
def mcrotation (A : Arith) (pauli : Sim → Except Panic Sim) (ctls : List ℕ) (theta : ℝ)
    (target : ℕ) (signFlip : Bool) (s : Sim) : Except Panic Sim :=
  let m00 := rotM00 A theta
  let m01 := rotM01 A theta signFlip
  if NearlyZero A.eps m00 then do
    let s ← pauli s
    let (_, cs) ← resolveAndCheck s.idMap target ctls
    let factor := A.mul m01 (if signFlip then Complex.I else 1)
    if factor ≠ 1 then
      let (ops, s) ← takeOps s
      return { s with state := s.state.map (fun e => scaleIf A cs factor (applyOps A ops e)) }
    else return s
  else if NearlyZero A.eps m01 then
    if NearlyZero A.eps (A.add m00 1) then do
      let (ops, s) ← takeOps s
      let (_, cs) ← resolveAndCheck s.idMap target ctls
      return { s with state := s.state.map (fun e => scaleIf A cs (-1) (applyOps A ops e)) }
    else .ok s
  else do
    let (t, cs) ← resolveAndCheck s.idMap target ctls
    let m10 := A.scale m01 (if signFlip then -1 else 1)
    let (ops, s) ← takeOps s
    let m := A.shuffle (collectMap (s.state.map (applyOps A ops)))
    return { s with state := m.flatMap (rotEntry A m cs t m00 m01 m10) }

/-- `x`, lib.rs:639-650. -/
def x (A : Arith) (target : ℕ) (s : Sim) : Except Panic Sim :=
  let s := { s with ryQ := s.ryQ.modify target (fun a => a * (-1)) }
  if s.hFlag.testBit target then enqueueOp A target [] .Z s else enqueueOp A target [] .X s

/-- `y`, lib.rs:697-704. -/
def y (A : Arith) (target : ℕ) (s : Sim) : Except Panic Sim :=
  let s := { s with rxQ := s.rxQ.modify target (fun a => a * (-1)) }
  enqueueOp A target [] .Y s

/-! ### The queues of rotations -/

/-- `flush_rx`, lib.rs:619-624. -/
def flushRx (A : Arith) (target : ℕ) (s : Sim) : Except Panic Sim :=
  match s.rxQ.get target with
  | some theta => do
    let s ← mcrotation A (x A target) [] theta target false s
    return { s with rxQ := s.rxQ.remove target }
  | none => .ok s

/-- `flush_ry`, lib.rs:626-631. -/
def flushRy (A : Arith) (target : ℕ) (s : Sim) : Except Panic Sim :=
  match s.ryQ.get target with
  | some theta => do
    let s ← mcrotation A (y A target) [] theta target true s
    return { s with ryQ := s.ryQ.remove target }
  | none => .ok s

/-- lib.rs:592-595. -/
def flushH (A : Arith) (target : ℕ) (s : Sim) : Except Panic Sim :=
  if s.hFlag.testBit target then do
    let s ← applyMch A [] target s
    return { s with hFlag := setBit s.hFlag target false }
  else .ok s

/-- One iteration of the loop of `flush_queue`, lib.rs:592-603. -/
def flushOne (A : Arith) (level : FlushLevel) (target : ℕ) (s : Sim) : Except Panic Sim := do
  let s ← flushH A target s
  match level with
  | .H => return s
  | .HRx => flushRx A target s
  | .HRxRy => do
    let s ← flushRx A target s
    flushRy A target s

/-- The loop of `flush_queue`, lib.rs:591-604. -/
def flushLoop (A : Arith) (level : FlushLevel) : List ℕ → Sim → Except Panic Sim
  | [], s => .ok s
  | target :: rest, s => do
    let s ← flushOne A level target s
    flushLoop A level rest s

/-- `flush_queue`, lib.rs:590-608. -/
def flushQueue (A : Arith) (qubits : List ℕ) (level : FlushLevel) (s : Sim) : Except Panic Sim := do
  let s ← flushLoop A level qubits s
  flushOps A s

/-- `maybe_flush_queue`, lib.rs:584-588. -/
def maybeFlush (A : Arith) (qubits : List ℕ) (level : FlushLevel) (s : Sim) : Except Panic Sim :=
  if qubits.any (fun q => s.hasQueued q) then flushQueue A qubits level s else .ok s

/-- `if cond { self.flush_queue(qubits, level) }`. E.g. sparsesim/src/lib.rs:716-718, 1140-1142. -/
def flushIf (A : Arith) (cond : Bool) (qubits : List ℕ) (level : FlushLevel) (s : Sim) : Except Panic Sim :=
  if cond then flushQueue A qubits level s else .ok s

/-! ### Public gates -/

/-- lib.rs:664-672. -/
def mcxFlushCtls (A : Arith) (c0 : ℕ) (ctls' : List ℕ) (target : ℕ) (s : Sim) : Except Panic Sim :=
  if (c0 :: ctls').length > 1 then maybeFlush A (c0 :: ctls') .HRxRy s
  else flushIf A (s.ryQ.containsKey c0 || s.rxQ.containsKey c0
      || (s.hFlag.testBit c0 && !s.hFlag.testBit target)) (c0 :: ctls') .HRxRy s

/-- `mcx`, lib.rs:653-684. -/
def mcx (A : Arith) (ctls : List ℕ) (target : ℕ) (s : Sim) : Except Panic Sim :=
  match ctls with
  | [] => x A target s
  | c0 :: ctls' => do
    let s ← flushIf A (s.ryQ.containsKey target) [target] .HRxRy s
    let s ← mcxFlushCtls A c0 ctls' target s
    if s.hFlag.testBit target then
      if (c0 :: ctls').length = 1 ∧ s.hFlag.testBit c0 then enqueueOp A c0 [target] .X s
      else enqueueOp A target (c0 :: ctls') .Z s
    else enqueueOp A target (c0 :: ctls') .X s

/-- lib.rs:721-725. -/
def enqueueIf (A : Arith) (cond : Bool) (target : ℕ) (ctls : List ℕ) (op : OpCode) (s : Sim) : Except Panic Sim :=
  if cond then enqueueOp A target ctls op s else .ok s

/-- `mcy`, lib.rs:708-729. -/
def mcy (A : Arith) (ctls : List ℕ) (target : ℕ) (s : Sim) : Except Panic Sim :=
  match ctls with
  | [] => y A target s
  | c0 :: ctls' => do
    let s ← maybeFlush A (c0 :: ctls') .HRxRy s
    let s ← flushIf A (s.rxQ.containsKey target) [target] .HRx s
    let s ← enqueueIf A (s.hFlag.testBit target) c0 ctls' .Z s
    enqueueOp A target (c0 :: ctls') .Y s

/-- `mcphase`, lib.rs:745-756. -/
def mcphase (A : Arith) (ctls : List ℕ) (phase : ℂ) (target : ℕ) (s : Sim) : Except Panic Sim := do
  let s ← flushQueue A ctls .HRxRy s
  let s ← flushQueue A [target] .HRxRy s
  let (t, cs) ← resolveAndCheck s.idMap target ctls
  return { s with
    state := s.state.map (fun e =>
      if cs.all (fun c => e.1.testBit c) then phaseTransform A phase e t else e) }

/-- `z`, lib.rs:764-781. -/
def z (A : Arith) (target : ℕ) (s : Sim) : Except Panic Sim :=
  let s := { s with ryQ := s.ryQ.modify target (fun a => a * (-1)) }
  let s := { s with rxQ := s.rxQ.modify target (fun a => a * (-1)) }
  if s.hFlag.testBit target then enqueueOp A target [] .X s else enqueueOp A target [] .Z s

/-- `mcz`, lib.rs:784-830. -/
def mcz (A : Arith) (ctls : List ℕ) (target : ℕ) (s : Sim) : Except Panic Sim :=
  match ctls with
  | [] => z A target s
  | c0 :: ctls' =>
    if s.mczCount (c0 :: ctls') target = 1 then
      match (c0 :: ctls').find? (fun c => s.hFlag.testBit c) with
      | some hCtl =>
        enqueueOp A hCtl ((c0 :: ctls').map (fun c => if c = hCtl then target else c)) .X s
      | none => enqueueOp A target (c0 :: ctls') .X s
    else do
      let s ← flushQueue A (c0 :: ctls') .HRxRy s
      let s ← flushQueue A [target] .HRxRy s
      enqueueOp A target (c0 :: ctls') .Z s

/-- `s`, `sadj`, `t`, `tadj`, `rz`: lib.rs:838-841, 856-859, 878-881, 900-903, 921-924. -/
def diagGate (A : Arith) (op : OpCode) (target : ℕ) (s : Sim) : Except Panic Sim := do
  let s ← maybeFlush A [target] .HRxRy s
  enqueueOp A target [] op s

/-- `mcs`, `mcsadj`, `mct`, `mctadj`, `mcrz`: lib.rs:844-848, 862-866, 884-888, 906-910, 927-931. -/
def mcDiagGate (A : Arith) (op : OpCode) (ctls : List ℕ) (target : ℕ) (s : Sim) : Except Panic Sim := do
  let s ← maybeFlush A ctls .HRxRy s
  let s ← maybeFlush A [target] .HRxRy s
  enqueueOp A target ctls op s

/-- `h`, lib.rs:934-947. -/
def h (A : Arith) (target : ℕ) (s : Sim) : Except Panic Sim := do
  let s := { s with ryQ := s.ryQ.modify target (fun a => a * (-1)) }
  let s ← flushIf A (s.rxQ.containsKey target) [target] .HRx s
  return { s with hFlag := setBit s.hFlag target (!s.hFlag.testBit target) }

/-- `mch`, lib.rs:950-957. -/
def mch (A : Arith) (ctls : List ℕ) (target : ℕ) (s : Sim) : Except Panic Sim := do
  let s ← flushQueue A ctls .HRxRy s
  let s ← flushIf A (s.ryQ.containsKey target || s.rxQ.containsKey target) [target] .HRxRy s
  applyMch A ctls target s

/-- The queue update of `rx` and `ry`, lib.rs:1143-1150 and 1168-1175. -/
def addAngle (A : Arith) (q : IMap ℝ) (target : ℕ) (theta : ℝ) : IMap ℝ :=
  match q.get target with
  | some a =>
    let q := q.modify target (fun a => A.fl (a + theta))
    if NearlyZeroR A.eps (A.fl (a + theta)) then q.remove target else q
  | none => q.insert target theta

/-- `rx`, lib.rs:1139-1151. -/
def rx (A : Arith) (theta : ℝ) (target : ℕ) (s : Sim) : Except Panic Sim := do
  let s ← flushIf A (s.hFlag.testBit target || s.ryQ.containsKey target) [target] .HRxRy s
  return { s with rxQ := addAngle A s.rxQ target theta }

/-- `mcrx`, lib.rs:1154-1164. -/
def mcrx (A : Arith) (ctls : List ℕ) (theta : ℝ) (target : ℕ) (s : Sim) : Except Panic Sim := do
  let s ← flushQueue A ctls .HRxRy s
  let s ← if s.ryQ.containsKey target then flushQueue A [target] .HRxRy s
    else flushIf A (s.hFlag.testBit target) [target] .H s
  mcrotation A (mcx A ctls target) ctls theta target false s

/-- `ry`, lib.rs:1167-1176. -/
def ry (A : Arith) (theta : ℝ) (target : ℕ) (s : Sim) : Except Panic Sim :=
  .ok { s with ryQ := addAngle A s.ryQ target theta }

/-- `mcry`, lib.rs:1179-1189. -/
def mcry (A : Arith) (ctls : List ℕ) (theta : ℝ) (target : ℕ) (s : Sim) : Except Panic Sim := do
  let s ← flushQueue A ctls .HRxRy s
  let s ← if s.rxQ.containsKey target then flushQueue A [target] .HRx s
    else flushIf A (s.hFlag.testBit target) [target] .H s
  mcrotation A (mcy A ctls target) ctls theta target true s

/-! ### The exponential -/

/-- The pure Pauli-Z case, exp.rs:99-144. -/
def expDiag (A : Arith) (ctls : List ℕ) (yz : ℕ) (idCoeff pauliCoeff : ℂ) (st : List (ℕ × ℂ)) : List (ℕ × ℂ) :=
  let pauliCoeff := A.add pauliCoeff idCoeff
  let idCoeff := A.sub (A.scale idCoeff 2) pauliCoeff
  if NearlyZero A.eps pauliCoeff then
    st.filterMap (fun e =>
      if ctls.all (fun c => e.1.testBit c) && oddParity e.1 yz then some (e.1, A.mul e.2 idCoeff)
      else none)
  else if NearlyZero A.eps idCoeff then
    st.filterMap (fun e =>
      if ctls.all (fun c => e.1.testBit c) && oddParity e.1 yz then some (e.1, A.mul e.2 pauliCoeff)
      else none)
  else
    st.map (fun e =>
      if ctls.all (fun c => e.1.testBit c) then
        (e.1, A.mul e.2 (if oddParity e.1 yz = false then pauliCoeff else idCoeff))
      else e)

/-- One iteration of the loop of exp.rs:163-200. -/
def expEntry (A : Arith) (m : List (ℕ × ℂ)) (ctls : List ℕ) (xy yz : ℕ)
    (idCoeff pauliCoeff pauliCoeffAlt : ℂ) (e : ℕ × ℂ) : List (ℕ × ℂ) :=
  if ctls.all (fun c => e.1.testBit c) then
    let alt := e.1 ^^^ xy
    let odd := oddParity e.1 yz
    match lookupMap m alt with
    | none =>
      [(e.1, A.mul e.2 idCoeff), (alt, A.mul e.2 (if odd = false then pauliCoeff else -pauliCoeff))]
    | some altValue =>
      if e.1 < alt then
        let new0 := A.add (A.mul e.2 idCoeff) (A.mul altValue (if odd then -pauliCoeffAlt else pauliCoeffAlt))
        let new1 := A.add (A.mul altValue idCoeff) (A.mul e.2 (if odd then -pauliCoeff else pauliCoeff))
        (if NearlyZero A.eps new0 then [] else [(e.1, new0)]) ++
        (if NearlyZero A.eps new1 then [] else [(alt, new1)])
      else []
  else [e]

/-- The state update of `mcexp`, exp.rs:80-201. -/
def expState (A : Arith) (ctls : List ℕ) (mk : ExpMasks) (theta : ℝ) (st : List (ℕ × ℂ)) : List (ℕ × ℂ) :=
  let idCoeff : ℂ := ⟨A.cos theta, 0⟩
  let pauliCoeff : ℂ := ⟨0, A.sin theta⟩
  if mk.xy = 0 then expDiag A ctls mk.yz idCoeff pauliCoeff st
  else
    let pauliCoeff := A.mul pauliCoeff (yPhase mk.yCount)
    let pauliCoeffAlt := if mk.yCount % 2 = 0 then pauliCoeff else -pauliCoeff
    let m := A.shuffle (collectMap st)
    m.flatMap (expEntry A m ctls mk.xy mk.yz idCoeff pauliCoeff pauliCoeffAlt)

/-- `mcexp`, exp.rs:34-203. -/
def mcexp (A : Arith) (ctls : List ℕ) (paulis : List MPauli) (theta : ℝ) (targets : List ℕ)
    (s : Sim) : Except Panic Sim := do
  let s ← flushQueue A ctls .HRxRy s
  let s ← flushQueue A targets .HRxRy s
  let cs ← resolveIds s.idMap ctls
  let ts ← resolveIds s.idMap targets
  expCheckDup cs ts
  let mk ← expMasks paulis ts { xy := 0, yz := 0, yCount := 0 }
  return { s with state := expState A cs mk theta s.state }

/-! ### Swaps and queries -/

/-- `swap_qubit_ids`, lib.rs:464-511. -/
def swapQubitIds (A : Arith) (q1 q2 : ℕ) (s : Sim) : Except Panic Sim := do
  let s ← flushOps A s
  let h1 := s.hFlag.testBit q1
  let h2 := s.hFlag.testBit q2
  let s := { s with hFlag := setBit (setBit s.hFlag q1 h2) q2 h1 }
  let s := { s with rxQ := swapEntries s.rxQ q1 q2 }
  let s := { s with ryQ := swapEntries s.ryQ q1 q2 }
  let m1 ← resolveId s.idMap q1
  let m2 ← resolveId s.idMap q2
  return { s with idMap := (s.idMap.modify q1 (fun _ => m2)).modify q2 (fun _ => m1) }

/-- `check_joint_probability`, lib.rs:393-408. -/
def checkJointProbability (A : Arith) (locs : List ℕ) (s : Sim) : Except Panic (ℝ × Sim) := do
  let mask := locMask locs
  let (ops, s) ← takeOps s
  let state := s.state.map (applyOps A ops)
  let p := state.foldl (fun accum e =>
    if oddParity e.1 mask then A.fl (accum + A.normSqr e.2) else accum) 0
  return (p, { s with state := state })

/-- `joint_probability`, lib.rs:283-300. -/
def jointProbability (A : Arith) (ids : List ℕ) (s : Sim) : Except Panic (ℝ × Sim) := do
  let s ← maybeFlush A ids .HRxRy s
  checkForDuplicates ids
  let locs ← resolveIds s.idMap ids
  checkJointProbability A locs s

/-- `qubit_is_zero`, lib.rs:303-305. -/
def qubitIsZero (A : Arith) (id : ℕ) (s : Sim) : Except Panic (Bool × Sim) := do
  let (p, s) ← jointProbability A [id] s
  return (decide (NearlyZeroR A.eps p), s)

/-- `joint_collapse`, lib.rs:435-459. -/
def jointCollapse (A : Arith) (locs : List ℕ) (val : Bool) (scalingDenominator : ℝ) (s : Sim) : Sim :=
  let mask := locMask locs
  let scaling : ℝ := A.fl (1 / A.fl (Real.sqrt (if val then scalingDenominator else A.fl (1 - scalingDenominator))))
  { s with state := s.state.filterMap (fun e =>
      if oddParity e.1 mask = val then some (e.1, A.scale e.2 scaling) else none) }

/-- `measure`, lib.rs:312-327. -/
def measure (A : Arith) (id : ℕ) (s : Sim) : Except Panic (Bool × Sim) := do
  let s ← maybeFlush A [id] .HRxRy s
  let loc ← resolveId s.idMap id
  let (sample, s) := s.nextSample
  let (prob, s) ← checkJointProbability A [loc] s
  let res := decide (sample < prob)
  return (res, jointCollapse A [loc] res prob s)

/-- `force_collapse`, lib.rs:338-358. -/
def forceCollapse (A : Arith) (val : Bool) (id : ℕ) (s : Sim) : Except Panic (ℝ × Sim) := do
  let s ← maybeFlush A [id] .HRxRy s
  let loc ← resolveId s.idMap id
  let (prob, s) ← checkJointProbability A [loc] s
  let s :=
    if (val = true ∧ ¬ NearlyZeroR A.eps prob) ∨ (val = false ∧ ¬ NearlyZeroR A.eps (A.fl (1 - prob)))
    then jointCollapse A [loc] val prob s else s
  return (if val then prob else A.fl (1 - prob), s)

/-- `joint_measure`, lib.rs:367-388. -/
def jointMeasure (A : Arith) (ids : List ℕ) (s : Sim) : Except Panic (Bool × Sim) := do
  let s ← maybeFlush A ids .HRxRy s
  checkForDuplicates ids
  let locs ← resolveIds s.idMap ids
  let (sample, s) := s.nextSample
  let (prob, s) ← checkJointProbability A locs s
  let res := decide (sample < prob)
  return (res, jointCollapse A locs res prob s)

/-- The effect of `release` on the state, before the identifier is removed, lib.rs:181-207. -/
def releaseState (A : Arith) (id : ℕ) (s : Sim) : Except Panic Sim :=
  if s.idMap.iter.length = 1 then
    .ok { s with opQ := [], hFlag := 0, rxQ := IMap.empty, ryQ := IMap.empty, state := [(0, 1)] }
  else do
    let (res, s) ← measure A id s
    let loc ← indexId s.idMap id
    if res then
      return { s with state := s.state.map (fun e =>
        if e.1.testBit loc then (setBit e.1 loc false, e.2) else e) }
    else return s

/-- `release`, lib.rs:180-210. -/
def release (A : Arith) (id : ℕ) (s : Sim) : Except Panic Sim := do
  let s ← releaseState A id s
  return { s with idMap := s.idMap.remove id }

/-- `swap_qubit_state`, lib.rs:514-532. -/
def swapQubitState (A : Arith) (q1 q2 : ℕ) (s : Sim) : Except Panic Sim :=
  if q1 = q2 then .ok s
  else do
    let s ← flushQueue A [q1, q2] .HRxRy s
    return { s with state := s.state.map (swapKey q1 q2) }

/-- One iteration of the relocation loop of `get_state` and `dump`, lib.rs:125-139, 224-238. -/
def relocateOne (A : Arith) (index key : ℕ) (s : Sim) : Except Panic Sim := do
  let loc ← indexId s.idMap key
  if index ≠ loc then
    let s ← swapQubitState A loc index s
    let s := match findByLoc s.idMap index with
      | some swappedKey => { s with idMap := s.idMap.modify swappedKey (fun _ => loc) }
      | none => s
    return { s with idMap := s.idMap.modify key (fun _ => index) }
  else return s

/-- The relocation loop, lib.rs:124-140 and 223-239. -/
def relocate (A : Arith) : ℕ → List ℕ → Sim → Except Panic Sim
  | _, [], s => .ok s
  | index, key :: rest, s => do
    let s ← relocateOne A index key s
    relocate A (index + 1) rest s

/-- `get_state`, lib.rs:118-145. -/
def getState (A : Arith) (s : Sim) : Except Panic ((List (ℕ × ℂ) × ℕ) × Sim) := do
  let sortedKeys := s.idMap.iter.map Prod.fst
  let s ← flushQueue A sortedKeys .HRxRy s
  let s ← relocate A 0 sortedKeys s
  return ((sortState s.state, sortedKeys.length), s)

/-- `dump`, lib.rs:216-242. -/
def dump (A : Arith) (fmt : ℂ → String) (s : Sim) : Except Panic (String × Sim) := do
  let sortedKeys := s.idMap.iter.map Prod.fst
  let s ← flushQueue A sortedKeys .HRxRy s
  let s ← relocate A 0 sortedKeys s
  let s := { s with state := sortState s.state }
  return (dumpText fmt s.state, s)

/-! ### Calls -/

/-- The uncontrolled gates, lib.rs:639, 697, 764, 934, 838, 856, 878, 900, 1139, 1167, 921. -/
def gateCall (A : Arith) (q : ℕ) : Spec.Gate → Sim → Except Panic Sim
  | .x => x A q
  | .y => y A q
  | .z => z A q
  | .h => h A q
  | .s => diagGate A .S q
  | .sadj => diagGate A .Sadj q
  | .t => diagGate A .T q
  | .tadj => diagGate A .Tadj q
  | .rx θ => rx A θ q
  | .ry θ => ry A θ q
  | .rz θ => diagGate A (.Rz θ) q

/-- The multi-controlled gates, lib.rs:653, 708, 784, 950, 844, 862, 884, 906, 1154, 1179, 927. -/
def ctrlCall (A : Arith) (cs : List ℕ) (q : ℕ) : Spec.Gate → Sim → Except Panic Sim
  | .x => mcx A cs q
  | .y => mcy A cs q
  | .z => mcz A cs q
  | .h => mch A cs q
  | .s => mcDiagGate A .S cs q
  | .sadj => mcDiagGate A .Sadj cs q
  | .t => mcDiagGate A .T cs q
  | .tadj => mcDiagGate A .Tadj cs q
  | .rx θ => mcrx A cs θ q
  | .ry θ => mcry A cs θ q
  | .rz θ => mcDiagGate A (.Rz θ) cs q

/-- One public method call. The public methods are those of sparsesim/src/lib.rs:85-1289 and
sparsesim/src/exp.rs:24-204. -/
def call (A : Arith) : Spec.Call → Sim → Except Panic (Spec.Out × Sim)
  | .gate g q, s => quiet (gateCall A q g s)
  | .ctrl g cs q, s => quiet (ctrlCall A cs q g s)
  | .phase cs φ q, s => quiet (mcphase A cs φ q s)
  | .exp cs ps θ ts, s => quiet (mcexp A cs (ps.map pauliArg) θ ts s)
  | .swap a b, s => quiet (swapQubitIds A a b s)
  | .allocate, s => .ok (.id s.allocate.1, s.allocate.2)
  | .release q, s => quiet (release A q s)
  | .measure q, s => do
    let (b, s) ← measure A q s
    return (.bit b, s)
  | .jointMeasure qs, s => do
    let (b, s) ← jointMeasure A qs s
    return (.bit b, s)
  | .jointProb qs, s => do
    let (p, s) ← jointProbability A qs s
    return (.real p, s)
  | .isZero q, s => do
    let (b, s) ← qubitIsZero A q s
    return (.bit b, s)
  | .collapse v q, s => do
    let (p, s) ← forceCollapse A v q s
    return (.real p, s)
  | .getState, s => do
    let ((l, n), s) ← getState A s
    return (.state l n, s)
  | .dump fmt, s => do
    let (t, s) ← dump A fmt s
    return (.text t, s)

/-- A history of method calls; the first panic ends it. The public methods are those of sparsesim/src/lib.rs:85-1289
and sparsesim/src/exp.rs:24-204. -/
def runCalls (A : Arith) : List Spec.Call → Sim → Except Panic (List Spec.Out × Sim)
  | [], s => .ok ([], s)
  | c :: cs, s => do
    let (o, s) ← call A c s
    let (os, s) ← runCalls A cs s
    return (o :: os, s)

end Rnd
end Qir
