import Verif.Model.Generic

/-!
# The model run in double precision

`Model/Generic` with `F := Float` is an executable program.  Here it runs the unit tests of the repository that do not use
`apply` (sparsesim/src/lib.rs:1325-2049 and exp.rs:207-247).  These are tests of the model, not proofs, and no theorem
depends on them: they check that the transcription behaves as the authors of the code expect of theirs.
-/

namespace Qir
namespace Gen
namespace Tests

/-- `f64`.  `f64::max` and `f64::min` give the other operand if one is not a number. -/
def float : Num Float where
  zero := 0
  one := 1
  two := 2
  eps := 1e-10
  fracSqrt2 := 0.707106781186547524400844362104849039
  add := (· + ·)
  sub := (· - ·)
  mul := (· * ·)
  div := (· / ·)
  neg := (- ·)
  max x y := if x.isNaN then y else if y.isNaN then x else if x < y then y else x
  min x y := if x.isNaN then y else if y.isNaN then x else if x < y then x else y
  sqrt := Float.sqrt
  cos := Float.cos
  sin := Float.sin
  lt x y := decide (x < y)
  le x y := decide (x ≤ y)
  eq x y := x == y
  shuffle l := l
  shuffle_perm l := List.Perm.refl l

/-- Another iteration order. -/
def floatRev : Num Float := { float with shuffle := List.reverse, shuffle_perm := List.reverse_perm }

def pi : Float := 3.14159265358979323846264338327950288

/-- Some samples in the unit interval. -/
def samples (n : ℕ) : Float := Float.ofNat ((n * 7919 + 1237) % 10007) / 10007

abbrev M := StateT (GSim Float) (Except String)

variable (N : Num Float)

def ask (c : GCall Float) : M (GOut Float) := fun s =>
  match call N c s with
  | .ok r => .ok r
  | .error _ => .error "panic"

def op (c : GCall Float) : M Unit := do
  let _ ← ask N c

def g (gate : GGate Float) (q : ℕ) : M Unit := op N (.gate gate q)

def alloc : M ℕ := do
  match ← ask N .allocate with
  | .id q => return q
  | _ => throw "no id"

def prob (qs : List ℕ) : M Float := do
  match ← ask N (.jointProb qs) with
  | .real p => return p
  | _ => throw "no number"

def bit (c : GCall Float) : M Bool := do
  match ← ask N c with
  | .bit b => return b
  | _ => throw "no bit"

def expect (b : Bool) (msg : String) : M Unit := if b then pure () else throw msg

/-- `almost_equal`, lib.rs:1330-1332 -/
def almost (a b : Float) : Bool := decide (float.max a b - float.min b a ≤ 1e-10)

def expectProb (p : Float) (qs : List ℕ) : M Unit := do
  let r ← prob N qs
  expect (almost p r) s!"probability {r}, expected {p}"

def expectLen (n : ℕ) : M Unit := do
  let s ← get
  expect (s.state.length == n) s!"{s.state.length} entries, expected {n}"

def passes (m : Num Float → M Unit) : Bool :=
  [float, floatRev].all fun N =>
    match (m N).run (new N samples) with
    | .ok _ => true
    | .error _ => false

/-- lib.rs:1336-1355 -/
def testAllocRelease : M Unit := do
  for i in List.range 16 do
    let q ← alloc N
    expect (q == i) "id"
  for q in [4, 7, 12] do op N (.release q)
  let q ← alloc N
  expect (q == 4) "id"
  for q in [0, 1, 2, 3, 4, 5, 6, 8, 9, 10, 11, 13, 14, 15] do op N (.release q)

#guard passes testAllocRelease

/-- lib.rs:1358-1382 -/
def testProbability : M Unit := do
  let q ← alloc N
  let extra ← alloc N
  expectProb N 0 [q]
  g N .x q
  expectProb N 1 [q]
  g N .x q
  expectProb N 0 [q]
  g N .h q
  expectProb N 0.5 [q]
  g N .h q
  expectProb N 0 [q]
  g N .x q
  g N .h q
  g N .s q
  expectProb N 0.5 [q]
  g N .sadj q
  g N .h q
  g N .x q
  expectProb N 0 [q]
  op N (.release extra)
  op N (.release q)

#guard passes testProbability

/-- lib.rs:1386-1409; the loop is run at most 60 times. -/
def testMeasure : M Unit := do
  let q ← alloc N
  let extra ← alloc N
  expect (!(← bit N (.measure q))) "not zero"
  g N .x q
  expect (← bit N (.measure q)) "not one"
  let mut res := false
  for _ in List.range 60 do
    if !res then
      g N .h q
      res ← bit N (.measure q)
      expectProb N (if res then 1 else 0) [q]
      if res then g N .x q
  expect res "never one"
  expectProb N 0 [q]
  op N (.release extra)
  op N (.release q)

#guard passes testMeasure

/-- lib.rs:1414-1443 -/
def testOutOfOrderRelease : M Unit := do
  for i in List.range 5 do
    let q ← alloc N
    expect (q == i) "id"
    g N .x q
  op N (.release 3)
  expectLen 1
  for q in [0, 1, 2, 4] do expectProb N 1 [q]
  match checkJointProbability N [3] (← get) with
  | .ok (p, s) =>
    expect (float.nearlyZero p) "released qubit"
    set s
  | .error _ => throw "panic"
  let q ← alloc N
  expect (q == 3) "id"
  expectProb N 0 [3]
  for i in List.range 5 do op N (.release i)
  expectLen 1

#guard passes testOutOfOrderRelease

/-- lib.rs:1447-1463 -/
def testJointProbability : M Unit := do
  let a ← alloc N
  let b ← alloc N
  expectProb N 0 [a, b]
  g N .x a
  expectProb N 1 [a, b]
  g N .x b
  expectProb N 0 [a, b]
  expectProb N 1 [a]
  expectProb N 1 [b]
  g N .h a
  expectProb N 0.5 [a, b]
  op N (.release b)
  op N (.release a)

#guard passes testJointProbability

/-- lib.rs:1467-1487 -/
def testJointMeasurement : M Unit := do
  let a ← alloc N
  let b ← alloc N
  expect (!(← bit N (.jointMeasure [a, b]))) "1"
  g N .x a
  expect (← bit N (.jointMeasure [a, b])) "2"
  g N .x b
  expect (!(← bit N (.jointMeasure [a, b]))) "3"
  expect (← bit N (.jointMeasure [a])) "4"
  expect (← bit N (.jointMeasure [b])) "5"
  g N .h a
  let r ← bit N (.jointMeasure [a, b])
  expectProb N (if r then 1 else 0) [a, b]
  op N (.release b)
  op N (.release a)

#guard passes testJointMeasurement

/-- lib.rs:1489-1503 -/
def testForceCollapse : M Unit := do
  let a ← alloc N
  let b ← alloc N
  g N .h a
  op N (.ctrl .x [a] b)
  expectProb N 0.5 [a]
  expectProb N 0.5 [b]
  op N (.collapse false a)
  expectProb N 0 [a]
  expectProb N 0 [b]
  op N (.release b)
  op N (.release a)

#guard passes testForceCollapse

/-- lib.rs:1505-1515 -/
def testForceCollapseAbsent : M Unit := do
  let a ← alloc N
  g N .x a
  expectProb N 1 [a]
  match ← ask N (.collapse false a) with
  | .real p => expect (almost 0 p) "probability"
  | _ => throw "no number"
  expectProb N 1 [a]
  op N (.release a)

#guard passes testForceCollapseAbsent

/-- lib.rs:1518-1544 -/
def testMultipleControls : M Unit := do
  let a ← alloc N
  let b ← alloc N
  let c ← alloc N
  expectProb N 0 [a]
  g N .h a
  expectProb N 0.5 [a]
  g N .h a
  expectProb N 0 [a]
  op N (.ctrl .h [b] a)
  expectProb N 0 [a]
  g N .x b
  op N (.ctrl .h [b] a)
  expectProb N 0.5 [a]
  op N (.ctrl .h [c, b] a)
  expectProb N 0.5 [a]
  g N .x c
  op N (.ctrl .h [c, b] a)
  expectProb N 0 [a]
  g N .x a
  g N .x b
  for q in [c, b, a] do op N (.release q)

#guard passes testMultipleControls

/-- lib.rs:1547-1577: these three end in a panic. -/
def testDuplicates (cs : List ℕ) (q : ℕ) : M Unit := do
  let _ ← alloc N
  let _ ← alloc N
  op N (.ctrl .x cs q)
  op N .getState

#guard !passes (testDuplicates · [0] 0)
#guard !passes (testDuplicates · [1, 1] 0)
#guard !passes (testDuplicates · [1, 0] 0)
#guard passes (testDuplicates · [1] 0)

/-- lib.rs:1579-1593, with 16 qubits instead of 5000: `countOnes` of the model takes time proportional to its operand. -/
def testLargeState : M Unit := do
  let ctl ← alloc N
  g N .h ctl
  for _ in List.range 15 do
    let q ← alloc N
    op N (.ctrl .x [ctl] q)
  let _ ← bit N (.measure ctl)
  for i in List.range 16 do op N (.release i)

#guard passes testLargeState

/-- lib.rs:1621-1629 -/
def testSwapDump : M Unit := do
  let q ← alloc N
  let inner ← alloc N
  op N (.swap q inner)
  op N (.release inner)
  op N (.dump fun z => toString z.re)

#guard passes testSwapDump

/-- lib.rs:1632-1644 -/
def testSwapRotations : M Unit := do
  let a ← alloc N
  let b ← alloc N
  g N (.rx (pi / 7)) a
  g N (.ry (pi / 7)) b
  op N (.swap a b)
  g N (.rx (-pi / 7)) b
  g N (.ry (-pi / 7)) a
  expectProb N 0 [a]
  expectProb N 0 [b]

#guard passes testSwapRotations

/-- lib.rs:1647-1669 -/
def testQueueNearlyZero (r : Float → GGate Float) : M Unit := do
  let q ← alloc N
  g N (r (pi / 4)) q
  expectLen 1
  g N (r (-pi / 4)) q
  expectLen 1
  expectProb N 0 [q]

#guard passes (testQueueNearlyZero · .rx)
#guard passes (testQueueNearlyZero · .ry)

/-- lib.rs:1672-1696 -/
def testPiFlushed (r : Float → GGate Float) : M Unit := do
  let q ← alloc N
  g N (r pi) q
  expectProb N 1 [q]
  expectProb N 1 [q]

#guard passes (testPiFlushed · .rx)
#guard passes (testPiFlushed · .ry)

/-- lib.rs:1699-1711 -/
def testMcryPi : M Unit := do
  let a ← alloc N
  let b ← alloc N
  g N .h a
  g N .x a
  op N (.ctrl (.ry pi) [a] b)
  g N .x a
  expectProb N 1 [a, b]

#guard passes testMcryPi

/-- lib.rs:1714-1725 -/
def testMcry2Pi : M Unit := do
  let a ← alloc N
  let b ← alloc N
  g N .h a
  op N (.ctrl (.ry (2 * pi)) [a] b)
  g N .h a
  expectProb N 1 [a, b]

#guard passes testMcry2Pi

/-- `assert_operation_equal_referenced`, lib.rs:1728-1824, for one kind of queued operation. -/
def equalReferenced (act ref : List (GCall Float)) (count : ℕ) (inner : Option (Float → GGate Float)) : M Unit := do
  let ctl ← alloc N
  g N .h ctl
  let qs := (List.range count).map (· + 1)
  for _ in qs do
    let q ← alloc N
    op N (.ctrl .x [ctl] q)
  if let some r := inner then
    for q in qs do g N (r (pi / 7)) q
  for c in act do op N c
  let _ ← prob N qs
  for c in ref do op N c
  let _ ← prob N qs
  if let some r := inner then
    for q in qs do g N (r (pi / -7)) q
  let _ ← prob N qs
  for q in qs do op N (.ctrl .x [ctl] q)
  g N .h ctl
  expectProb N 0 [ctl]
  for q in qs do expectProb N 0 [q]
  op N (.dump fun z => toString z.re)
  expectLen 1

def equalPasses (act ref : List (GCall Float)) (count : ℕ) : Bool :=
  [none, some fun _ => .h, some .rx, some .ry].all fun inner => passes (equalReferenced · act ref count inner)

/-! lib.rs:1827-2032; the targets are the qubits 1, 2, 3. -/
#guard equalPasses [.gate .h 1] [.gate .h 1] 1
#guard equalPasses [.gate .x 1] [.gate .x 1] 1
#guard equalPasses [.gate .y 1] [.gate .y 1] 1
#guard equalPasses [.gate .z 1] [.gate .z 1] 1
#guard equalPasses [.gate .s 1] [.gate .sadj 1] 1
#guard equalPasses [.gate .sadj 1] [.gate .s 1] 1
#guard equalPasses [.ctrl .x [1] 2] [.ctrl .x [1] 2] 2
#guard equalPasses [.ctrl .z [1] 2] [.ctrl .z [1] 2] 2
#guard equalPasses [.swap 1 2] [.swap 1 2] 2
#guard equalPasses [.gate (.rz (pi / 7)) 1] [.gate (.rz (-pi / 7)) 1] 1
#guard equalPasses [.gate (.rx (pi / 7)) 1] [.gate (.rx (-pi / 7)) 1] 1
#guard equalPasses [.gate (.ry (pi / 7)) 1] [.gate (.ry (-pi / 7)) 1] 1
#guard equalPasses [.phase [3] (float.cis (-(pi / 7) / 2)) 2] [.phase [3] (float.cis ((pi / 7) / 2)) 2] 3
#guard equalPasses [.gate .h 1, .gate (.ry pi) 1, .gate .h 2, .ctrl .x [2] 1]
  [.ctrl .x [2] 1, .gate .h 2, .gate (.ry (-pi)) 1, .gate .h 1] 2
-- The harness tells different operations apart.
#guard !equalPasses [.gate .s 1] [.gate .s 1] 1
#guard !equalPasses [.gate .t 1] [.gate .sadj 1] 1

/-- lib.rs:2004-2012 -/
def testQueueLimit : M Unit := do
  let q ← alloc N
  for _ in List.range 10002 do g N .x q
  expect ((← get).opQ.length == 2) "queue"
  expectLen 1

#guard passes testQueueLimit

/-- lib.rs:2034-2049 -/
def testPhaseDropped : M Unit := do
  let q ← alloc N
  g N .x q
  g N .z q
  op N (.release q)
  let _ ← alloc N
  match ← ask N .getState with
  | .state [(0, z)] 1 => expect (z.re == 1 && z.im == 0) "amplitude"
  | _ => throw "state"

#guard passes testPhaseDropped

/-- exp.rs:211-245 -/
def testExpFromCnot : M Unit := do
  let control ← alloc N
  let target ← alloc N
  let paired ← alloc N
  g N .h paired
  op N (.ctrl .x [paired] control)
  op N (.ctrl .x [paired] target)
  let theta := pi / -4
  g N (.rx (2 * theta)) target
  g N (.rz (2 * theta)) control
  op N (.exp [] [.Z, .X] theta [control, target])
  op N (.ctrl .x [control] target)
  op N (.ctrl .x [paired] target)
  op N (.ctrl .x [paired] control)
  g N .h paired
  for q in [paired, target, control] do expectProb N 0 [q]
  expectLen 1

#guard passes testExpFromCnot

/-! ### Not-a-numbers (finding F23): none of these is a test of the repository. -/

def nan : Float := 0 / 0

#guard float.nearlyZero nan
#guard passes fun N => do
  let q ← alloc N
  g N .h q
  g N (.rz nan) q
  g N .h q
  op N .getState
  expectLen 0
  expect (!(← bit N (.measure q))) "measured one"
  expectProb N 0 [q]
  op N (.release q)
  expectLen 1
-- A rotation by a not-a-number counts as a half turn.
#guard passes fun N => do
  let q ← alloc N
  g N (.rx nan) q
  op N .getState
  match (← get).state with
  | [(1, z)] => expect (z.re.isNaN && z.im.isNaN) "amplitude"
  | _ => throw "state"

-- Z leaves a negative zero, S twice a positive one (C79_signed_zero).
#guard passes fun N => do
  let q ← alloc N
  g N .x q
  g N .z q
  op N .getState
  match (← get).state with
  | [(1, z)] => expect (z.re == -1 && (1 / z.im) < 0) "negative zero"
  | _ => throw "state"
#guard passes fun N => do
  let q ← alloc N
  g N .x q
  g N .s q
  g N .s q
  op N .getState
  match (← get).state with
  | [(1, z)] => expect (z.re == -1 && (1 / z.im) > 0) "positive zero"
  | _ => throw "state"

-- The second of two measurements of the same qubit gives the opposite answer if the sample is 1 - 2^-53, the largest
-- below one, and leaves no entry (C80_double).
#guard passes fun N => do
  modify fun s => { s with rng := fun n => if n = 1 then 1 - 1 / 9007199254740992 else 0 }
  let q ← alloc N
  let r ← alloc N
  g N .h q
  op N (.ctrl .x [q] r)
  g N .h r
  expect (← bit N (.measure r)) "measured zero"
  expect (!(← bit N (.measure r))) "measured one"
  expectLen 0

end Tests
end Gen
end Qir
