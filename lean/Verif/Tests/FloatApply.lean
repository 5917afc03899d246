import Verif.Model.GenericApply
import Verif.Tests.Float

/-!
# `apply` run in double precision

The unit tests of sparsesim/src/matrix_testing.rs on `Model/GenericApply` with `F := Float`, with the matrices of that
file.  Tests of the model, not proofs; no theorem depends on them.
-/

namespace Qir
namespace Gen
namespace Tests

abbrev FM := GMat Float

def c (re : Float) (im : Float := 0) : Cx Float := ⟨re, im⟩

def mat2 (a b c d : Cx Float) : FM :=
  ⟨2, 2, fun i j => if i = 0 then (if j = 0 then a else b) else (if j = 0 then c else d)⟩

/-! matrix_testing.rs:11-122 -/
def mx : FM := mat2 (c 0) (c 1) (c 1) (c 0)
def my : FM := mat2 (c 0) (c 0 (-1)) (c 0 1) (c 0)
def mz : FM := mat2 (c 1) (c 0) (c 0) (c (-1))
def mh : FM := mat2 (c float.fracSqrt2) (c float.fracSqrt2) (c float.fracSqrt2) (c (-float.fracSqrt2))
def mt : FM := mat2 (c 1) (c 0) (c 0) (c float.fracSqrt2 float.fracSqrt2)
def ms : FM := mat2 (c 1) (c 0) (c 0) (c 0 1)
def mrx (θ : Float) : FM := mat2 (c (θ / 2).cos) (c 0 (-(θ / 2).sin)) (c 0 (-(θ / 2).sin)) (c (θ / 2).cos)
def mry (θ : Float) : FM := mat2 (c (θ / 2).cos) (c (-(θ / 2).sin)) (c (θ / 2).sin) (c (θ / 2).cos)
def mrz (θ : Float) : FM := mat2 (float.cis (-θ / 2)) (c 0) (c 0) (float.cis (θ / 2))
def mg (θ : Float) : FM := mat2 (c 1) (c 0) (c 0) (float.cis (-θ / 2))

/-- matrix_testing.rs:124-152 -/
def mswap : FM := ⟨4, 4, fun i j => if (i, j) ∈ [(0, 0), (1, 2), (2, 1), (3, 3)] then c 1 else c 0⟩

/-- matrix_testing.rs:154-158 -/
def madj (u : FM) : FM := ⟨u.cols, u.rows, fun i j => ⟨(u.entry j i).re, -(u.entry j i).im⟩⟩

def mdot (u v : FM) : FM :=
  ⟨u.rows, v.cols, fun i j =>
    (List.range u.cols).foldl (fun a k => float.addC a (float.mulC (u.entry i k) (v.entry k j))) (c 0)⟩

def mscale (z : Cx Float) (u : FM) : FM := { u with entry := fun i j => float.mulC z (u.entry i j) }

/-- `are_equal_to_precision`, matrix_testing.rs:170-175 -/
def close (u v : FM) : Bool :=
  u.rows == v.rows && u.cols == v.cols &&
    decide (((List.range u.rows).foldl (fun a i => (List.range u.cols).foldl (fun a j =>
      a + (float.normSqr (float.subC (u.entry i j) (v.entry i j))).sqrt) a) 0) ≤ 1e-10)

/-- Equality, `==`. -/
def same (u v : FM) : Bool :=
  u.rows == v.rows && u.cols == v.cols &&
    (List.range u.rows).all fun i => (List.range u.cols).all fun j => float.eqC (u.entry i j) (v.entry i j)

def selfAdjoint (u : FM) : Bool := same u (madj u)

/-! matrix_testing.rs:177-229 -/
#guard selfAdjoint mh
#guard selfAdjoint mx
#guard selfAdjoint my
#guard selfAdjoint mz
#guard selfAdjoint mswap
#guard same (mdot ms ms) mz
#guard close (mdot mt mt) ms
#guard close (mscale float.iC (mrx pi)) mx
#guard close (mscale float.iC (mry pi)) my
#guard close (mscale float.iC (mrz pi)) mz
#guard close (mdot mx my) (mscale float.iC mz)

/-- matrix_testing.rs:233-260 -/
def mcnot : FM := ⟨4, 4, fun i j => if (i, j) ∈ [(0, 0), (1, 1), (2, 3), (3, 2)] then c 1 else c 0⟩

/-! matrix_testing.rs:231-267 -/
#guard close (controlled float mx 1) mcnot
#guard close (controlled float mx 2) (controlled float mcnot 1)
#guard (controlled float mx 3).rows == 16

variable (N : Num Float)

def app (u : FM) (ts : List ℕ) (ctrls : Option (List ℕ)) : M Unit := fun s =>
  match apply N u ts ctrls s with
  | .ok s => .ok ((), s)
  | .error _ => .error "panic"

/-- `assert_operation_equal_referenced`, matrix_testing.rs:270-314 -/
def equalOps (operation reference : List ℕ → M Unit) (count : ℕ) : M Unit := do
  let mut ctls := []
  let mut qs := []
  for _ in List.range count do
    let ctl ← alloc N
    let q ← alloc N
    g N .h ctl
    op N (.ctrl .x [ctl] q)
    qs := qs ++ [q]
    ctls := ctls ++ [ctl]
  operation qs
  reference qs
  for (q, ctl) in qs.zip ctls do
    op N (.ctrl .x [ctl] q)
    g N .h ctl
  op N (.dump fun _ => "")
  for (q, ctl) in qs.zip ctls do
    expect (float.nearlyZero (← prob N [q])) "target"
    expect (float.nearlyZero (← prob N [ctl])) "control"
  expectLen 1
  let s ← get
  match s.state with
  | e :: _ => expect (float.nearlyZeroC (float.subC e.2 (c 1))) "phase"
  | [] => throw "empty"

def nth (qs : List ℕ) (i : ℕ) : M ℕ :=
  match qs[i]? with
  | some q => pure q
  | none => throw "index"

/-- The tests with one gate and its matrix, matrix_testing.rs:316-392, 431-611. -/
def gateTest (gate : GGate Float) (u : FM) (N : Num Float) : M Unit :=
  equalOps N (fun qs => do g N gate (← nth qs 0)) (fun qs => do app N u [← nth qs 0] none) 1

#guard passes (gateTest .h mh)
#guard passes (gateTest .x mx)
#guard passes (gateTest .y my)
#guard passes (gateTest .z mz)
#guard passes (gateTest .s (madj ms))
#guard passes (gateTest .sadj ms)
#guard [pi / 7, pi].all fun θ => passes (gateTest (.rz θ) (madj (mrz θ)))
#guard [pi / 7, pi, 2 * pi, 0, 3 * pi, 4 * pi].all fun θ => passes (gateTest (.rx θ) (madj (mrx θ)))
#guard [pi / 7, pi, 2 * pi, 0, 3 * pi, 4 * pi].all fun θ => passes (gateTest (.ry θ) (madj (mry θ)))

/-! A wrong matrix is noticed. -/
#guard !passes (gateTest .s ms)
#guard !passes (gateTest .x my)

/-- matrix_testing.rs:394-405 -/
def testCx : M Unit :=
  equalOps N (fun qs => do op N (.ctrl .x [← nth qs 0] (← nth qs 1)))
    (fun qs => do app N mx [← nth qs 1] (some [← nth qs 0])) 2

#guard passes testCx

/-- matrix_testing.rs:407-418 -/
def testCz : M Unit :=
  equalOps N (fun qs => do op N (.ctrl .z [← nth qs 0] (← nth qs 1)))
    (fun qs => do app N mz [← nth qs 1] (some [← nth qs 0])) 2

#guard passes testCz

/-- matrix_testing.rs:420-431 -/
def testSwap : M Unit :=
  equalOps N (fun qs => do op N (.swap (← nth qs 0) (← nth qs 1)))
    (fun qs => do app N mswap [← nth qs 0, ← nth qs 1] none) 2

#guard passes testSwap

/-- matrix_testing.rs:613-629 -/
def testMcri : M Unit :=
  equalOps N (fun qs => do op N (.phase [← nth qs 2] (float.cis (-(pi / 7) / 2)) (← nth qs 1)))
    (fun qs => do app N (madj (mg (pi / 7))) [← nth qs 1] (some [← nth qs 2])) 3

#guard passes testMcri

/-- matrix_testing.rs:631-647: the identity on four qubits with the first two columns exchanged in the first two rows. -/
def testFour : M Unit := do
  let mut qs := []
  for _ in List.range 4 do qs := qs ++ [← alloc N]
  let u : FM := ⟨16, 16, fun i j =>
    if i = 0 then (if j = 1 then c 1 else c 0) else if i = 1 then (if j = 0 then c 1 else c 0)
    else if i = j then c 1 else c 0⟩
  app N u qs none
  expect (← bit N (.isZero (← nth qs 0))) "first"
  expect (← bit N (.isZero (← nth qs 1))) "second"
  expect (← bit N (.isZero (← nth qs 2))) "third"
  expectProb N 1 [← nth qs 3]

#guard passes testFour

/-- Finding F28: after a rotation by not-a-number even the identity panics. -/
def testNaN : M Unit := do
  let q ← alloc N
  g N .h q
  g N (.rz (0 / 0)) q
  g N .h q
  expect (!(← bit N (.measure q))) "measured"
  app N (mat2 (c 1) (c 0) (c 0) (c 1)) [q] none

#guard !passes testNaN

end Tests
end Gen
end Qir
