import Verif.Model.GenericBackend
import Verif.Tests.Float

/-!
# The model of the backend run in double precision

The unit tests of backend/src/lib.rs:1055-1388.  As in `Tests/Float`, these are tests of the transcription, not proofs.
Arrays of qubits are allocated and released one by one, from the first to the last (lib.rs 954-984).
-/

namespace Qir
namespace Gen
namespace BackTests
open Tests (float floatRev samples pi)

/-- The texts of amplitudes and the draws play no role here. -/
def lib : Lib Float where
  bits _ := []
  amplitude z := toString z.re ++ "+" ++ toString z.im ++ "i"
  abs := Float.abs
  uniform a b w := some (a + (b - a) * (Float.ofNat w / 18446744073709551615))

abbrev BM := StateT (GBackend Float) (Except String)

def q (N : Num Float) (c : GQCall Float) : BM (GAns Float) := fun s =>
  match qstep N lib c s with
  | .ok (a, _, s) => .ok (a, s)
  | .error (.fail m) => .error ("fail: " ++ String.ofList m)
  | .error _ => .error "panic"

def must (what : String) (b : Bool) : BM Unit := fun s => if b then .ok ((), s) else .error what

def bit (a : GAns Float) : Bool := match a with
  | .bit b => b
  | _ => false

def ptr (a : GAns Float) : ℕ := match a with
  | .ptr n => n
  | _ => 99

def passes (t : Num Float → BM Unit) : Bool :=
  [float, floatRev].all fun N => [0, 1, 2, 3, 4, 5, 6, 7].all fun seed =>
    match (t N).run (GBackend.new N (fun n => samples (n + seed)) id) with
    | .ok _ => true
    | .error _ => false

def gates (N : Num Float) (l : List (GQCall Float)) : BM Unit := l.forM fun c => do
  let _ ← q N c

/-- `basic_test_static`, lib.rs:1081-1096. -/
def basicStatic (N : Num Float) : BM Unit := do
  gates N [.mz 5 0]
  must "0" (!bit (← q N (.readResult 0)))
  gates N [.gate .x 5, .mz 5 1]
  must "1" (bit (← q N (.readResult 1)))
  gates N [.gate .x 5, .mz 5 0]
  must "2" (!bit (← q N (.readResult 0)))
  must "3" (!bit (← q N (.readResult 3)))
  gates N [.dump false]

#guard passes basicStatic

/-- `basic_test_dynamic`, lib.rs:1098-1124. -/
def basicDynamic (N : Num Float) : BM Unit := do
  let q1 := ptr (← q N .allocate)
  let q2 := ptr (← q N .allocate)
  gates N [.gate .h q1, .ctl .x [q1] q2]
  let r1 := ptr (← q N (.m q1))
  let r2 := ptr (← q N (.m q2))
  must "equal" (Back.resultEqual r1 r2)
  gates N [.dump false, .release q2, .release q1]
  let _ ← q N .allocate
  let _ ← q N .allocate
  let _ ← q N .allocate
  let e := ptr (← q N .allocate)
  gates N [.gate .x e, .dump false]
  let r := ptr (← q N (.m e))
  must "one" (Back.resultEqual r (Back.resultPtr true))
  gates N [.release 0, .release 1, .release 2, .release 3]

#guard passes basicDynamic

/-- `test_qubit_is_zero`, lib.rs:1126-1138. -/
def isZeroTest (N : Num Float) : BM Unit := do
  let q0 := ptr (← q N .allocate)
  must "a" (bit (← q N (.isZero q0)))
  gates N [.gate .x q0]
  must "b" (!bit (← q N (.isZero q0)))
  gates N [.gate .h q0]
  must "c" (!bit (← q N (.isZero q0)))
  let r := ptr (← q N (.m q0))
  must "d" (bit (← q N (.isZero q0)) != Back.resultEqual r (Back.resultPtr true))

#guard passes isZeroTest

/-- A method of the backend that is not a call of a program. -/
def inside {α : Type} (f : GBackend Float → Except GStop (α × GBackend Float)) : BM α := fun s =>
  match f s with
  | .ok r => .ok r
  | .error _ => .error "panic"

/-- `test_map_unmap_are_adjoint`, lib.rs:1140-1178. -/
def mapUnmap (p : Spec.Pauli) (N : Num Float) : BM Unit := do
  let c := ptr (← q N .allocate)
  let t := ptr (← q N .allocate)
  gates N [.gate .h c, .ctl .x [c] t]
  let l ← inside (B.mapToZ N [p] [t])
  inside fun s => do
    let s ← B.unmapFromZ N l s
    return ((), s)
  gates N [.ctl .x [c] t, .gate .h c]
  must "t" (bit (← q N (.isZero t)))
  must "c" (bit (← q N (.isZero c)))
  gates N [.release t, .release c]

#guard passes (mapUnmap .X)
#guard passes (mapUnmap .Y)
#guard passes (mapUnmap .Z)

/-- `test_map_pauli_x`, `_y` and `_z`, lib.rs:1180-1247; the original does not look at the answers of `qubit_is_zero`. -/
def mapPauli (p : Spec.Pauli) (prep : List (GGate Float)) (N : Num Float) : BM Unit := do
  let t := ptr (← q N .allocate)
  gates N (prep.map fun g => .gate g t)
  let _ ← inside (B.mapToZ N [p] [t])
  must "t" (bit (← q N (.isZero t)))
  gates N [.release t]

#guard passes (mapPauli .X [.h])
#guard passes (mapPauli .Y [.h, .sadj, .h])
#guard passes (mapPauli .Z [])

/-- `test_joint_zz`, `_yy` and `_xx`, lib.rs:1249-1351. -/
def joint (prep unprep : List (GGate Float)) (two : ℕ → ℕ → GQCall Float) (one : GGate Float) (N : Num Float) : BM Unit := do
  let c := ptr (← q N .allocate)
  let a := ptr (← q N .allocate)
  let b := ptr (← q N .allocate)
  gates N [.gate .h c, .ctl .x [c] a, .ctl .x [c] b]
  gates N (prep.map fun g => .gate g a)
  gates N (prep.map fun g => .gate g b)
  gates N [two a b, .gate one a, .gate one b]
  gates N (unprep.map fun g => .gate g b)
  gates N (unprep.map fun g => .gate g a)
  gates N [.ctl .z [a] b, .ctl .x [c] b, .ctl .x [c] a, .gate .h c]
  must "c" (bit (← q N (.isZero c)))
  must "a" (bit (← q N (.isZero a)))
  must "b" (bit (← q N (.isZero b)))

#guard passes (joint [] [] (.rzz (pi / 2)) (.rz (-pi / 2)))
#guard passes (joint [.h, .sadj, .h] [.h, .s, .h] (.ryy (pi / 2)) (.ry (-pi / 2)))
#guard passes (joint [.h] [.h] (.rxx (pi / 2)) (.rx (-pi / 2)))
-- a wrong angle of the rotations of one qubit is noticed; one of the rotation of two qubits is not, as the test only
-- prepares states of even parity (C30 covers all states)
#guard !passes (joint [.h] [.h] (.rxx (pi / 2)) (.rx (-pi / 3)))
#guard passes (joint [.h] [.h] (.rxx (pi / 3)) (.rx (-pi / 2)))

/-- `test_mresetz`, lib.rs:1353-1366. -/
def mresetzTest (N : Num Float) : BM Unit := do
  let t := ptr (← q N .allocate)
  must "a" (bit (← q N (.isZero t)))
  gates N [.mresetz t 0]
  must "b" (!bit (← q N (.readResult 0)))
  must "c" (bit (← q N (.isZero t)))
  gates N [.gate .x t, .mresetz t 1]
  must "d" (bit (← q N (.readResult 1)))
  must "e" (bit (← q N (.isZero t)))

#guard passes mresetzTest

/-- `test_capture_quantum_state`, lib.rs:1368-1387. -/
def captureTest (N : Num Float) : BM Unit := do
  let a := ptr (← q N .allocate)
  let (l, n) ← inside (B.captureQuantumState N)
  must "1" (n == 1 && l.map Prod.fst == [0])
  gates N [.gate .x a]
  let (l, n) ← inside (B.captureQuantumState N)
  must "2" (n == 1 && l.map Prod.fst == [1])
  gates N [.gate .h a]
  let b := ptr (← q N .allocate)
  let (l, n) ← inside (B.captureQuantumState N)
  must "3" (n == 2 && l.length == 2)
  match l with
  | [x, y] => must "4" (x.2.re == -y.2.re && x.2.im == -y.2.im)
  | _ => must "5" false
  gates N [.gate .h a, .gate .x a]
  let (l, n) ← inside (B.captureQuantumState N)
  must "6" (n == 2 && l.map Prod.fst == [0])
  gates N [.release a, .release b]
  let (l, n) ← inside (B.captureQuantumState N)
  must "7" (n == 0 && l.map Prod.fst == [0])

#guard passes captureTest

end BackTests
end Gen
end Qir
