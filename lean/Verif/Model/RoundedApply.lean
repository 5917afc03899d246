import Verif.Model.Rounded
import Verif.Model.Apply

/-!
# `QuantumSim::apply` with rounded arithmetic

As `Model/Apply`, with the products and sums of amplitudes rounded as in `Model/Rounded`.  The matrix is handed over in
double precision: in `callX` its entries are those of an ideal matrix, each component rounded once.
`Proof/RoundedApplyExact` shows that with exact arithmetic these are the functions of `Model/Apply`.
-/

noncomputable section
namespace Qir

/-- An ideal matrix as numbers in working precision. No counterpart in /repo: the caller's array,
sparsesim/src/lib.rs:1199-1204. -/
def Arith.entries (A : Arith) (U : ℕ → ℕ → ℂ) : ℕ → ℕ → ℂ := fun i j => ⟨A.fl (U i j).re, A.fl (U i j).im⟩

namespace Rnd
open Sim Spec

/-- One iteration of the loop that moves the operands to the lowest locations, lib.rs:1238-1252. -/
def placeOne (A : Arith) (targetLoc target : ℕ) (s : Sim) : Except Panic Sim := do
  let loc ← resolveId s.idMap target
  let swapId ← match findByLoc s.idMap targetLoc with
    | some id => .ok id
    | none => .error .outOfBounds
  let s ← swapQubitState A loc targetLoc s
  let s := { s with idMap := s.idMap.modify swapId (fun _ => loc) }
  return { s with idMap := s.idMap.modify target (fun _ => targetLoc) }

/-- The loop, lib.rs:1234-1253, on the operands from last to first. -/
def place (A : Arith) : ℕ → List ℕ → Sim → Except Panic Sim
  | _, [], s => .ok s
  | targetLoc, target :: rest, s => do
    let s ← placeOne A targetLoc target s
    place A (targetLoc + 1) rest s

/-- lib.rs:1267-1272: `accum.get_mut(&loc)` and a rounded sum, or `accum.insert`. -/
def addEntry (A : Arith) (loc : ℕ) (v : ℂ) (accum : List (ℕ × ℂ)) : List (ℕ × ℂ) :=
  if accum.any (fun e => e.1 == loc) then accum.map (fun e => if e.1 == loc then (e.1, A.add e.2 v) else e)
  else accum ++ [(loc, v)]

open Classical in
/-- The body of the fold, lib.rs:1261-1281, with a rounded product. -/
def scatter (A : Arith) (u : Mat) (accum : List (ℕ × ℂ)) (e : ℕ × ℂ) : List (ℕ × ℂ) :=
  let opSize := u.rows
  let i := e.1 / opSize
  let l := e.1 % opSize
  ((List.range opSize).filter (fun j => !decide (NearlyZero A.eps (u.entry j l)))).foldl
    (fun accum j => dropZero A.eps (i * opSize + j) (addEntry A (i * opSize + j) (A.mul (u.entry j l) e.2) accum)) accum

/-- `apply`, lib.rs:1199-1288. -/
def apply (A : Arith) (u : Mat) (targets : List ℕ) (controls : Option (List ℕ)) (s : Sim) : Except Panic Sim := do
  if u.cols ≠ u.rows then .error .assertion
  else if u.cols ≠ 2 ^ targets.length then .error .assertion
  else
    let (targets, u) := match controls with
      | some ctrls => (ctrls ++ targets, controlled u ctrls.length)
      | none => (targets, u)
    checkForDuplicates targets
    let s ← flushQueue A targets .HRxRy s
    let s ← place A 0 targets.reverse s
    let s := { s with state := A.shuffle (s.state.foldl (scatter A u) []) }
    if s.state.isEmpty then .error .assertion
    else return s

/-- One call of the interface including `apply`. As `Sim.callX`, with rounding, sparsesim/src/lib.rs:1199-1289. -/
def callX (A : Arith) : XCall → Sim → Except Panic (Out × Sim)
  | .base c, s => call A c s
  | .apply cs U ts, s => quiet (apply A ⟨2 ^ ts.length, 2 ^ ts.length, A.entries U⟩ ts (some cs) s)

/-- A history of method calls; the first panic ends it. As `Sim.runX`, with rounding, sparsesim/src/lib.rs:1199-1289. -/
def runX (A : Arith) : List XCall → Sim → Except Panic (List Out × Sim)
  | [], s => .ok ([], s)
  | c :: cs, s => do
    let (o, s) ← callX A c s
    let (os, s) ← runX A cs s
    return (o :: os, s)

end Rnd
end Qir
