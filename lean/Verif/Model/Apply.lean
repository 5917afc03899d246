import Verif.Model.Api
import Verif.Spec.Unitary

/-!
# Model of `QuantumSim::apply` and `controlled` (`sparsesim/src/lib.rs`)

Simplifications.  A matrix (`ndarray::Array2<Complex64>`) is its numbers of rows and columns and a total function that
is asked only below them.  Overflow of `1_usize << n`, of `2_usize.pow` and of the `u32` number of controls is not
modelled.  The iteration order of the final map is the oracle `shuffle`.
-/

noncomputable section
namespace Qir

/-- `Array2<Complex64>`. sparsesim/src/lib.rs:1199-1204. -/
structure Mat where
  rows : ℕ
  cols : ℕ
  entry : ℕ → ℕ → ℂ

/-- `controlled`, lib.rs:1318-1324. -/
def controlled (u : Mat) (numCtrls : ℕ) : Mat :=
  let size := u.rows * 2 ^ numCtrls
  let dimRows := size - u.rows
  let dimCols := size - u.cols
  { rows := size, cols := size
    entry := fun i j =>
      if dimRows ≤ i ∧ dimCols ≤ j then u.entry (i - dimRows) (j - dimCols) else if i = j then 1 else 0 }

namespace Sim

/-- One iteration of the loop that moves the operands to the lowest locations, lib.rs:1238-1252. -/
def placeOne (env : Env) (targetLoc target : ℕ) (s : Sim) : Except Panic Sim := do
  let loc ← resolveId s.idMap target
  let swapId ← match findByLoc s.idMap targetLoc with
    | some id => .ok id
    | none => .error .outOfBounds
  let s ← swapQubitState env loc targetLoc s
  let s := { s with idMap := s.idMap.modify swapId (fun _ => loc) }
  return { s with idMap := s.idMap.modify target (fun _ => targetLoc) }

/-- The loop, lib.rs:1234-1253, on the operands from last to first. -/
def place (env : Env) : ℕ → List ℕ → Sim → Except Panic Sim
  | _, [], s => .ok s
  | targetLoc, target :: rest, s => do
    let s ← placeOne env targetLoc target s
    place env (targetLoc + 1) rest s

/-- lib.rs:1267-1272: `accum.get_mut(&loc)` or `accum.insert`. -/
def addEntry (loc : ℕ) (v : ℂ) (accum : List (ℕ × ℂ)) : List (ℕ × ℂ) :=
  if accum.any (fun e => e.1 == loc) then accum.map (fun e => if e.1 == loc then (e.1, e.2 + v) else e)
  else accum ++ [(loc, v)]

/-- lib.rs:1273-1278: the removal of a vanishing entry. -/
def dropZero (eps : ℝ) (loc : ℕ) (accum : List (ℕ × ℂ)) : List (ℕ × ℂ) :=
  match lookupMap accum loc with
  | some v => if NearlyZero eps v then accum.filter (fun e => e.1 ≠ loc) else accum
  | none => accum

open Classical in
/-- The body of the fold, lib.rs:1261-1281. -/
def scatter (eps : ℝ) (u : Mat) (accum : List (ℕ × ℂ)) (e : ℕ × ℂ) : List (ℕ × ℂ) :=
  let opSize := u.rows
  let i := e.1 / opSize
  let l := e.1 % opSize
  ((List.range opSize).filter (fun j => !decide (NearlyZero eps (u.entry j l)))).foldl
    (fun accum j => dropZero eps (i * opSize + j) (addEntry (i * opSize + j) (u.entry j l * e.2) accum)) accum

/-- `apply`, lib.rs:1199-1288. -/
def apply (env : Env) (u : Mat) (targets : List ℕ) (controls : Option (List ℕ)) (s : Sim) : Except Panic Sim := do
  if u.cols ≠ u.rows then .error .assertion
  else if u.cols ≠ 2 ^ targets.length then .error .assertion
  else
    let (targets, u) := match controls with
      | some ctrls => (ctrls ++ targets, controlled u ctrls.length)
      | none => (targets, u)
    checkForDuplicates targets
    let s ← flushQueue env targets .HRxRy s
    let s ← place env 0 targets.reverse s
    let s := { s with state := env.shuffle (s.state.foldl (scatter env.eps u) []) }
    if s.state.isEmpty then .error .assertion
    else return s

open Spec

/-- One call of the interface including `apply`; a matrix is handed over as a square array of the right size, its
controls as `Some`. As `call`, with `apply`, sparsesim/src/lib.rs:1199-1289. -/
def callX (env : Env) : XCall → Sim → Except Panic (Out × Sim)
  | .base c, s => call env c s
  | .apply cs U ts, s => quiet (apply env ⟨2 ^ ts.length, 2 ^ ts.length, U⟩ ts (some cs) s)

/-- A history of method calls; the first panic ends it. As `runCalls`, with `apply`, sparsesim/src/lib.rs:1199-1289. -/
def runX (env : Env) : List XCall → Sim → Except Panic (List Out × Sim)
  | [], s => .ok ([], s)
  | c :: cs, s => do
    let (o, s) ← callX env c s
    let (os, s) ← runX env cs s
    return (o :: os, s)

end Sim
end Qir
