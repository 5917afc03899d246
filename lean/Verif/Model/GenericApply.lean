import Verif.Model.Generic

/-!
# `QuantumSim::apply` and `controlled` over an arbitrary arithmetic (`sparsesim/src/lib.rs`)

As `Model/Apply`, with the numbers of `Model/Generic`.  Simplifications: a matrix (`ndarray::Array2<Complex64>`) is its
numbers of rows and columns and a total function that is asked only below them; overflow of `1_usize << n`, of
`2_usize.pow` and of the `u32` number of controls is not modelled; the iteration order of the final map is `shuffle`.
-/

namespace Qir
namespace Gen
open Qir.Sim (resolveId checkForDuplicates findByLoc)

variable {F : Type}

/-- `Array2<Complex64>`. sparsesim/src/lib.rs:1199-1204. -/
structure GMat (F : Type) where
  rows : ℕ
  cols : ℕ
  entry : ℕ → ℕ → Cx F

/-- `controlled`, lib.rs:1318-1324; `Array2::eye` has `one` on the diagonal and `zero` elsewhere. -/
def controlled (N : Num F) (u : GMat F) (numCtrls : ℕ) : GMat F :=
  let size := u.rows * 2 ^ numCtrls
  let dimRows := size - u.rows
  let dimCols := size - u.cols
  { rows := size, cols := size
    entry := fun i j =>
      if dimRows ≤ i ∧ dimCols ≤ j then u.entry (i - dimRows) (j - dimCols)
      else if i = j then N.oneC else ⟨N.zero, N.zero⟩ }

/-- One iteration of the loop that moves the operands to the lowest locations, lib.rs:1238-1252. -/
def placeOne (N : Num F) (targetLoc target : ℕ) (s : GSim F) : Except Panic (GSim F) := do
  let loc ← resolveId s.idMap target
  let swapId ← match findByLoc s.idMap targetLoc with
    | some id => .ok id
    | none => .error .outOfBounds
  let s ← swapQubitState N loc targetLoc s
  let s := { s with idMap := s.idMap.modify swapId (fun _ => loc) }
  return { s with idMap := s.idMap.modify target (fun _ => targetLoc) }

/-- The loop, lib.rs:1234-1253, on the operands from last to first. -/
def place (N : Num F) : ℕ → List ℕ → GSim F → Except Panic (GSim F)
  | _, [], s => .ok s
  | targetLoc, target :: rest, s => do
    let s ← placeOne N targetLoc target s
    place N (targetLoc + 1) rest s

/-- lib.rs:1267-1272: `accum.get_mut(&loc)` or `accum.insert`. -/
def addEntry (N : Num F) (loc : ℕ) (v : Cx F) (accum : List (ℕ × Cx F)) : List (ℕ × Cx F) :=
  if accum.any (fun e => e.1 == loc) then accum.map (fun e => if e.1 == loc then (e.1, N.addC e.2 v) else e)
  else accum ++ [(loc, v)]

/-- lib.rs:1273-1278: the removal of a vanishing entry. -/
def dropZero (N : Num F) (loc : ℕ) (accum : List (ℕ × Cx F)) : List (ℕ × Cx F) :=
  match lookupMap accum loc with
  | some v => if N.nearlyZeroC v then accum.filter (fun e => e.1 ≠ loc) else accum
  | none => accum

/-- The body of the fold, lib.rs:1261-1281. -/
def scatter (N : Num F) (u : GMat F) (accum : List (ℕ × Cx F)) (e : ℕ × Cx F) : List (ℕ × Cx F) :=
  let opSize := u.rows
  let i := e.1 / opSize
  let l := e.1 % opSize
  ((List.range opSize).filter (fun j => !N.nearlyZeroC (u.entry j l))).foldl
    (fun accum j => dropZero N (i * opSize + j) (addEntry N (i * opSize + j) (N.mulC (u.entry j l) e.2) accum)) accum

/-- lib.rs:1229-1287: what `apply` does with its operands in order and the extended matrix. -/
def applyOn (N : Num F) (u : GMat F) (targets : List ℕ) (s : GSim F) : Except Panic (GSim F) := do
  checkForDuplicates targets
  let s ← flushQueue N targets .HRxRy s
  let s ← place N 0 targets.reverse s
  let s := { s with state := N.shuffle (s.state.foldl (scatter N u) []) }
  if s.state.isEmpty then .error .assertion
  else return s

/-- `apply`, lib.rs:1199-1288. -/
def apply (N : Num F) (u : GMat F) (targets : List ℕ) (controls : Option (List ℕ)) (s : GSim F) :
    Except Panic (GSim F) :=
  if u.cols ≠ u.rows then .error .assertion
  else if u.cols ≠ 2 ^ targets.length then .error .assertion
  else match controls with
    | some ctrls => applyOn N (controlled N u ctrls.length) (ctrls ++ targets) s
    | none => applyOn N u targets s

/-- The calls of the simulator's interface and the application of a matrix under controls, the matrix handed over as a
square array of the right size. As `GCall`, with sparsesim/src/lib.rs:1199-1289. -/
inductive GXCall (F : Type)
  | base (c : GCall F)
  | apply (cs : List ℕ) (U : ℕ → ℕ → Cx F) (ts : List ℕ)

/-- One call including `apply`. As `call`, with sparsesim/src/lib.rs:1199-1289. -/
def callX (N : Num F) : GXCall F → GSim F → Except Panic (GOut F × GSim F)
  | .base c, s => call N c s
  | .apply cs U ts, s => quiet (apply N ⟨2 ^ ts.length, 2 ^ ts.length, U⟩ ts (some cs) s)

/-- A history of calls; the first panic ends it. As `runCalls`, with `apply`, sparsesim/src/lib.rs:1199-1289. -/
def runX (N : Num F) : List (GXCall F) → GSim F → Except Panic (List (GOut F) × GSim F)
  | [], s => .ok ([], s)
  | c :: cs, s => do
    let (o, s) ← callX N c s
    let (os, s) ← runX N cs s
    return (o :: os, s)

end Gen
end Qir
