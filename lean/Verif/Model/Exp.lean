import Verif.Model.Sim

/-! # Model of `sparsesim/src/exp.rs` (multi-qubit exponential) -/

noncomputable section
namespace Qir

/-- `Pauli`, exp.rs:17-22. -/
inductive MPauli
  | I | X | Z | Y
deriving DecidableEq

namespace Sim

/-- The masks and the number of `Y` factors, exp.rs:83-85. -/
structure ExpMasks where
  xy : ℕ
  yz : ℕ
  yCount : ℕ

/-- The loop of exp.rs:86-97.  `targets[i]` is evaluated only for non-identity factors, and panics
when there are fewer targets than factors. -/
def expMasks : List MPauli → List ℕ → ExpMasks → Except Panic ExpMasks
  | [], _, m => .ok m
  | .I :: ps, ts, m => expMasks ps ts.tail m
  | _ :: _, [], _ => .error .outOfBounds
  | .X :: ps, t :: ts, m => expMasks ps ts { m with xy := setBit m.xy t true }
  | .Y :: ps, t :: ts, m =>
    expMasks ps ts { xy := setBit m.xy t true, yz := setBit m.yz t true, yCount := m.yCount + 1 }
  | .Z :: ps, t :: ts, m => expMasks ps ts { m with yz := setBit m.yz t true }

/-- The duplicate test on the sorted locations, exp.rs:63-78: two equal neighbours. -/
def adjacentDup : List ℕ → Bool
  | a :: b :: rest => a == b || adjacentDup (b :: rest)
  | _ => false

/-- exp.rs:60-78. -/
def expCheckDup (ctls targets : List ℕ) : Except Panic Unit :=
  if adjacentDup ((ctls ++ targets).mergeSort (fun a b => decide (a ≤ b))) then
    .error .duplicateQubit
  else .ok ()

/-- The pure Pauli-Z case, exp.rs:99-144. -/
def expDiag (eps : ℝ) (ctls : List ℕ) (yz : ℕ) (idCoeff pauliCoeff : ℂ) (st : List (ℕ × ℂ)) :
    List (ℕ × ℂ) :=
  let pauliCoeff := pauliCoeff + idCoeff
  let idCoeff := 2 * idCoeff - pauliCoeff
  if NearlyZero eps pauliCoeff then
    st.filterMap (fun e =>
      if ctls.all (fun c => e.1.testBit c) && oddParity e.1 yz then some (e.1, e.2 * idCoeff)
      else none)
  else if NearlyZero eps idCoeff then
    st.filterMap (fun e =>
      if ctls.all (fun c => e.1.testBit c) && oddParity e.1 yz then some (e.1, e.2 * pauliCoeff)
      else none)
  else
    st.map (fun e =>
      if ctls.all (fun c => e.1.testBit c) then
        (e.1, e.2 * (if oddParity e.1 yz = false then pauliCoeff else idCoeff))
      else e)

/-- The factor for the `Y`s, exp.rs:147-153. -/
def yPhase (yCount : ℕ) : ℂ :=
  if yCount % 4 = 1 then Complex.I
  else if yCount % 4 = 2 then -1
  else if yCount % 4 = 3 then -Complex.I
  else 1

/-- One iteration of the loop of exp.rs:163-200. -/
def expEntry (eps : ℝ) (m : List (ℕ × ℂ)) (ctls : List ℕ) (xy yz : ℕ)
    (idCoeff pauliCoeff pauliCoeffAlt : ℂ) (e : ℕ × ℂ) : List (ℕ × ℂ) :=
  if ctls.all (fun c => e.1.testBit c) then
    let alt := e.1 ^^^ xy
    let odd := oddParity e.1 yz
    match lookupMap m alt with
    | none =>
      [(e.1, e.2 * idCoeff), (alt, e.2 * (if odd = false then pauliCoeff else -pauliCoeff))]
    | some altValue =>
      if e.1 < alt then
        (if NearlyZero eps (e.2 * idCoeff + altValue * (if odd then -pauliCoeffAlt else pauliCoeffAlt))
          then []
          else [(e.1, e.2 * idCoeff + altValue * (if odd then -pauliCoeffAlt else pauliCoeffAlt))]) ++
        (if NearlyZero eps (altValue * idCoeff + e.2 * (if odd then -pauliCoeff else pauliCoeff))
          then []
          else [(alt, altValue * idCoeff + e.2 * (if odd then -pauliCoeff else pauliCoeff))])
      else []
  else [e]

/-- The state update of `mcexp`, exp.rs:80-201. -/
def expState (env : Env) (ctls : List ℕ) (mk : ExpMasks) (theta : ℝ) (st : List (ℕ × ℂ)) :
    List (ℕ × ℂ) :=
  let idCoeff : ℂ := ⟨Real.cos theta, 0⟩
  let pauliCoeff : ℂ := ⟨0, Real.sin theta⟩
  if mk.xy = 0 then expDiag env.eps ctls mk.yz idCoeff pauliCoeff st
  else
    let pauliCoeff := pauliCoeff * yPhase mk.yCount
    let pauliCoeffAlt := if mk.yCount % 2 = 0 then pauliCoeff else -pauliCoeff
    let m := env.shuffle (collectMap st)
    m.flatMap (expEntry env.eps m ctls mk.xy mk.yz idCoeff pauliCoeff pauliCoeffAlt)

/-- `mcexp`, exp.rs:34-203. -/
def mcexp (env : Env) (ctls : List ℕ) (paulis : List MPauli) (theta : ℝ) (targets : List ℕ)
    (s : Sim) : Except Panic Sim := do
  let s ← flushQueue env ctls .HRxRy s
  let s ← flushQueue env targets .HRxRy s
  let cs ← resolveIds s.idMap ctls
  let ts ← resolveIds s.idMap targets
  expCheckDup cs ts
  let mk ← expMasks paulis ts { xy := 0, yz := 0, yCount := 0 }
  return { s with state := expState env cs mk theta s.state }

/-- `exp`, exp.rs:26-28. -/
def exp (env : Env) (paulis : List MPauli) (theta : ℝ) (targets : List ℕ) (s : Sim) :
    Except Panic Sim :=
  mcexp env [] paulis theta targets s

end Sim
end Qir
