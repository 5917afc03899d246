import Mathlib.Data.Complex.Basic
import Mathlib.Data.Matrix.Basic
import Mathlib.Analysis.SpecialFunctions.Trigonometric.Basic
import Mathlib.Algebra.BigOperators.Finprod
import Mathlib.Logic.Equiv.Basic

/-!
# Textbook quantum mechanics, as a specification

A basis state assigns a bit to every qubit identifier, a wave function assigns an amplitude to
every basis state.  Nothing in this file refers to the simulator.
-/

noncomputable section

namespace Qir.Spec

/-- A computational basis state: the value of every qubit. -/
abbrev Basis := ℕ → Bool

/-- A (not necessarily normalised) state vector. -/
abbrev Wave := Basis → ℂ

/-- A 2×2 complex matrix with rows and columns labelled by bits. -/
abbrev Mat2 := Matrix Bool Bool ℂ

/-- The matrix `[[a, b], [c, d]]`. -/
def mat (a b c d : ℂ) : Mat2 := fun r k => if r then (if k then d else c) else (if k then b else a)

/-- All qubits zero. -/
def zeroBasis : Basis := fun _ => false

open Classical in
/-- The basis vector `|b⟩`. -/
def ket (b : Basis) : Wave := fun b' => if b' = b then 1 else 0

/-- Apply the single-qubit matrix `U` to qubit `q` where all qubits of `cs` are one, and the
identity elsewhere. -/
def ctrl (cs : List ℕ) (U : Mat2) (q : ℕ) (ψ : Wave) : Wave := fun b =>
  if ∀ c ∈ cs, b c = true then
    U (b q) false * ψ (Function.update b q false) + U (b q) true * ψ (Function.update b q true)
  else ψ b

/-! ### The textbook matrices -/

def matX : Mat2 := mat 0 1 1 0
def matY : Mat2 := mat 0 (-Complex.I) Complex.I 0
def matZ : Mat2 := mat 1 0 0 (-1)
def matH : Mat2 :=
  mat (1 / Real.sqrt 2 : ℝ) (1 / Real.sqrt 2 : ℝ) (1 / Real.sqrt 2 : ℝ) (-(1 / Real.sqrt 2 : ℝ))
/-- `diag(1, φ)`. -/
def matPhase (φ : ℂ) : Mat2 := mat 1 0 0 φ
def matS : Mat2 := matPhase Complex.I
def matSadj : Mat2 := matPhase (-Complex.I)
def matT : Mat2 := matPhase (Complex.exp (Complex.I * (Real.pi / 4)))
def matTadj : Mat2 := matPhase (Complex.exp (-(Complex.I * (Real.pi / 4))))
/-- `exp(-i θ/2 X)`. -/
def matRx (θ : ℝ) : Mat2 :=
  mat (Real.cos (θ / 2)) (-Complex.I * Real.sin (θ / 2))
    (-Complex.I * Real.sin (θ / 2)) (Real.cos (θ / 2))
/-- `exp(-i θ/2 Y)`. -/
def matRy (θ : ℝ) : Mat2 :=
  mat (Real.cos (θ / 2)) (-Real.sin (θ / 2)) (Real.sin (θ / 2)) (Real.cos (θ / 2))
/-- `exp(-i θ/2 Z)`. -/
def matRz (θ : ℝ) : Mat2 :=
  mat (Complex.exp (-(Complex.I * (θ / 2)))) 0 0 (Complex.exp (Complex.I * (θ / 2)))

/-- SWAP of two qubits. -/
def swapQubits (a b : ℕ) (ψ : Wave) : Wave := fun bits => ψ (fun q => bits (Equiv.swap a b q))

/-- The single-qubit Pauli operators. -/
inductive Pauli
  | I | X | Z | Y
deriving DecidableEq

def Pauli.mat : Pauli → Mat2
  | .I => 1
  | .X => matX
  | .Z => matZ
  | .Y => matY

/-- A product of Pauli operators on the listed qubits. -/
def pauliString : List (Pauli × ℕ) → Wave → Wave
  | [], ψ => ψ
  | (p, q) :: rest, ψ => ctrl [] p.mat q (pauliString rest ψ)

/-- `cos θ + i sin θ P`, i.e. `exp(i θ P)` for a Pauli string `P`, where all controls are one. -/
def ctrlExp (cs : List ℕ) (ps : List (Pauli × ℕ)) (θ : ℝ) (ψ : Wave) : Wave := fun b =>
  if ∀ c ∈ cs, b c = true then
    Real.cos θ * ψ b + Complex.I * Real.sin θ * pauliString ps ψ b
  else ψ b

/-- The basis state with index `k` for the qubits `qs`: the `j`-th listed qubit holds bit `j` of
`k` and all other qubits are zero. -/
def indexed (qs : List ℕ) (k : ℕ) : Basis := fun q => decide (q ∈ qs) && k.testBit (qs.idxOf q)

/-- `l` is a listing of the state `ψ` over the qubits `qs`: strictly increasing indices below
`2 ^ n`, every listed amplitude is the amplitude of `ψ` at that index, and every index with a
non-zero amplitude is listed. -/
structure Lists (qs : List ℕ) (ψ : Wave) (l : List (ℕ × ℂ)) : Prop where
  sorted : l.Pairwise (fun a b => a.1 < b.1)
  sound : ∀ e ∈ l, e.1 < 2 ^ qs.length ∧ e.2 = ψ (indexed qs e.1)
  complete : ∀ k < 2 ^ qs.length, ψ (indexed qs k) ≠ 0 → (k, ψ (indexed qs k)) ∈ l

/-! ### Probabilities and measurement -/

/-- Whether an odd number of the listed qubits are one. -/
def parity (qs : List ℕ) (b : Basis) : Bool := qs.foldr (fun q acc => xor (b q) acc) false

/-- The squared length of a state vector. -/
def normSq (ψ : Wave) : ℝ := ∑ᶠ b, Complex.normSq (ψ b)

/-- The probability that the parity of the listed qubits is `v`. -/
def prob (qs : List ℕ) (v : Bool) (ψ : Wave) : ℝ :=
  ∑ᶠ b, if parity qs b = v then Complex.normSq (ψ b) else 0

/-- The projection onto the basis states whose parity on the listed qubits is `v`. -/
def proj (qs : List ℕ) (v : Bool) (ψ : Wave) : Wave := fun b => if parity qs b = v then ψ b else 0

/-- The state after parity `v` has been observed. -/
def postMeasure (qs : List ℕ) (v : Bool) (ψ : Wave) : Wave :=
  (1 / Real.sqrt (prob qs v ψ) : ℝ) • proj qs v ψ

end Qir.Spec
