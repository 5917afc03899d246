import Verif.Spec.Machine

/-!
# Matrices on several qubits, as a specification
-/

noncomputable section
namespace Qir.Spec

/-- The number that the qubits `qs` write in the basis state `b`, the first qubit being the most significant digit. -/
def rowOf (qs : List ℕ) (b : Basis) : ℕ := qs.foldl (fun n q => 2 * n + (if b q then 1 else 0)) 0

/-- The basis state `b` with the qubits `qs` changed so that they write `k`. -/
def setRow (qs : List ℕ) (k : ℕ) (b : Basis) : Basis := fun q =>
  if q ∈ qs then k.testBit (qs.length - 1 - qs.idxOf q) else b q

/-- Apply the matrix `U` to the qubits `ts` where all qubits of `cs` are one, and the identity elsewhere. -/
def applyMatrix (cs : List ℕ) (U : ℕ → ℕ → ℂ) (ts : List ℕ) (ψ : Wave) : Wave := fun b =>
  if ∀ c ∈ cs, b c = true then
    ∑ k ∈ Finset.range (2 ^ ts.length), U (rowOf ts b) k * ψ (setRow ts k b)
  else ψ b

/-- The columns of the matrix with `n` rows and columns are orthonormal. -/
def Unitary (n : ℕ) (U : ℕ → ℕ → ℂ) : Prop := ∀ k < n, ∀ l < n,
  ∑ j ∈ Finset.range n, (starRingEnd ℂ) (U j k) * U j l = if k = l then 1 else 0

/-- The calls of the simulator's interface and the application of a matrix under controls. -/
inductive XCall
  | base (c : Call)
  | apply (cs : List ℕ) (U : ℕ → ℕ → ℂ) (ts : List ℕ)

namespace Ideal

/-- The call makes sense: a matrix must be unitary, and its operands distinct qubits in use. -/
def XValid (σ : Ideal) : XCall → Prop
  | .base c => σ.Valid c
  | .apply cs U ts => (cs ++ ts).Nodup ∧ (∀ q ∈ cs ++ ts, q ∈ σ.live) ∧ Unitary (2 ^ ts.length) U

/-- The effect of a call. -/
def xstep (σ : Ideal) : XCall → Ideal
  | .base c => σ.step c
  | .apply cs U ts => { σ with psi := applyMatrix cs U ts σ.psi }

/-- The right answer. -/
def XAnswer (σ : Ideal) : XCall → Out → Prop
  | .base c, o => σ.Answer c o
  | .apply _ _ _, o => o = .none

/-- A history. -/
def xrun (σ : Ideal) (cs : List XCall) : Ideal := cs.foldl xstep σ

/-- Every call of the history makes sense when it is made. -/
def XValidRun (σ : Ideal) : List XCall → Prop
  | [] => True
  | c :: cs => σ.XValid c ∧ (σ.xstep c).XValidRun cs

/-- The right answers to a history. -/
def XAnswers (σ : Ideal) : List XCall → List Out → Prop
  | [], os => os = []
  | c :: cs, os => ∃ o os', os = o :: os' ∧ σ.XAnswer c o ∧ (σ.xstep c).XAnswers cs os'

end Ideal
end Qir.Spec
