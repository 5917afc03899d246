import Verif.Props.DeferredDefs

/-!
# What the property theorems about qubits known to be zero talk about

A compiler knows that a qubit is zero before it is used for the first time and after it has been reset, and may simplify
the circuits that follow.
-/

noncomputable section
namespace Qir.Back
open Spec Sim Qir.Out Run

/-- The qubits of `Z` are zero. -/
def ZeroOn (Z : Set ℕ) (ψ : Wave) : Prop := ∀ b, ψ b ≠ 0 → ∀ q ∈ Z, b q = false

/-- The qubits a call may move away from zero.  Controls are not among them, nor is a qubit measured by itself. -/
def targets : QCall → List ℕ
  | .gate _ q | .ctl _ _ q | .sx q | .r _ _ q | .rAdj _ _ q | .rCtl _ _ _ q | .rCtlAdj _ _ _ q => [q]
  | .rxx _ a b | .ryy _ a b | .rzz _ a b | .swap a b => [a, b]
  | .exp _ _ qs | .expAdj _ _ qs | .expCtl _ _ _ qs | .expCtlAdj _ _ _ qs | .measure _ qs => qs
  | _ => []

/-- The qubits known to be zero after a call if those of `Z` are known to be zero before. -/
def knownZero (Z : Set ℕ) : QCall → Set ℕ
  | .reset q | .mresetz q _ => insert q Z
  | .reinit => Set.univ
  | c => {q | q ∈ Z ∧ q ∉ targets c}

/-- Two circuits that differ by a global phase only as long as the qubits of `Z` are zero. -/
structure SameCircuitOn (Z : Set ℕ) (cs ds : List QCall) : Prop where
  left : ∀ c ∈ cs, IsGate c
  right : ∀ d ∈ ds, IsGate d
  same : ∃ phase : ℂ, ‖phase‖ = 1 ∧ ∀ ψ, ZeroOn Z ψ → effect ds ψ = phase • effect cs ψ

/-- A program that arises from another, when the qubits of `Z` are zero at the beginning, by replacing circuits by others
that are equal given what is known at that place, by deferring measurements, and by moving gates past the measurement of
another qubit, anywhere and any number of times. -/
inductive Folded : Set ℕ → Prog QCall QAns → Prog QCall QAns → Prop
  | defer {Z : Set ℕ} {p p' : Prog QCall QAns} (h : Deferred p p') : Folded Z p p'
  | circuit {Z : Set ℕ} {cs ds : List QCall} (h : SameCircuitOn Z cs ds) (p : Prog QCall QAns) :
      Folded Z (afterCircuit cs p) (afterCircuit ds p)
  | pass {Z : Set ℕ} (q r : ℕ) {cs : List QCall} (hc : ∀ c ∈ cs, IsGate c ∧ c.Distinct ∧ q ∉ c.uses)
      (k : Bool → Prog QCall QAns) :
      Folded Z (afterCircuit cs (measuring q r k)) (measuring q r fun b => afterCircuit cs (k b))
  | under {Z : Set ℕ} (c : QCall) {k k' : QAns → Prog QCall QAns} (h : ∀ a, Folded (knownZero Z c) (k a) (k' a)) :
      Folded Z (.call c k) (.call c k')
  | symm {Z : Set ℕ} {p p' : Prog QCall QAns} (h : Folded Z p p') : Folded Z p' p
  | trans {Z : Set ℕ} {p p' p'' : Prog QCall QAns} (h : Folded Z p p') (h' : Folded Z p' p'') : Folded Z p p''

end Qir.Back
