import Verif.Props.RearrangeDefs

/-!
# What the property theorems about renaming qubits and rewriting circuits talk about
-/

noncomputable section
namespace Qir.Back
open Spec Sim Qir.Out Run

/-- The same call on other qubits. -/
def onQubits (σ : ℕ → ℕ) : QCall → QCall
  | .gate g q => .gate g (σ q)
  | .ctl g cs q => .ctl g (cs.map σ) (σ q)
  | .sx q => .sx (σ q)
  | .rxx θ a b => .rxx θ (σ a) (σ b)
  | .ryy θ a b => .ryy θ (σ a) (σ b)
  | .rzz θ a b => .rzz θ (σ a) (σ b)
  | .r p θ q => .r p θ (σ q)
  | .rAdj p θ q => .rAdj p θ (σ q)
  | .rCtl cs p θ q => .rCtl (cs.map σ) p θ (σ q)
  | .rCtlAdj cs p θ q => .rCtlAdj (cs.map σ) p θ (σ q)
  | .exp ps θ qs => .exp ps θ (qs.map σ)
  | .expAdj ps θ qs => .expAdj ps θ (qs.map σ)
  | .expCtl cs ps θ qs => .expCtl (cs.map σ) ps θ (qs.map σ)
  | .expCtlAdj cs ps θ qs => .expCtlAdj (cs.map σ) ps θ (qs.map σ)
  | .swap a b => .swap (σ a) (σ b)
  | .reset q => .reset (σ q)
  | .mresetz q r => .mresetz (σ q) r
  | .mz q r => .mz (σ q) r
  | .m q => .m (σ q)
  | .measure ps qs => .measure ps (qs.map σ)
  | .isZero q => .isZero (σ q)
  | .assertProb ps qs result prob msg tol => .assertProb ps (qs.map σ) result prob msg tol
  | .release q => .release (σ q)
  | c => c

/-- The same program on other qubits. -/
def renamed (σ : ℕ → ℕ) : Prog QCall QAns → Prog QCall QAns
  | .done => .done
  | .call c k => .call (onQubits σ c) fun a => renamed σ (k a)

/-- The calls that only apply an operator. -/
def IsGate : QCall → Prop
  | .gate _ _ | .ctl _ _ _ | .sx _ | .rxx _ _ _ | .ryy _ _ _ | .rzz _ _ _ | .r _ _ _ | .rAdj _ _ _ | .rCtl _ _ _ _
  | .rCtlAdj _ _ _ _ | .exp _ _ _ | .expAdj _ _ _ | .expCtl _ _ _ _ | .expCtlAdj _ _ _ _ | .swap _ _ | .barrier => True
  | _ => False

/-- The matrix of a list of gates on one qubit, the first one rightmost. -/
def gateProduct (gs : List Gate) : Mat2 := gs.foldl (fun U g => g.mat * U) 1

/-- What a circuit makes of a state vector on the ideal device. -/
def effect (cs : List QCall) (ψ : Wave) : Wave :=
  match Device.run { blank with psi := ψ } cs with
  | .ok (_, _, δ) => δ.psi
  | .error _ => ψ

/-- Two circuits that differ by a global phase only. -/
structure SameCircuit (cs ds : List QCall) : Prop where
  left : ∀ c ∈ cs, IsGate c
  right : ∀ d ∈ ds, IsGate d
  same : ∃ phase : ℂ, ‖phase‖ = 1 ∧ ∀ ψ, effect ds ψ = phase • effect cs ψ

/-- Make the calls of a circuit and go on. -/
def afterCircuit : List QCall → Prog QCall QAns → Prog QCall QAns
  | [], p => p
  | c :: cs, p => .call c fun _ => afterCircuit cs p

/-- A program that arises from another by replacing circuits by equal ones, anywhere and any number of times. -/
inductive Rewritten : Prog QCall QAns → Prog QCall QAns → Prop
  | refl (p : Prog QCall QAns) : Rewritten p p
  | circuit {cs ds : List QCall} (h : SameCircuit cs ds) (p : Prog QCall QAns) :
      Rewritten (afterCircuit cs p) (afterCircuit ds p)
  | under (c : QCall) {k k' : QAns → Prog QCall QAns} (h : ∀ a, Rewritten (k a) (k' a)) :
      Rewritten (.call c k) (.call c k')
  | symm {p p' : Prog QCall QAns} (h : Rewritten p p') : Rewritten p' p
  | trans {p p' p'' : Prog QCall QAns} (h : Rewritten p p') (h' : Rewritten p' p'') : Rewritten p p''

/-- The program names its qubits by number: no dynamic allocation. -/
def Numbered : Prog QCall QAns → Prop
  | .done => True
  | .call c k => c.Static ∧ ∀ a, Numbered (k a)

end Qir.Back
