import Verif.Props.HandledDefs

/-!
# What the property theorems about deferred measurement talk about
-/

noncomputable section
namespace Qir.Back
open Spec Sim Qir.Out Run

/-- The gates that exist with additional controls. -/
def Controllable : QCall → Prop
  | .gate _ _ | .ctl _ _ _ | .r _ _ _ | .rAdj _ _ _ | .rCtl _ _ _ _ | .rCtlAdj _ _ _ _ | .exp _ _ _ | .expAdj _ _ _
  | .expCtl _ _ _ _ | .expCtlAdj _ _ _ _ => True
  | _ => False

/-- The gate with another control. -/
def controlledBy (q : ℕ) : QCall → QCall
  | .gate g t => .ctl g [q] t
  | .ctl g cs t => .ctl g (q :: cs) t
  | .r p θ t => .rCtl [q] p θ t
  | .rAdj p θ t => .rCtlAdj [q] p θ t
  | .rCtl cs p θ t => .rCtl (q :: cs) p θ t
  | .rCtlAdj cs p θ t => .rCtlAdj (q :: cs) p θ t
  | .exp ps θ ts => .expCtl [q] ps θ ts
  | .expAdj ps θ ts => .expCtlAdj [q] ps θ ts
  | .expCtl cs ps θ ts => .expCtl (q :: cs) ps θ ts
  | .expCtlAdj cs ps θ ts => .expCtlAdj (q :: cs) ps θ ts
  | c => c

/-- Measure qubit `q` into register `r`, read the result, and go on with it. -/
def measuring (q r : ℕ) (k : Bool → Prog QCall QAns) : Prog QCall QAns :=
  .call (.mz q r) fun _ => .call (.readResult r) fun
  | .bit b => k b
  | _ => .done

/-- Measure qubit `q` into register `r`, apply a circuit if the result is one, and go on. -/
def whenOne (q r : ℕ) (cs : List QCall) (k : Bool → Prog QCall QAns) : Prog QCall QAns :=
  measuring q r fun b => afterCircuit (if b then cs else []) (k b)

/-- Apply the circuit controlled by qubit `q`, measure the qubit afterwards, and go on. -/
def beforeMeasuring (q r : ℕ) (cs : List QCall) (k : Bool → Prog QCall QAns) : Prog QCall QAns :=
  afterCircuit (cs.map (controlledBy q)) (measuring q r k)

/-- A program that arises from another by deferring measurements and by replacing circuits by equal ones, anywhere and any
number of times. -/
inductive Deferred : Prog QCall QAns → Prog QCall QAns → Prop
  | rewrite {p p' : Prog QCall QAns} (h : Rewritten p p') : Deferred p p'
  | defer (q r : ℕ) {cs : List QCall} (hc : ∀ c ∈ cs, Controllable c ∧ c.Distinct ∧ q ∉ named c)
      (k : Bool → Prog QCall QAns) : Deferred (whenOne q r cs k) (beforeMeasuring q r cs k)
  | under (c : QCall) {k k' : QAns → Prog QCall QAns} (h : ∀ a, Deferred (k a) (k' a)) :
      Deferred (.call c k) (.call c k')
  | symm {p p' : Prog QCall QAns} (h : Deferred p p') : Deferred p' p
  | trans {p p' p'' : Prog QCall QAns} (h : Deferred p p') (h' : Deferred p' p'') : Deferred p p''

end Qir.Back
