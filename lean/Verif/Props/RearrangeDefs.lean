import Verif.Props.ChanceDefs

/-!
# What the property theorems about the order of calls talk about

A compiler may exchange neighbouring operations on different qubits, and leave out operations nothing depends on.
-/

noncomputable section
namespace Qir.Back
open Spec Sim Qir.Out Run

/-- The calls that may be moved: gates, measurements, results and output. -/
def Movable : QCall → Prop
  | .measure ps qs => ps.length = qs.length
  | .isZero _ | .assertProb _ _ _ _ _ _ | .allocate | .release _ | .fail _ | .dump _ | .reinit | .drawInt _ _
  | .drawDouble _ _ => False
  | _ => True

/-- The result registers a call depends on or changes.  The output of a result depends on whether any register has
been used before, see `Device.resultValue`. -/
def registers : QCall → Set ℕ
  | .mresetz _ n | .mz _ n | .writeResult _ n | .readResult n => {n}
  | .recordResult _ _ | .legacyResult _ => Set.univ
  | _ => ∅

/-- The calls that record nothing. -/
def Quiet : QCall → Prop
  | .recordResult _ _ | .legacyResult _ | .record _ _ | .legacy _ _ => False
  | _ => True

/-- Two calls that have no qubit and no register in common, and of which at most one records something. -/
structure Apart (c d : QCall) : Prop where
  left : Movable c
  right : Movable d
  proper : c.Distinct
  proper' : d.Distinct
  qubits : List.Disjoint c.uses d.uses
  results : Disjoint (registers c) (registers d)
  quiet : Quiet c ∨ Quiet d

/-- A program that arises from another by exchanging neighbouring calls that are apart, and by leaving out or adding
calls at the end of the program that record nothing. -/
inductive Rearranged : Prog QCall QAns → Prog QCall QAns → Prop
  | refl (p : Prog QCall QAns) : Rearranged p p
  | swap {c d : QCall} (k : QAns → QAns → Prog QCall QAns) (h : Apart c d) :
      Rearranged (.call c fun a => .call d fun b => k a b) (.call d fun b => .call c fun a => k a b)
  | drop {c : QCall} (hm : Movable c) (hd : c.Distinct) (hq : Quiet c) : Rearranged (.call c fun _ => .done) .done
  | under {c : QCall} (hd : c.Distinct) {k k' : QAns → Prog QCall QAns} (h : ∀ a, Rearranged (k a) (k' a)) :
      Rearranged (.call c k) (.call c k')
  | symm {p p' : Prog QCall QAns} (h : Rearranged p p') : Rearranged p' p
  | trans {p p' p'' : Prog QCall QAns} (h : Rearranged p p') (h' : Rearranged p' p'') : Rearranged p p''

end Qir.Back
