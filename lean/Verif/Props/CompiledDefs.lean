import Verif.Props.KnownDefs

/-!
# What the property theorems about compiled programs talk about

Everything a compiler may do to a program according to C86, C88, C90 and C91, mixed in any way, and what follows from the
fact that a measured qubit has the value found.
-/

noncomputable section
namespace Qir.Back
open Spec Sim Qir.Out Run

/-- Measure a qubit into two registers. -/
def measuredTwice (q r r' : ℕ) (p : Prog QCall QAns) : Prog QCall QAns :=
  .call (.mz q r) fun _ => .call (.mz q r') fun _ => p

/-- Measure it into one of them and copy the result. -/
def measuredOnce (q r r' : ℕ) (p : Prog QCall QAns) : Prog QCall QAns :=
  .call (.mz q r) fun _ => .call (.readResult r) fun
  | .bit b => .call (.writeResult b r') fun _ => p
  | _ => .done

/-- A program that arises from another, when the qubits of `Z` are zero at the beginning, by any of the rules. -/
inductive Compiled : Set ℕ → Prog QCall QAns → Prog QCall QAns → Prop
  | fold {Z : Set ℕ} {p p' : Prog QCall QAns} (h : Folded Z p p') (hp : Numbered p) : Compiled Z p p'
  | arrange {Z : Set ℕ} {p p' : Prog QCall QAns} (h : Rearranged p p') : Compiled Z p p'
  | cleared {Z : Set ℕ} {q : ℕ} (hq : q ∈ Z) {p : Prog QCall QAns} (hp : Numbered p) :
      Compiled Z (.call (.reset q) fun _ => p) p
  | zero {Z : Set ℕ} {q : ℕ} (hq : q ∈ Z) (r : ℕ) {p : Prog QCall QAns} (hp : Numbered p) :
      Compiled Z (.call (.mz q r) fun _ => p) (.call (.writeResult false r) fun _ => p)
  | twice {Z : Set ℕ} (q r r' : ℕ) {p : Prog QCall QAns} (hp : Numbered p) :
      Compiled Z (measuredTwice q r r' p) (measuredOnce q r r' p)
  | split {Z : Set ℕ} (q r : ℕ) {p : Prog QCall QAns} (hp : Numbered p) :
      Compiled Z (.call (.mresetz q r) fun _ => p) (.call (.mz q r) fun _ => .call (.reset q) fun _ => p)
  | constant {Z : Set ℕ} (b : Bool) (r : ℕ) (k : QAns → Prog QCall QAns) :
      Compiled Z (.call (.writeResult b r) fun _ => .call (.readResult r) k) (.call (.writeResult b r) fun _ => k (.bit b))
  | under {Z : Set ℕ} {c : QCall} (hs : c.Static) (hd : c.Distinct) {k k' : QAns → Prog QCall QAns}
      (h : ∀ a, Compiled (knownZero Z c) (k a) (k' a)) : Compiled Z (.call c k) (.call c k')
  | symm {Z : Set ℕ} {p p' : Prog QCall QAns} (h : Compiled Z p p') : Compiled Z p' p
  | trans {Z : Set ℕ} {p p' p'' : Prog QCall QAns} (h : Compiled Z p p') (h' : Compiled Z p' p'') : Compiled Z p p''

end Qir.Back
