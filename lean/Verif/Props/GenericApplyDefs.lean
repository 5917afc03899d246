import Verif.Model.GenericApply
import Verif.Spec.Unitary
import Verif.Props.ClassicalDefs

/-!
# The reading of `Props/GenericDefs` and `Props/ClassicalDefs`, with the application of a matrix
-/

namespace Qir
namespace Gen

variable {F : Type}

/-- The operands of a matrix are qubits in use, none of them named twice. -/
def AllowedX (L : Finset ℕ) : GXCall F → Prop
  | .base c => Allowed L c
  | .apply cs _ ts => (cs ++ ts).Nodup ∧ ∀ q ∈ cs ++ ts, q ∈ L

/-- A matrix neither takes nor gives qubits. -/
def liveNextX (L : Finset ℕ) : GXCall F → Finset ℕ
  | .base c => liveNext L c
  | .apply _ _ _ => L

/-- Nor does it draw a sample. -/
def drawnX (L : Finset ℕ) : GXCall F → ℕ
  | .base c => drawn L c
  | .apply _ _ _ => 0

def AnswerX (N : Num F) (L : Finset ℕ) (sample : F) : GXCall F → GOut F → Prop
  | .base c, o => Answer N L sample c o
  | .apply _ _ _, o => o = .none

/-- Every call of the history is allowed when it is made. -/
def ValidX : Finset ℕ → List (GXCall F) → Prop
  | _, [] => True
  | L, c :: cs => AllowedX L c ∧ ValidX (liveNextX L c) cs

def liveAfterX (L : Finset ℕ) (cs : List (GXCall F)) : Finset ℕ := cs.foldl liveNextX L

def drawnByX : Finset ℕ → List (GXCall F) → ℕ
  | _, [] => 0
  | L, c :: cs => drawnX L c + drawnByX (liveNextX L c) cs

def AnswersX (N : Num F) : Finset ℕ → (ℕ → F) → List (GXCall F) → List (GOut F) → Prop
  | _, _, [], os => os = []
  | L, r, c :: cs, os => ∃ o os', os = o :: os' ∧ AnswerX N L (r 0) c o ∧
      AnswersX N (liveNextX L c) (fun n => r (n + drawnX L c)) cs os'

/-- What a matrix may do: where all controls are one it may change the targets, if the entry in the column of the old values
and the row of the new values counts; elsewhere it changes nothing. The first target is the most significant bit. -/
def MatrixActs (N : Num F) (cs : List ℕ) (U : ℕ → ℕ → Cx F) (ts : List ℕ) (f g : ℕ → Bool) : Prop :=
  if ∀ c ∈ cs, f c = true then
    (∀ q, q ∉ ts → g q = f q) ∧ N.nearlyZeroC (U (Spec.rowOf ts g) (Spec.rowOf ts f)) = false
  else g = f

def possibleX (N : Num F) (L : Finset ℕ) (S : (ℕ → Bool) → Prop) (g : ℕ → Bool) : GXCall F → GOut F → Prop
  | .base c, o => possible N L S g c o
  | .apply cs U ts, _ => ∃ f, S f ∧ MatrixActs N cs U ts f g

def ShowsX (L : Finset ℕ) (S : (ℕ → Bool) → Prop) : GXCall F → GOut F → Prop
  | .base c, o => Shows L S c o
  | .apply _ _ _, _ => True

/-- All answers to a history list possible basis states only. -/
def AgreeX (N : Num F) : Finset ℕ → ((ℕ → Bool) → Prop) → List (GXCall F) → List (GOut F) → Prop
  | _, _, [], os => os = []
  | L, S, c :: cs, os => ∃ o os', os = o :: os' ∧ ShowsX L S c o ∧
      AgreeX N (liveNextX L c) (fun g => possibleX N L S g c o) cs os'

/-- The basis states possible after a history with given answers. -/
def reachedX (N : Num F) : Finset ℕ → ((ℕ → Bool) → Prop) → List (GXCall F) → List (GOut F) → (ℕ → Bool) → Prop
  | L, S, c :: cs, o :: os => reachedX N (liveNextX L c) (fun g => possibleX N L S g c o) cs os
  | _, S, _, _ => S

/-- Some location below `n` belongs to no qubit. -/
def Gap (s : GSim F) (n : ℕ) : Prop := ∃ l < n, ∀ q, s.idMap.get q ≠ some l

/-- No qubit is given back. -/
def keeps : GXCall F → Bool
  | .base (.release _) => false
  | _ => true

/-- The number of entries of a column that count. -/
def columnWidth (N : Num F) (U : ℕ → ℕ → Cx F) (n j : ℕ) : ℕ :=
  ((List.range (2 ^ n)).filter fun i => !N.nearlyZeroC (U i j)).length

/-- Into how many basis states a call may turn one: a Hadamard gate or a rotation into two, a matrix into as many as its
fullest column has entries. -/
def growth (N : Num F) : GXCall F → ℕ
  | .base c => if branching c then 2 else 1
  | .apply _ U ts => ((List.range (2 ^ ts.length)).map (columnWidth N U ts.length)).foldr max 1

end Gen
end Qir
