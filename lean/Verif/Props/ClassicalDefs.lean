import Verif.Props.GenericDefs

/-!
# Which basis states are possible

A reading of the calls that knows no amplitudes: a basis state is a value for each qubit, and each call says which basis
states may come from which.  A Hadamard gate and a rotation may keep or change a bit, the other gates do one definite
thing, and a measurement leaves the basis states that agree with the outcome.
-/

namespace Qir
namespace Gen

variable {F : Type}

/-- The listed qubits changed. -/
def toggle (qs : List ℕ) (f : ℕ → Bool) : ℕ → Bool := fun q => if q ∈ qs then !f q else f q

/-- What a gate may do to the basis states it acts on. -/
def Acts (q : ℕ) (f g : ℕ → Bool) : GGate F → Prop
  | .x => g = toggle [q] f
  | .y => g = toggle [q] f
  | .h => g = f ∨ g = toggle [q] f
  | .rx _ => g = f ∨ g = toggle [q] f
  | .ry _ => g = f ∨ g = toggle [q] f
  | _ => g = f

/-- The qubits that a product of Pauli operators changes. -/
def changed (ps : List MPauli) (ts : List ℕ) : List ℕ :=
  ((ps.zip ts).filter fun p => p.1 = .X ∨ p.1 = .Y).map Prod.snd

/-- The number of ones among the listed qubits is odd. -/
def odd (qs : List ℕ) (f : ℕ → Bool) : Bool := decide ((qs.countP fun q => f q) % 2 = 1)

/-- The basis states `g` that are possible after a call with answer `o`, if the basis states in `S` were possible and the
qubits in `L` were in use. -/
def possible (N : Num F) (L : Finset ℕ) (S : (ℕ → Bool) → Prop) (g : ℕ → Bool) : GCall F → GOut F → Prop
  | .gate a q, _ => ∃ f, S f ∧ Acts q f g a
  | .ctrl a cs q, _ => ∃ f, S f ∧ if ∀ c ∈ cs, f c = true then Acts q f g a else g = f
  | .exp cs ps _ ts, _ => ∃ f, S f ∧
      if ∀ c ∈ cs, f c = true then (g = f ∨ g = toggle (changed ps ts) f) else g = f
  | .swap a b, _ => ∃ f, S f ∧ g a = f b ∧ g b = f a ∧ ∀ q, q ≠ a → q ≠ b → g q = f q
  | .release q, _ =>
      if L.card = 1 then g = fun _ => false else ∃ f, S f ∧ g = fun r => if r = q then false else f r
  | .measure q, o => S g ∧ o = .bit (g q)
  | .jointMeasure qs, o => S g ∧ o = .bit (odd qs g)
  | .collapse v q, o => S g ∧ ∃ p, o = .real p ∧ (N.nearlyZero p = false → g q = v)
  | _, _ => S g

/-- The basis state `f` has the index `k`: its bits are the values of the qubits in use, the smallest first. -/
def Index (L : Finset ℕ) (k : ℕ) (f : ℕ → Bool) : Prop := ∀ q ∈ L, k.testBit (L.filter (· < q)).card = f q

/-- The answer lists possible basis states only. -/
def Shows (L : Finset ℕ) (S : (ℕ → Bool) → Prop) : GCall F → GOut F → Prop
  | .getState, o => ∃ l, o = .state l L.card ∧ Ascending L.card l ∧ ∀ e ∈ l, ∃ f, S f ∧ Index L e.1 f
  | .dump fmt, o => ∃ l, o = .text (shown fmt l) ∧ Ascending L.card l ∧ ∀ e ∈ l, ∃ f, S f ∧ Index L e.1 f
  | _, _ => True

/-- All answers to a history list possible basis states only. -/
def Agree (N : Num F) : Finset ℕ → ((ℕ → Bool) → Prop) → List (GCall F) → List (GOut F) → Prop
  | _, _, [], os => os = []
  | L, S, c :: cs, os => ∃ o os', os = o :: os' ∧ Shows L S c o ∧
      Agree N (liveNext L c) (fun g => possible N L S g c o) cs os'

/-- The basis states possible after a history with given answers. -/
def reached (N : Num F) : Finset ℕ → ((ℕ → Bool) → Prop) → List (GCall F) → List (GOut F) → (ℕ → Bool) → Prop
  | L, S, c :: cs, o :: os => reached N (liveNext L c) (fun g => possible N L S g c o) cs os
  | _, S, _, _ => S

/-- Only no qubit is one. -/
def allZero (f : ℕ → Bool) : Prop := f = fun _ => false

/-- The calls that may turn one basis state into two. -/
def branching : GCall F → Bool
  | .gate .h _ => true
  | .gate (.rx _) _ => true
  | .gate (.ry _) _ => true
  | .ctrl .h _ _ => true
  | .ctrl (.rx _) _ _ => true
  | .ctrl (.ry _) _ _ => true
  | .exp _ ps _ ts => !(changed ps ts).isEmpty
  | _ => false

end Gen
end Qir
