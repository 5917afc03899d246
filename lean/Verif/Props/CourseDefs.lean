import Verif.Props.ClassicalDefs
import Verif.Props.OutcomeDefs
import Verif.Props.GenericBackDefs

/-!
# The courses that a program may take

The ledger of `Props/GenericBackDefs` leaves open the numbers that the simulator computes.  Here they are restrained by the
basis states that are possible at the time, as in `Props/ClassicalDefs`.  No amplitudes are involved.
-/

namespace Qir
namespace Gen
open Spec (Pauli)
open Qir.Out

variable {F : Type}

/-- Different on the listed qubits at most. -/
def Off (qs : List ℕ) (f g : ℕ → Bool) : Prop := ∀ q, q ∉ qs → g q = f q

/-- The qubits on which a Pauli product is X or Y. -/
def flipped (ps : List Pauli) (qs : List ℕ) : List ℕ := ((ps.zip qs).filter fun p => p.1 = .X ∨ p.1 = .Y).map Prod.snd

/-- The qubits on which a Pauli product is not the identity. -/
def involved (ps : List Pauli) (qs : List ℕ) : List ℕ := (support ps qs).map Prod.snd

/-- What a gate of the library may make of a basis state. -/
def Leads (f g : ℕ → Bool) : GQCall F → Prop
  | .gate a q => Acts q f g a
  | .ctl a cs q => if ∀ c ∈ cs, f c = true then Acts q f g a else g = f
  | .sx q => Off [q] f g
  | .rxx _ a b | .ryy _ a b => Off [a, b] f g
  | .r p _ q | .rAdj p _ q => if p = .X ∨ p = .Y then Off [q] f g else g = f
  | .rCtl cs p _ q | .rCtlAdj cs p _ q => if (p = .X ∨ p = .Y) ∧ ∀ c ∈ cs, f c = true then Off [q] f g else g = f
  | .exp ps _ qs | .expAdj ps _ qs => g = f ∨ g = toggle (flipped ps qs) f
  | .expCtl cs ps _ qs | .expCtlAdj cs ps _ qs =>
    g = f ∨ ((∀ c ∈ cs, f c = true) ∧ g = toggle (flipped ps qs) f)
  | .swap a b => g a = f b ∧ g b = f a ∧ ∀ q, q ≠ a → q ≠ b → g q = f q
  | _ => g = f

/-- The basis states that are possible after a call, if those in `S` were before, the qubits in `L` were in use and the
outcome of the measurement, if the call is one, was `b`. -/
def next (L : Finset ℕ) (S : (ℕ → Bool) → Prop) (b : Bool) (g : ℕ → Bool) : GQCall F → Prop
  | .reset q | .mresetz q _ => ∃ f, S f ∧ f q = b ∧ g = Function.update f q false
  | .mz q _ | .m q => S g ∧ g q = b
  | .measure ps qs => ∃ f h, S f ∧ Off (flipped ps qs) f h ∧ odd (involved ps qs) h = b ∧ Off (flipped ps qs) h g
  | .assertProb ps qs _ _ _ _ => ∃ f, S f ∧ Off (flipped ps qs) f g
  | .release q => if L = {q} then allZero g else ∃ f, S f ∧ g = Function.update f q false
  | .reinit => allZero g
  | c => ∃ f, S f ∧ Leads f g c

/-- The numbers that the simulator computes have a reason: the outcome of a measurement is one, or its probability not
zero, only if some possible basis state agrees, and a dump lists possible basis states. -/
def Backed (N : Num F) (δ : Ledger F) (S : (ℕ → Bool) → Prop) (o : Open F) : GQCall F → Prop
  | .reset q | .mresetz q _ | .mz q _ | .m q => δ.outcome N o = true → ∃ f, S f ∧ f q = true
  | .measure ps qs => δ.outcome N o = true → ∃ f h, S f ∧ Off (flipped ps qs) f h ∧ odd (involved ps qs) h = true
  | .isZero q => o.number = N.zero ∨ ∃ f, S f ∧ f q = true
  | .assertProb ps qs _ _ _ _ =>
    o.number = N.zero ∨ ∃ f h, S f ∧ Off (flipped ps qs) f h ∧ odd (involved ps qs) h = true
  | .dump _ => ∀ e ∈ o.entries, ∃ f, S f ∧ Index δ.live e.1 f
  | _ => True

/-- A course of a program: what it writes, and the ledger and the possible basis states it leaves, or `none` if it ends with
a message, which is then the last line. -/
def Course (N : Num F) (lib : Lib F) : Run.Prog (GQCall F) (GAns F) → Ledger F → ((ℕ → Bool) → Prop) → Bytes →
    Option (Ledger F × ((ℕ → Bool) → Prop)) → Prop
  | .done, δ, S, out, e => out = [] ∧ e = some (δ, S)
  | .call c k, δ, S, out, e => ∃ o : Open F, Ascending δ.live.card o.entries ∧ Backed N δ S o c ∧
    match δ.step N lib o c with
    | .error msg => out = lines [.record (.message msg)] ∧ e = none
    | .ok (a, now, δ') => ∃ later, out = now ++ later ∧
      Course N lib (k a) δ' (fun g => next δ.live S (δ.outcome N o) g c) later e

/-- A course of `n` shots: what they write, shot by shot, and what a failing shot after them writes. -/
def Courses (N : Num F) (lib : Lib F) (p : Run.Prog (GQCall F) (GAns F)) :
    ℕ → (ℕ → F) → (ℕ → ℕ) → List Bytes → Option Bytes → Prop
  | 0, _, _, outs, e => outs = [] ∧ e = none
  | n + 1, rng, os, outs, e =>
    (∃ out, Course N lib p (.init rng os) allZero out none ∧ outs = [] ∧ e = some out) ∨
    ∃ out δ S outs', Course N lib p (.init rng os) allZero out (some (δ, S)) ∧ Courses N lib p n δ.rng δ.os outs' e ∧
      outs = out :: outs'

end Gen
end Qir
