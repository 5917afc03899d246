import Verif.Props.ReversibleDefs
import Mathlib.Data.Finset.Sort

/-!
# Classical circuits with their one amplitude

A machine with one bit for each qubit and one amplitude, a number of the arithmetic.  Only gates change the amplitude, each by
at most one multiplication.  What it answers is a function of the history.
-/

namespace Qir
namespace Gen

variable {F : Type}

/-- The amplitude after a gate on a qubit with bit `b`: Y multiplies by i or -i, and Z, S and its adjoint multiply by their
phase if the bit is one, and by 1 otherwise. -/
def spun (N : Num F) (b : Bool) (z : Cx F) : GGate F → Cx F
  | .y => N.mulC z (if b then N.negC N.iC else N.iC)
  | .z => N.mulC z (if b then N.negC N.oneC else N.oneC)
  | .s => N.mulC z (if b then N.iC else N.oneC)
  | .sadj => N.mulC z (if b then N.negC N.iC else N.oneC)
  | _ => z

/-- The amplitude after a call.  Releasing the last qubit starts afresh. -/
def grown (N : Num F) (L : Finset ℕ) (f : ℕ → Bool) (z : Cx F) : GCall F → Cx F
  | .gate g q => spun N (f q) z g
  | .ctrl g cs q => if ∀ c ∈ cs, f c = true then spun N (f q) z g else z
  | .release _ => if L.card = 1 then N.oneC else z
  | _ => z

/-- The bits as a number, the qubit with the least identifier first. -/
def number (f : ℕ → Bool) : List ℕ → ℕ
  | [] => 0
  | q :: qs => (if f q then 1 else 0) + 2 * number f qs

/-- The index of the basis state. -/
def indexOf (L : Finset ℕ) (f : ℕ → Bool) : ℕ := number f (L.sort (· ≤ ·))

/-- The answer to a call. -/
def answer (N : Num F) (L : Finset ℕ) (f : ℕ → Bool) (z : Cx F) : GCall F → GOut F
  | .allocate => .id (leastFree L)
  | .measure q => .bit (f q)
  | .jointMeasure qs => .bit (odd qs f)
  | .jointProb qs => .real (if odd qs f then N.one else N.zero)
  | .isZero q => .bit (!f q)
  | .collapse v q => .real (if f q = v then N.one else N.zero)
  | .getState => .state [(indexOf L f, z)] L.card
  | .dump fmt => .text (shown fmt [(indexOf L f, z)])
  | _ => .none

/-- The answers to a history. -/
def answers (N : Num F) (L : Finset ℕ) (f : ℕ → Bool) (z : Cx F) : List (GCall F) → List (GOut F)
  | [] => []
  | c :: cs => answer N L f z c :: answers N (liveNext L c) (moved f c) (grown N L f z c) cs

/-- Multiplication by 1 keeps zeros and ones, with their signs. -/
def Keeps (N : Num F) (Z O : F → Prop) : Prop := ∀ x, Z x ∨ O x → N.mul x N.one = x

/-! ### The phase as a power of i -/

/-- What an arithmetic must satisfy for the power of i to be counted: `x` and `-x` for ones. -/
structure Signs (N : Num F) (Z : F → Prop) : Prop where
  neg_neg : N.neg (N.neg N.one) = N.one
  mul_one : ∀ x, x = N.one ∨ x = N.neg N.one → N.mul x N.one = x
  mul_neg : ∀ x, x = N.one ∨ x = N.neg N.one → N.mul x (N.neg N.one) = N.neg x
  add_zero : ∀ x z, x = N.one ∨ x = N.neg N.one → Z z → N.add x z = x
  zero_add : ∀ x z, x = N.one ∨ x = N.neg N.one → Z z → N.add z x = x
  sub_zero : ∀ x z, x = N.one ∨ x = N.neg N.one → Z z → N.sub x z = x
  zero_sub : ∀ x z, x = N.one ∨ x = N.neg N.one → Z z → N.sub z x = N.neg x

/-- The amplitude is the `p`-th power of i, up to the signs of zeros. -/
def Power (N : Num F) (Z : F → Prop) (p : ZMod 4) (z : Cx F) : Prop :=
  (p = 0 ∧ z.re = N.one ∧ Z z.im) ∨ (p = 1 ∧ Z z.re ∧ z.im = N.one) ∨ (p = 2 ∧ z.re = N.neg N.one ∧ Z z.im) ∨
    (p = 3 ∧ Z z.re ∧ z.im = N.neg N.one)

/-- The quarter turns of a gate on a bit. -/
def turn (b : Bool) : GGate F → ZMod 4
  | .y => if b then 3 else 1
  | .z => if b then 2 else 0
  | .s => if b then 1 else 0
  | .sadj => if b then 3 else 0
  | _ => 0

/-- The quarter turns after a call. -/
def turned (L : Finset ℕ) (f : ℕ → Bool) (p : ZMod 4) : GCall F → ZMod 4
  | .gate g q => p + turn (f q) g
  | .ctrl g cs q => if ∀ c ∈ cs, f c = true then p + turn (f q) g else p
  | .release _ => if L.card = 1 then 0 else p
  | _ => p

/-- Qubits in use, bits, amplitude and quarter turns after a history. -/
def ending (N : Num F) : List (GCall F) → Finset ℕ × (ℕ → Bool) × Cx F × ZMod 4 → Finset ℕ × (ℕ → Bool) × Cx F × ZMod 4
  | [], st => st
  | c :: cs, (L, f, z, p) => ending N cs (liveNext L c, moved f c, grown N L f z c, turned L f p c)

end Gen
end Qir
