import Verif.Props.ClassicalDefs

/-!
# Classical circuits

A classical circuit keeps one bit for each qubit.  Here is what it does and answers, and what an arithmetic must satisfy
for the simulator to be exact on it: only facts about zeros and ones.
-/

namespace Qir
namespace Gen

variable {F : Type}

/-- The laws that matter here; IEEE 754 numbers have them, with two zeros (`Z`) and 1 and -1 (`O`). -/
structure Digits (N : Num F) (Z O : F → Prop) : Prop where
  zero : Z N.zero
  one : O N.one
  neg_zero : ∀ x, Z x → Z (N.neg x)
  neg_one : ∀ x, O x → O (N.neg x)
  mul_zz : ∀ x y, Z x → Z y → Z (N.mul x y)
  mul_zo : ∀ x y, Z x → O y → Z (N.mul x y)
  mul_oz : ∀ x y, O x → Z y → Z (N.mul x y)
  mul_oo : ∀ x y, O x → O y → O (N.mul x y)
  add_zz : ∀ x y, Z x → Z y → Z (N.add x y)
  add_zo : ∀ x y, Z x → O y → O (N.add x y)
  add_oz : ∀ x y, O x → Z y → O (N.add x y)
  sub_zz : ∀ x y, Z x → Z y → Z (N.sub x y)
  sub_zo : ∀ x y, Z x → O y → O (N.sub x y)
  sub_oz : ∀ x y, O x → Z y → O (N.sub x y)
  square : ∀ x, O x → N.mul x x = N.one
  one_add : ∀ x, Z x → N.add N.one x = N.one
  add_one : ∀ x, Z x → N.add x N.one = N.one
  one_sub : N.sub N.one N.zero = N.one
  one_sub_one : N.sub N.one N.one = N.zero
  sqrt_one : N.sqrt N.one = N.one
  div_one : N.div N.one N.one = N.one
  tiny : N.nearlyZero N.zero = true
  big : N.nearlyZero N.one = false

/-- An amplitude that is 1, i, -1 or -i. -/
def IsUnit (Z O : F → Prop) (z : Cx F) : Prop := (O z.re ∧ Z z.im) ∨ (Z z.re ∧ O z.im)

/-- The gates of classical circuits: those that move basis states, and phases that are powers of i. -/
def ClassicGate : GGate F → Prop
  | .x => True
  | .y => True
  | .z => True
  | .s => True
  | .sadj => True
  | _ => False

/-- The calls of classical circuits. -/
def ClassicCall : GCall F → Prop
  | .gate g _ => ClassicGate g
  | .ctrl g _ _ => ClassicGate g
  | .phase _ _ _ => False
  | .exp _ _ _ _ => False
  | _ => True

/-- The gates that change a bit. -/
def flipping : GGate F → Bool
  | .x => true
  | .y => true
  | _ => false

/-- The bits after a call. -/
def moved (f : ℕ → Bool) : GCall F → ℕ → Bool
  | .gate g q => if flipping g then toggle [q] f else f
  | .ctrl g cs q => if flipping g = true ∧ ∀ c ∈ cs, f c = true then toggle [q] f else f
  | .swap a b => fun r => if r = a then f b else if r = b then f a else f r
  | .release q => fun r => if r = q then false else f r
  | _ => f

/-- The answer to a call. -/
def Told (N : Num F) (Z O : F → Prop) (L : Finset ℕ) (f : ℕ → Bool) : GCall F → GOut F → Prop
  | .allocate, o => o = .id (leastFree L)
  | .measure q, o => o = .bit (f q)
  | .jointMeasure qs, o => o = .bit (odd qs f)
  | .jointProb qs, o => o = .real (if odd qs f then N.one else N.zero)
  | .isZero q, o => o = .bit (!f q)
  | .collapse v q, o => o = .real (if f q = v then N.one else N.zero)
  | .getState, o => ∃ k z, o = .state [(k, z)] L.card ∧ k < 2 ^ L.card ∧ Index L k f ∧ IsUnit Z O z
  | .dump fmt, o => ∃ k z, o = .text (shown fmt [(k, z)]) ∧ k < 2 ^ L.card ∧ Index L k f ∧ IsUnit Z O z
  | _, o => o = .none

/-- The answers to a history. -/
def Tells (N : Num F) (Z O : F → Prop) : Finset ℕ → (ℕ → Bool) → List (GCall F) → List (GOut F) → Prop
  | _, _, [], os => os = []
  | L, f, c :: cs, os => ∃ o os', os = o :: os' ∧ Told N Z O L f c o ∧ Tells N Z O (liveNext L c) (moved f c) cs os'

/-- Samples between zero (included) and one (excluded). -/
def UnitSamples (N : Num F) (rng : ℕ → F) : Prop := ∀ n, N.lt (rng n) N.one = true ∧ N.lt (rng n) N.zero = false

end Gen
end Qir
