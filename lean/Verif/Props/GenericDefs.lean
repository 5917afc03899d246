import Verif.Model.Generic
import Mathlib.Data.Finset.Card
import Mathlib.Data.Finset.Lattice.Basic
import Mathlib.Data.Fintype.EquivFin

/-!
# What a client may ask and what is kept, with no word about numbers

The book keeping of qubits: a set of numbers in use, and how many random samples have been drawn.
-/

namespace Qir
namespace Gen

variable {F : Type}

/-- The smallest number not in use. -/
def leastFree (L : Finset ℕ) : ℕ := Nat.find (Infinite.exists_notMem_finset L)

/-- The calls whose operands are qubits in use, none of them named twice. -/
def Allowed (L : Finset ℕ) : GCall F → Prop
  | .gate _ q => q ∈ L
  | .ctrl _ cs q => (cs ++ [q]).Nodup ∧ ∀ i ∈ cs ++ [q], i ∈ L
  | .phase cs _ q => (cs ++ [q]).Nodup ∧ ∀ i ∈ cs ++ [q], i ∈ L
  | .exp cs ps _ ts => (cs ++ ts).Nodup ∧ (∀ i ∈ cs ++ ts, i ∈ L) ∧ ps.length ≤ ts.length
  | .swap a b => a ∈ L ∧ b ∈ L
  | .allocate => True
  | .release q => q ∈ L
  | .measure q => q ∈ L
  | .jointMeasure qs => qs.Nodup ∧ ∀ i ∈ qs, i ∈ L
  | .jointProb qs => qs.Nodup ∧ ∀ i ∈ qs, i ∈ L
  | .isZero q => q ∈ L
  | .collapse _ q => q ∈ L
  | .getState => True
  | .dump _ => True

/-- The qubits in use after a call. -/
def liveNext (L : Finset ℕ) : GCall F → Finset ℕ
  | .allocate => insert (leastFree L) L
  | .release q => L.erase q
  | _ => L

/-- The number of random samples a call draws: one for each measurement, and one for each release but the last. -/
def drawn (L : Finset ℕ) : GCall F → ℕ
  | .measure _ => 1
  | .jointMeasure _ => 1
  | .release _ => if L.card = 1 then 0 else 1
  | _ => 0

/-- Indices in strictly increasing order, all below `2 ^ n`. -/
def Ascending (n : ℕ) (l : List (ℕ × Cx F)) : Prop := l.Pairwise (fun a b => a.1 < b.1) ∧ ∀ e ∈ l, e.1 < 2 ^ n

/-- The text for a list of entries. -/
def shown (fmt : Cx F → String) (l : List (ℕ × Cx F)) : String :=
  "STATE: [ " ++ String.join (l.map fun e => "|" ++ toString e.1 ++ "⟩: " ++ fmt e.2 ++ ", ") ++ "]\n"

/-- What a call may answer: everything but the numbers and the outcomes of measurements is determined, and an outcome
is the comparison of the next sample with some number. -/
def Answer (N : Num F) (L : Finset ℕ) (sample : F) : GCall F → GOut F → Prop
  | .allocate, o => o = .id (leastFree L)
  | .measure _, o => ∃ p, o = .bit (N.lt sample p)
  | .jointMeasure _, o => ∃ p, o = .bit (N.lt sample p)
  | .jointProb _, o => ∃ p, o = .real p
  | .isZero _, o => ∃ p, o = .bit (N.nearlyZero p)
  | .collapse _ _, o => ∃ p, o = .real p
  | .getState, o => ∃ l, o = .state l L.card ∧ Ascending L.card l
  | .dump fmt, o => ∃ l, o = .text (shown fmt l) ∧ Ascending L.card l
  | _, o => o = .none

/-- Every call of the history is allowed when it is made. -/
def Valid : Finset ℕ → List (GCall F) → Prop
  | _, [] => True
  | L, c :: cs => Allowed L c ∧ Valid (liveNext L c) cs

/-- The qubits in use after a history. -/
def liveAfter (L : Finset ℕ) (cs : List (GCall F)) : Finset ℕ := cs.foldl liveNext L

/-- The number of samples drawn by a history. -/
def drawnBy : Finset ℕ → List (GCall F) → ℕ
  | _, [] => 0
  | L, c :: cs => drawn L c + drawnBy (liveNext L c) cs

/-- The answers to a history, with the samples `r`. -/
def Answers (N : Num F) : Finset ℕ → (ℕ → F) → List (GCall F) → List (GOut F) → Prop
  | _, _, [], os => os = []
  | L, r, c :: cs, os => ∃ o os', os = o :: os' ∧ Answer N L (r 0) c o ∧
      Answers N (liveNext L c) (fun n => r (n + drawn L c)) cs os'

/-- What is kept inside the simulator. -/
structure Sound (L : Finset ℕ) (s : GSim F) : Prop where
  /-- the identifiers in use are those of the client -/
  ids : ∀ q, (s.idMap.get q).isSome = true ↔ q ∈ L
  /-- no two of them share a location -/
  apart : ∀ i j l, s.idMap.get i = some l → s.idMap.get j = some l → i = j
  /-- no index is stored twice -/
  distinct : (s.state.map Prod.fst).Nodup
  /-- a bit is one only at the location of a qubit in use -/
  placed : ∀ e ∈ s.state, ∀ l, e.1.testBit l = true → ∃ q ∈ L, s.idMap.get q = some l
  /-- the queue of operations is bounded -/
  room : s.opQ.length ≤ QUEUE_LIMIT
  /-- queued operations name qubits in use, each once -/
  named : ∀ op ∈ s.opQ, (op.1 ++ [op.2.1]).Nodup ∧ ∀ i ∈ op.1 ++ [op.2.1], i ∈ L
  /-- gates are pending on qubits in use only -/
  pending : ∀ q, s.hFlag.testBit q = true ∨ (s.rxQ.get q).isSome = true ∨ (s.ryQ.get q).isSome = true → q ∈ L

/-- The simulator holds what a new one holds, but for identifiers and samples. -/
structure AsNew (N : Num F) (s : GSim F) : Prop where
  state : s.state = [(0, N.oneC)]
  ids : ∀ q, s.idMap.get q = none
  ops : s.opQ = []
  flags : s.hFlag = 0
  rx : s.rxQ = IMap.empty
  ry : s.ryQ = IMap.empty

/-- The laws of IEEE 754 for a not-a-number that matter here.  `f64::max` and `f64::min` ignore a not-a-number. -/
structure IsNaN (N : Num F) (nan : F) : Prop where
  max : N.max nan N.zero = N.zero
  min : N.min N.zero nan = N.zero
  /-- `0.0 - 0.0 <= 1e-10` -/
  tiny : N.le (N.sub N.zero N.zero) N.eps = true
  add : ∀ x, N.add nan x = nan
  sub : ∀ x, N.sub nan x = nan
  mul : ∀ x, N.mul nan x = nan
  mul' : ∀ x, N.mul x nan = nan
  div : ∀ x, N.div nan x = nan
  cos : N.cos nan = nan
  sin : N.sin nan = nan

end Gen
end Qir
