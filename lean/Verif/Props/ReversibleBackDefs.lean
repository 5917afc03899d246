import Verif.Props.AmplitudeDefs
import Verif.Props.GenericBackDefs

/-!
# Classical programs

A machine with one bit for each qubit, one for each result, and one amplitude, which nothing but a dump looks at.  It
knows no samples or probabilities, and what it prints is a function of the program.
-/

namespace Qir
namespace Gen
open Spec (Pauli)
open Qir.Out

variable {F : Type}

/-- The machine: the qubits in use, a number above all of them, their bits, the amplitude, the result registers and how many
there are. -/
structure Bits (F : Type) where
  live : Finset ℕ
  high : ℕ
  bit : ℕ → Bool
  amp : Cx F
  reg : ℕ → Bool
  size : ℕ

namespace Bits

/-- No qubits, no results. -/
def init (N : Num F) : Bits F := ⟨∅, 0, fun _ => false, N.oneC, fun _ => false, 0⟩

/-- Qubit `q` can be used: it is in use, or qubits are used by number only and `q` is yet to come. -/
def Usable (m : Bits F) (q : ℕ) : Prop := q ∈ m.live ∨ (m.live = Finset.range m.high ∧ m.high ≤ q)

/-- The first use of a qubit brings it, and those with smaller numbers, into use. -/
def use (q : ℕ) (m : Bits F) : Bits F :=
  if q < m.high then m else { m with live := Finset.range (q + 1), high := q + 1 }

/-- The use of several. -/
def useAll (qs : List ℕ) (m : Bits F) : Bits F := qs.foldl (fun m q => m.use q) m

/-- Set a bit. -/
def put (q : ℕ) (v : Bool) (m : Bits F) : Bits F := { m with bit := Function.update m.bit q v }

/-- Set the amplitude. -/
def turn (z : Cx F) (m : Bits F) : Bits F := { m with amp := z }

/-- Register `r` is looked at: there are now at least `r + 1`. -/
def touch (r : ℕ) (m : Bits F) : Bits F := { m with size := max m.size (r + 1) }

/-- Store a result. -/
def store (r : ℕ) (v : Bool) (m : Bits F) : Bits F :=
  { m with size := max m.size (r + 1), reg := Function.update m.reg r v }

/-- The value of a result pointer: a register, or, as long as there is none, the pointer itself. -/
def resultValue (r : ℕ) (m : Bits F) : Bool := if m.size = 0 then decide (r = 1) else m.reg r

/-- Recording a result looks at the register, if there are any. -/
def recorded (r : ℕ) (m : Bits F) : Bits F := if m.size = 0 then m else m.touch r

/-- The qubits of a Pauli product that are looked at. -/
def operands (ps : List Pauli) (qs : List ℕ) : List ℕ := (support ps qs).map Prod.snd

/-- What a call answers, what it writes and the machine afterwards; or the message with which it ends the program.
Calls that are not classical are not described. -/
def step (N : Num F) (lib : Lib F) (m : Bits F) : GQCall F → Except (List Char) (GAns F × Bytes × Bits F)
  | .gate g q =>
    .ok (.unit, [], (if flipping g then (m.use q).put q (!m.bit q) else m.use q).turn (spun N (m.bit q) m.amp g))
  | .ctl g cs q =>
    .ok (.unit, [],
      if cs.all m.bit then
        (if flipping g then (m.useAll (q :: cs)).put q (!m.bit q) else m.useAll (q :: cs)).turn (spun N (m.bit q) m.amp g)
      else m.useAll (q :: cs))
  | .swap a b => .ok (.unit, [], ((m.useAll [a, b]).put b (m.bit a)).put a (m.bit b))
  | .reset q => .ok (.unit, [], (m.use q).put q false)
  | .mresetz q r => .ok (.unit, [], ((m.use q).put q false).store r (m.bit q))
  | .mz q r => .ok (.unit, [], (m.use q).store r (m.bit q))
  | .readResult r => .ok (.bit (m.reg r), [], m.touch r)
  | .writeResult v r => .ok (.unit, [], m.store r v)
  | .m q => .ok (.ptr (if m.bit q then 1 else 0), [], m.use q)
  | .measure ps qs =>
    if ps.length = qs.length then
      .ok (.ptr (if odd (operands ps qs) m.bit then 1 else 0), [], m.useAll (operands ps qs))
    else .error "Pauli array and Qubit array must be the same size.".toList
  | .isZero q => .ok (.bit (!m.bit q), [], m.use q)
  | .assertProb ps qs result prob msg tol =>
    if ps.length = qs.length then
      if N.lt tol (lib.abs (N.sub (if odd (operands ps qs) m.bit = decide (result ≠ 0) then N.one else N.zero) prob)) then
        .error msg
      else .ok (.unit, [], m.useAll (operands ps qs))
    else .error "Pauli array and Qubit array must be the same size.".toList
  | .allocate =>
    .ok (.ptr (leastFree m.live), [],
      { m with live := insert (leastFree m.live) m.live, high := max m.high (leastFree m.live + 1) })
  | .release q =>
    .ok (.unit, [], { m.put q false with live := m.live.erase q, amp := if m.live.card = 1 then N.oneC else m.amp })
  | .recordResult r tag => .ok (.unit, lines [.record (.result (m.resultValue r) tag)], m.recorded r)
  | .legacyResult r => .ok (.unit, lines [.legacy (.result (m.resultValue r))], m.recorded r)
  | .record e _ => .ok (.unit, lines [.record e], m)
  | .legacy e _ => .ok (.unit, lines [.legacy e], m)
  | .fail msg => .error msg
  | .dump _ => .ok (.unit,
      (if m.size = 0 then [] else Run.utf8 "Global Results: " ++ lib.bits ((List.range m.size).map m.reg) ++ [10]) ++
        Run.utf8 (shown lib.amplitude [(indexOf m.live m.bit, m.amp)]), m)
  | .reinit => .ok (.unit, [], init N)
  | _ => .ok (.unit, [], m)

/-- The classical calls that make sense: no gates but those of classical circuits, measurements of bits and parities only,
no draws; operands can be used and are distinct, and a dump has no location. -/
def Allows (m : Bits F) : GQCall F → Prop
  | .gate g q => ClassicGate g ∧ m.Usable q
  | .ctl g cs q => ClassicGate g ∧ (cs ++ [q]).Nodup ∧ ∀ i ∈ cs ++ [q], m.Usable i
  | .r p _ _ | .rAdj p _ _ => p = .I
  | .swap a b => m.Usable a ∧ m.Usable b
  | .reset q | .mresetz q _ | .mz q _ | .m q | .isZero q => m.Usable q
  | .measure ps qs | .assertProb ps qs _ _ _ _ =>
    (∀ p ∈ ps, p = .I ∨ p = .Z) ∧ (operands ps qs).Nodup ∧ ∀ i ∈ operands ps qs, m.Usable i
  | .release q => q ∈ m.live
  | .dump location => location = false
  | .readResult _ | .writeResult _ _ | .allocate | .recordResult _ _ | .legacyResult _ | .record _ _ | .legacy _ _ | .fail _
  | .barrier | .reinit => True
  | _ => False

/-- Every call the program makes on its one course is classical and makes sense. -/
def Fits (N : Num F) (lib : Lib F) : Run.Prog (GQCall F) (GAns F) → Bits F → Prop
  | .done, _ => True
  | .call c k, m => m.Allows c ∧ ∀ a out m', m.step N lib c = .ok (a, out, m') → Fits N lib (k a) m'

/-- What the program writes, and the machine it leaves, or `none` if it ends with a message, which is then the last line. -/
def run (N : Num F) (lib : Lib F) : Run.Prog (GQCall F) (GAns F) → Bits F → Bytes × Option (Bits F)
  | .done, m => ([], some m)
  | .call c k, m =>
    match m.step N lib c with
    | .error msg => (lines [.record (.message msg)], none)
    | .ok (a, now, m') => (now ++ (run N lib (k a) m').1, (run N lib (k a) m').2)

end Bits
end Gen
end Qir
