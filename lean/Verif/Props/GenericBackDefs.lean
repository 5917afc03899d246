import Verif.Model.GenericBackend
import Verif.Props.GenericDefs
import Verif.Spec.Lines

/-!
# What a program may do and see, with no word about numbers

The ledger of a program: qubits in use, result registers, samples and random words to come.  What a call answers and writes
follows from the ledger and from the numbers the simulator happens to compute (`Open`), of which nothing is said.
-/

namespace Qir
namespace Gen
open Spec (Pauli)
open Qir.Out

variable {F : Type}

/-- The ledger: the qubits in use, a number above all of them, the samples to come, the result registers, how many of them
there are, and the unseeded random words to come. -/
structure Ledger (F : Type) where
  live : Finset ℕ
  high : ℕ
  rng : ℕ → F
  reg : ℕ → Bool
  size : ℕ
  os : ℕ → ℕ

/-- What is left open: a number (the computed probability of a measurement), and the entries a dump lists. -/
structure Open (F : Type) where
  number : F
  entries : List (ℕ × Cx F)

/-- The entries of a Pauli product other than the identity. -/
def support (ps : List Pauli) (qs : List ℕ) : List (Pauli × ℕ) := (ps.zip qs).filter fun p => p.1 ≠ .I

namespace Ledger

/-- No qubits, no results. -/
def init (rng : ℕ → F) (os : ℕ → ℕ) : Ledger F := ⟨∅, 0, rng, fun _ => false, 0, os⟩

/-- Qubit `q` can be used: it is in use, or qubits are used by number only and `q` is yet to come. -/
def Usable (δ : Ledger F) (q : ℕ) : Prop := q ∈ δ.live ∨ (δ.live = Finset.range δ.high ∧ δ.high ≤ q)

/-- The first use of a qubit brings it, and those with smaller numbers, into use. -/
def use (q : ℕ) (δ : Ledger F) : Ledger F :=
  if q < δ.high then δ else { δ with live := Finset.range (q + 1), high := q + 1 }

/-- The use of several. -/
def useAll (qs : List ℕ) (δ : Ledger F) : Ledger F := qs.foldl (fun δ q => δ.use q) δ

/-- A sample is drawn. -/
def draw (δ : Ledger F) : Ledger F := { δ with rng := fun n => δ.rng (n + 1) }

/-- Two random words are taken. -/
def words (δ : Ledger F) : Ledger F := { δ with os := fun n => δ.os (n + 2) }

/-- Register `r` is looked at: there are now at least `r + 1`. -/
def touch (r : ℕ) (δ : Ledger F) : Ledger F := { δ with size := max δ.size (r + 1) }

/-- Store a result. -/
def store (r : ℕ) (v : Bool) (δ : Ledger F) : Ledger F := { δ.touch r with reg := Function.update δ.reg r v }

/-- The value of a result pointer: a register, or, as long as there is none, the pointer itself. -/
def resultValue (r : ℕ) (δ : Ledger F) : Bool := if δ.size = 0 then decide (r = 1) else δ.reg r

/-- Recording a result looks at the register, if there are any. -/
def recorded (r : ℕ) (δ : Ledger F) : Ledger F := if δ.size = 0 then δ else δ.touch r

/-- The outcome of a measurement: one if the next sample is below the computed probability. -/
def outcome (N : Num F) (o : Open F) (δ : Ledger F) : Bool := N.lt (δ.rng 0) o.number

/-- The text of a failed operand check. -/
def sizeText : List Char := "Pauli array and Qubit array must be the same size.".toList

/-- The text of a draw from nothing. -/
def boundsText : List Char := "Invalid Argument: minimum > maximum".toList

/-- The pointers that stand for measured values. -/
def pointer (b : Bool) : ℕ := if b then 1 else 0

/-- What a call answers, what it writes and the ledger afterwards; or the message with which it ends the program. -/
def step (N : Num F) (lib : Lib F) (o : Open F) (δ : Ledger F) : GQCall F → Except (List Char) (GAns F × Bytes × Ledger F)
  | .gate _ q | .sx q => .ok (.unit, [], δ.use q)
  | .ctl _ cs q => .ok (.unit, [], δ.useAll (q :: cs))
  | .rxx _ a b | .ryy _ a b | .rzz _ a b | .swap a b => .ok (.unit, [], δ.useAll [a, b])
  | .r p _ q | .rAdj p _ q => .ok (.unit, [], if p = .I then δ else δ.use q)
  | .rCtl cs p _ q | .rCtlAdj cs p _ q => .ok (.unit, [], if p = .I ∧ cs = [] then δ else δ.useAll (q :: cs))
  | .exp _ _ qs | .expAdj _ _ qs => .ok (.unit, [], δ.useAll qs)
  | .expCtl cs _ _ qs | .expCtlAdj cs _ _ qs => .ok (.unit, [], δ.useAll (cs ++ qs))
  | .reset q => .ok (.unit, [], (δ.use q).draw)
  | .mresetz q r | .mz q r => .ok (.unit, [], (δ.use q).draw.store r (δ.outcome N o))
  | .readResult r => .ok (.bit (δ.reg r), [], δ.touch r)
  | .writeResult v r => .ok (.unit, [], δ.store r v)
  | .m q => .ok (.ptr (pointer (δ.outcome N o)), [], (δ.use q).draw)
  | .measure ps qs =>
    if ps.length = qs.length then
      .ok (.ptr (pointer (δ.outcome N o)), [], (δ.useAll ((support ps qs).map Prod.snd)).draw)
    else .error sizeText
  | .isZero q => .ok (.bit (N.nearlyZero o.number), [], δ.use q)
  | .assertProb ps qs result prob msg tol =>
    if ps.length = qs.length then
      if N.lt tol (lib.abs (N.sub (if result = 0 then N.sub N.one o.number else o.number) prob)) then .error msg
      else .ok (.unit, [], δ.useAll ((support ps qs).map Prod.snd))
    else .error sizeText
  | .allocate =>
    .ok (.ptr (leastFree δ.live), [],
      { δ with live := insert (leastFree δ.live) δ.live, high := max δ.high (leastFree δ.live + 1) })
  | .release q =>
    .ok (.unit, [], if δ.live = {q} then { δ with live := ∅ } else { δ.draw with live := δ.live.erase q })
  | .recordResult r tag => .ok (.unit, lines [.record (.result (δ.resultValue r) tag)], δ.recorded r)
  | .legacyResult r => .ok (.unit, lines [.legacy (.result (δ.resultValue r))], δ.recorded r)
  | .record e _ => .ok (.unit, lines [.record e], δ)
  | .legacy e _ => .ok (.unit, lines [.legacy e], δ)
  | .fail msg => .error msg
  | .dump _ => .ok (.unit,
      (if δ.size = 0 then [] else Run.utf8 "Global Results: " ++ lib.bits ((List.range δ.size).map δ.reg) ++ [10]) ++
        Run.utf8 (shown lib.amplitude o.entries), δ)
  | .barrier => .ok (.unit, [], δ)
  | .reinit => .ok (.unit, [], init δ.rng δ.os)
  | .drawInt min max =>
    match Std.drawRandomInt min max (δ.os 0) (δ.os 1) with
    | .ok n => .ok (.int n, [], δ.words)
    | .error _ => .error boundsText
  | .drawDouble min max =>
    if N.lt max min then .error boundsText
    else match lib.uniform min max (δ.os 0) with
      | some x => .ok (.real x, [], δ.words)
      | none => .error []

/-- The calls that make sense: operands can be used and are distinct, a dump has no location, and a number can be drawn
between the bounds. -/
def Allows (N : Num F) (lib : Lib F) (δ : Ledger F) : GQCall F → Prop
  | .gate _ q | .sx q | .reset q | .mresetz q _ | .mz q _ | .m q | .isZero q => δ.Usable q
  | .ctl _ cs q | .rCtl cs _ _ q | .rCtlAdj cs _ _ q => (cs ++ [q]).Nodup ∧ ∀ i ∈ cs ++ [q], δ.Usable i
  | .rxx _ a b | .ryy _ a b | .rzz _ a b => a ≠ b ∧ δ.Usable a ∧ δ.Usable b
  | .r p _ q | .rAdj p _ q => p = .I ∨ δ.Usable q
  | .exp ps _ qs | .expAdj ps _ qs => qs.Nodup ∧ (∀ i ∈ qs, δ.Usable i) ∧ ps.length ≤ qs.length
  | .expCtl cs ps _ qs | .expCtlAdj cs ps _ qs =>
    (cs ++ qs).Nodup ∧ (∀ i ∈ cs ++ qs, δ.Usable i) ∧ ps.length ≤ qs.length
  | .swap a b => δ.Usable a ∧ δ.Usable b
  | .measure ps qs | .assertProb ps qs _ _ _ _ =>
    ((support ps qs).map Prod.snd).Nodup ∧ ∀ i ∈ (support ps qs).map Prod.snd, δ.Usable i
  | .release q => q ∈ δ.live
  | .dump location => location = false
  | .drawDouble min max => N.lt max min = false → ∀ w, lib.uniform min max w ≠ none
  | _ => True

end Ledger

/-- What a program may write from a ledger, and the ledger it leaves, or `none` if it ends with a message, which is then
the last line. -/
def Writes (N : Num F) (lib : Lib F) : Run.Prog (GQCall F) (GAns F) → Ledger F → Bytes → Option (Ledger F) → Prop
  | .done, δ, out, e => out = [] ∧ e = some δ
  | .call c k, δ, out, e => ∃ o : Open F, Ascending δ.live.card o.entries ∧
    match δ.step N lib o c with
    | .error msg => out = lines [.record (.message msg)] ∧ e = none
    | .ok (a, now, δ') => ∃ later, out = now ++ later ∧ Writes N lib (k a) δ' later e

/-- Every call the program makes is allowed, whatever it has been told before. -/
def Proper (N : Num F) (lib : Lib F) : Run.Prog (GQCall F) (GAns F) → Ledger F → Prop
  | .done, _ => True
  | .call c k, δ => δ.Allows N lib c ∧ ∀ o a out δ', δ.step N lib o c = .ok (a, out, δ') → Proper N lib (k a) δ'

/-- What `n` shots may write, shot by shot, and what a failing shot after them writes.  Each shot starts with no qubits and
no results and goes on with the samples and words. -/
def WritesShots (N : Num F) (lib : Lib F) (p : Run.Prog (GQCall F) (GAns F)) :
    ℕ → (ℕ → F) → (ℕ → ℕ) → List Bytes → Option Bytes → Prop
  | 0, _, _, outs, e => outs = [] ∧ e = none
  | n + 1, rng, os, outs, e =>
    (∃ out, Writes N lib p (.init rng os) out none ∧ outs = [] ∧ e = some out) ∨
    ∃ out δ outs', Writes N lib p (.init rng os) out (some δ) ∧ WritesShots N lib p n δ.rng δ.os outs' e ∧
      outs = out :: outs'

/-- The backend of which the ledger is kept. -/
structure Kept (δ : Ledger F) (s : GBackend F) : Prop where
  sim : Sound δ.live s.sim
  rng : s.sim.rng = δ.rng
  os : s.os = δ.os
  high : s.max = δ.high
  below : ∀ q ∈ δ.live, q < δ.high
  size : s.res.length = δ.size
  reg : ∀ r, s.res.getD r false = δ.reg r

end Gen
end Qir
