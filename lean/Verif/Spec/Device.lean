import Verif.Spec.Machine
import Verif.Spec.Lines

/-!
# The ideal QIR device

The functions a QIR program can call, with their documented meaning: textbook operators on state vectors,
measurements of Pauli products, a file of result registers, and the records written.  Nothing here refers to the
simulator, to queues or to decompositions of gates.
-/

noncomputable section
namespace Qir.Spec
open Qir.Out

/-- The square root of X. -/
def matSx : Mat2 := mat ((1 + Complex.I) / 2) ((1 - Complex.I) / 2) ((1 - Complex.I) / 2) ((1 + Complex.I) / 2)

/-- The projection onto the eigenspace of a Pauli product, `v` standing for the eigenvalue `-1`. -/
def pauliProj (ps : List (Pauli × ℕ)) (v : Bool) (ψ : Wave) : Wave :=
  (1 / 2 : ℂ) • (ψ + (if v then (-1 : ℂ) else 1) • pauliString ps ψ)

/-- The probability of observing it. -/
def pauliProb (ps : List (Pauli × ℕ)) (v : Bool) (ψ : Wave) : ℝ := normSq (pauliProj ps v ψ)

/-- The state after it has been observed. -/
def pauliPost (ps : List (Pauli × ℕ)) (v : Bool) (ψ : Wave) : Wave :=
  (1 / Real.sqrt (pauliProb ps v ψ) : ℝ) • pauliProj ps v ψ

/-- A call of a library function by a QIR program.  Qubits and results are the numbers their pointers are cast
to; arrays are given by their contents. -/
inductive QCall
  | gate (g : Gate) (q : ℕ)
  | ctl (g : Gate) (cs : List ℕ) (q : ℕ)
  | sx (q : ℕ)
  | rxx (θ : ℝ) (a b : ℕ)
  | ryy (θ : ℝ) (a b : ℕ)
  | rzz (θ : ℝ) (a b : ℕ)
  | r (p : Pauli) (θ : ℝ) (q : ℕ)
  | rAdj (p : Pauli) (θ : ℝ) (q : ℕ)
  | rCtl (cs : List ℕ) (p : Pauli) (θ : ℝ) (q : ℕ)
  | rCtlAdj (cs : List ℕ) (p : Pauli) (θ : ℝ) (q : ℕ)
  | exp (ps : List Pauli) (θ : ℝ) (qs : List ℕ)
  | expAdj (ps : List Pauli) (θ : ℝ) (qs : List ℕ)
  | expCtl (cs : List ℕ) (ps : List Pauli) (θ : ℝ) (qs : List ℕ)
  | expCtlAdj (cs : List ℕ) (ps : List Pauli) (θ : ℝ) (qs : List ℕ)
  | swap (a b : ℕ)
  | reset (q : ℕ)
  | mresetz (q r : ℕ)
  | mz (q r : ℕ)
  | readResult (r : ℕ)
  | writeResult (v : Bool) (r : ℕ)
  | m (q : ℕ)
  | measure (ps : List Pauli) (qs : List ℕ)
  | isZero (q : ℕ)
  | assertProb (ps : List Pauli) (qs : List ℕ) (result : ℕ) (prob : ℝ) (msg : List Char) (tol : ℝ)
  | allocate
  | release (q : ℕ)
  | recordResult (r : ℕ) (tag : Option Bytes)
  | legacyResult (r : ℕ)
  /-- the output functions that do not look at the device -/
  | record (e : Record) (plain : ∀ b t, e ≠ .result b t)
  | legacy (e : Legacy) (plain : ∀ b, e ≠ .result b)
  | fail (msg : List Char)
  | dump (location : Bool)
  | barrier
  | reinit
  | drawInt (min max : ℤ)
  | drawDouble (min max : ℝ)

/-- What comes back. -/
inductive QAns
  | unit
  | bit (b : Bool)
  /-- a pointer: qubit or result -/
  | ptr (n : ℕ)
  | int (n : ℤ)
  | real (x : ℝ)

/-- The ideal device: the qubits in use and a number above all of them, the state vector, the future random
samples, the result registers and whether any has been used. -/
structure Device where
  live : Finset ℕ
  high : ℕ
  psi : Wave
  rng : ℕ → ℝ
  reg : ℕ → Bool
  touched : Bool

/-- The calls whose effect and answer are fixed by the meaning below.  The text of a dump is left open (the
global phase is not determined), and so are the draws, which are not seeded. -/
def QCall.Determined : QCall → Prop
  | .dump _ | .drawInt _ _ | .drawDouble _ _ => False
  | _ => True

/-- The calls that leave the numbering of qubits to the program: no dynamic allocation. -/
def QCall.Static : QCall → Prop
  | .allocate | .release _ => False
  | _ => True

/-- The register a call stores a value in. -/
def QCall.stores : QCall → Option ℕ
  | .mresetz _ n | .mz _ n | .writeResult _ n => some n
  | _ => none

/-- The entries of a Pauli product other than the identity. -/
def support (ps : List Pauli) (qs : List ℕ) : List (Pauli × ℕ) := (ps.zip qs).filter fun p => p.1 ≠ .I

/-- The qubits a call of a program without dynamic allocation uses. -/
def QCall.uses : QCall → List ℕ
  | .gate _ q | .sx q | .reset q | .mresetz q _ | .mz q _ | .m q | .isZero q => [q]
  | .ctl _ cs q => q :: cs
  | .rxx _ a b | .ryy _ a b | .rzz _ a b | .swap a b => [a, b]
  | .r p _ q | .rAdj p _ q => if p = .I then [] else [q]
  | .rCtl cs p _ q | .rCtlAdj cs p _ q => if p = .I ∧ cs = [] then [] else q :: cs
  | .exp _ _ qs | .expAdj _ _ qs => qs
  | .expCtl cs _ _ qs | .expCtlAdj cs _ _ qs => cs ++ qs
  | .measure ps qs | .assertProb ps qs _ _ _ _ => (support ps qs).map Prod.snd
  | _ => []

/-- The operands of a call are distinct (and there are no more Pauli operators than qubits). -/
def QCall.Distinct : QCall → Prop
  | .ctl _ cs q | .rCtl cs _ _ q | .rCtlAdj cs _ _ q => (cs ++ [q]).Nodup
  | .rxx _ a b | .ryy _ a b | .rzz _ a b => a ≠ b
  | .exp ps _ qs | .expAdj ps _ qs => qs.Nodup ∧ ps.length ≤ qs.length
  | .expCtl cs ps _ qs | .expCtlAdj cs ps _ qs => (cs ++ qs).Nodup ∧ ps.length ≤ qs.length
  | .measure ps qs | .assertProb ps qs _ _ _ _ => ((support ps qs).map Prod.snd).Nodup
  | .dump location => location = false
  | _ => True

/-- The number of qubits in use after a call when `n` were in use before: those up to the largest number
used. -/
def QCall.demand (n : ℕ) (c : QCall) : ℕ :=
  match c with
  | .reinit => 0
  | _ => c.uses.foldl (fun n q => max n (q + 1)) n

namespace Device

/-- No qubits, no results. -/
def init (rng : ℕ → ℝ) : Device := ⟨∅, 0, ket zeroBasis, rng, fun _ => false, false⟩

/-- Qubit `q` can be used: it is in use, or qubits are used by number only and `q` is yet to come. -/
def Usable (δ : Device) (q : ℕ) : Prop := q ∈ δ.live ∨ (δ.live = Finset.range δ.high ∧ δ.high ≤ q)

/-- The first use of a qubit brings it, and those with smaller numbers, into use. -/
def use (q : ℕ) (δ : Device) : Device :=
  if q < δ.high then δ else { δ with live := Finset.range (q + 1), high := q + 1 }

/-- The use of several. -/
def useAll (qs : List ℕ) (δ : Device) : Device := qs.foldl (fun δ q => δ.use q) δ

/-- A linear operator on the listed qubits. -/
def apply (qs : List ℕ) (U : Wave → Wave) (δ : Device) : Device :=
  { δ.useAll qs with psi := U δ.psi }

/-- The outcome of measuring a Pauli product: one (eigenvalue `-1`) if the next sample is below its
probability. -/
def outcome (ps : List (Pauli × ℕ)) (δ : Device) : Bool := decide (δ.rng 0 < pauliProb ps true δ.psi)

/-- The state after that. -/
def observed (ps : List (Pauli × ℕ)) (δ : Device) : Device :=
  { δ.useAll (ps.map Prod.snd) with
    psi := pauliPost ps (δ.outcome ps) δ.psi
    rng := fun n => δ.rng (n + 1) }

/-- Turn a qubit with value `v` into zero. -/
def clear (v : Bool) (q : ℕ) (δ : Device) : Device :=
  { δ with psi := if v then ctrl [] matX q δ.psi else δ.psi }

/-- Store a result. -/
def store (r : ℕ) (v : Bool) (δ : Device) : Device :=
  { δ with reg := Function.update δ.reg r v, touched := true }

/-- The smallest number not in use. -/
def fresh (δ : Device) : ℕ := sInf {n | n ∉ δ.live}

/-- The value of a result pointer: a register, or, as long as no register has been used, the pointer
itself. -/
def resultValue (r : ℕ) (δ : Device) : Bool := if δ.touched then δ.reg r else decide (r = 1)

/-- The text of a failed operand check. -/
def sizeText : List Char := "Pauli array and Qubit array must be the same size.".toList

/-- The pointers that stand for measured values. -/
def pointer (b : Bool) : ℕ := if b then 1 else 0

open Classical in
/-- The meaning of a call: what comes back, what is recorded, and the new state; or the message with which the
program ends. -/
def step (δ : Device) : QCall → Except (List Char) (QAns × List Event × Device)
  | .gate g q => .ok (.unit, [], δ.apply [q] (Spec.ctrl [] g.mat q))
  | .ctl g cs q => .ok (.unit, [], δ.apply (q :: cs) (Spec.ctrl cs g.mat q))
  | .sx q => .ok (.unit, [], δ.apply [q] (Spec.ctrl [] matSx q))
  | .rxx θ a b => .ok (.unit, [], δ.apply [a, b] (ctrlExp [] [(.X, a), (.X, b)] (-(θ / 2))))
  | .ryy θ a b => .ok (.unit, [], δ.apply [a, b] (ctrlExp [] [(.Y, a), (.Y, b)] (-(θ / 2))))
  | .rzz θ a b => .ok (.unit, [], δ.apply [a, b] (ctrlExp [] [(.Z, a), (.Z, b)] (-(θ / 2))))
  | .r p θ q => .ok (.unit, [], δ.apply (if p = .I then [] else [q]) (ctrlExp [] [(p, q)] (-(θ / 2))))
  | .rAdj p θ q => .ok (.unit, [], δ.apply (if p = .I then [] else [q]) (ctrlExp [] [(p, q)] (θ / 2)))
  | .rCtl cs p θ q =>
    .ok (.unit, [], δ.apply (if p = .I ∧ cs = [] then [] else q :: cs) (ctrlExp cs [(p, q)] (-(θ / 2))))
  | .rCtlAdj cs p θ q =>
    .ok (.unit, [], δ.apply (if p = .I ∧ cs = [] then [] else q :: cs) (ctrlExp cs [(p, q)] (θ / 2)))
  | .exp ps θ qs => .ok (.unit, [], δ.apply qs (ctrlExp [] (ps.zip qs) θ))
  | .expAdj ps θ qs => .ok (.unit, [], δ.apply qs (ctrlExp [] (ps.zip qs) (-θ)))
  | .expCtl cs ps θ qs => .ok (.unit, [], δ.apply (cs ++ qs) (ctrlExp cs (ps.zip qs) θ))
  | .expCtlAdj cs ps θ qs => .ok (.unit, [], δ.apply (cs ++ qs) (ctrlExp cs (ps.zip qs) (-θ)))
  | .swap a b => .ok (.unit, [], δ.apply [a, b] (swapQubits a b))
  | .reset q => .ok (.unit, [], (δ.observed [(.Z, q)]).clear (δ.outcome [(.Z, q)]) q)
  | .mresetz q r => .ok (.unit, [],
      ((δ.observed [(.Z, q)]).clear (δ.outcome [(.Z, q)]) q).store r (δ.outcome [(.Z, q)]))
  | .mz q r => .ok (.unit, [], (δ.observed [(.Z, q)]).store r (δ.outcome [(.Z, q)]))
  | .readResult r => .ok (.bit (δ.reg r), [], { δ with touched := true })
  | .writeResult v r => .ok (.unit, [], δ.store r v)
  | .m q => .ok (.ptr (pointer (δ.outcome [(.Z, q)])), [], δ.observed [(.Z, q)])
  | .measure ps qs =>
    if ps.length = qs.length then
      .ok (.ptr (pointer (δ.outcome (support ps qs))), [], δ.observed (support ps qs))
    else .error sizeText
  | .isZero q => .ok (.bit (decide (pauliProb [(.Z, q)] true δ.psi = 0)), [], δ.use q)
  | .assertProb ps qs result prob msg tol =>
    if ps.length = qs.length then
      if |pauliProb (support ps qs) (decide (result ≠ 0)) δ.psi - prob| ≤ tol then
        .ok (.unit, [], δ.useAll ((support ps qs).map Prod.snd))
      else .error msg
    else .error sizeText
  | .allocate => .ok (.ptr δ.fresh, [],
      { δ with live := insert δ.fresh δ.live, high := max δ.high (δ.fresh + 1) })
  | .release q =>
    if δ.live = {q} then .ok (.unit, [], { δ with live := ∅, psi := ket zeroBasis })
    else .ok (.unit, [], { (δ.observed [(.Z, q)]).clear (δ.outcome [(.Z, q)]) q with live := δ.live.erase q })
  | .recordResult r tag => .ok (.unit, [.record (.result (δ.resultValue r) tag)], δ)
  | .legacyResult r => .ok (.unit, [.legacy (.result (δ.resultValue r))], δ)
  | .record e _ => .ok (.unit, [.record e], δ)
  | .legacy e _ => .ok (.unit, [.legacy e], δ)
  | .fail msg => .error msg
  | .dump _ => .ok (.unit, [], δ)
  | .barrier => .ok (.unit, [], δ)
  | .reinit => .ok (.unit, [], init δ.rng)
  | .drawInt _ _ => .ok (.unit, [], δ)
  | .drawDouble _ _ => .ok (.unit, [], δ)

/-- Which calls make sense: operands can be used and are distinct; a dump has no location. -/
def Valid (δ : Device) : QCall → Prop
  | .gate _ q | .sx q | .reset q | .mresetz q _ | .mz q _ | .m q | .isZero q => δ.Usable q
  | .ctl _ cs q => (cs ++ [q]).Nodup ∧ ∀ i ∈ cs ++ [q], δ.Usable i
  | .rxx _ a b | .ryy _ a b | .rzz _ a b => a ≠ b ∧ δ.Usable a ∧ δ.Usable b
  | .r p _ q | .rAdj p _ q => p = .I ∨ δ.Usable q
  | .rCtl cs _ _ q | .rCtlAdj cs _ _ q => (cs ++ [q]).Nodup ∧ ∀ i ∈ cs ++ [q], δ.Usable i
  | .exp ps _ qs | .expAdj ps _ qs => qs.Nodup ∧ (∀ i ∈ qs, δ.Usable i) ∧ ps.length ≤ qs.length
  | .expCtl cs ps _ qs | .expCtlAdj cs ps _ qs =>
    (cs ++ qs).Nodup ∧ (∀ i ∈ cs ++ qs, δ.Usable i) ∧ ps.length ≤ qs.length
  | .swap a b => δ.Usable a ∧ δ.Usable b
  | .measure ps qs | .assertProb ps qs _ _ _ _ =>
    ((support ps qs).map Prod.snd).Nodup ∧ ∀ i ∈ (support ps qs).map Prod.snd, δ.Usable i
  | .release q => q ∈ δ.live
  | .dump location => location = false
  | _ => True

/-- A list of calls in a row: the answers and what is recorded. -/
def run (δ : Device) : List QCall → Except (List Char) (List QAns × List Event × Device)
  | [] => .ok ([], [], δ)
  | c :: cs => do
    let (a, es, δ) ← δ.step c
    let (as, es', δ) ← run δ cs
    return (a :: as, es ++ es', δ)

/-- Every call of the list makes sense when its turn comes. -/
def ValidRun (δ : Device) : List QCall → Prop
  | [] => True
  | c :: cs => δ.Valid c ∧ ∀ a es δ', δ.step c = .ok (a, es, δ') → ValidRun δ' cs

end Device

end Qir.Spec
