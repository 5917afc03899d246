import Verif.Props.ChanceDefs

/-!
# Results with and without registers: what the property theorems talk about

Two devices on which the value of a result is what one expects: on the first a result is a register, on the second it is the
pointer that a measurement returned.
-/

noncomputable section
namespace Qir.Back
open Spec Run Qir.Out

/-- A device on which the output of a result is the value of its register. -/
def registerStep (δ : Device) : QCall → Except (List Char) (QAns × List Event × Device)
  | .recordResult r tag => .ok (.unit, [.record (.result (δ.reg r) tag)], δ)
  | .legacyResult r => .ok (.unit, [.legacy (.result (δ.reg r))], δ)
  | c => δ.step c

/-- A device on which the output of a result is what was measured when the pointer was returned. -/
def pointerStep (δ : Device) : QCall → Except (List Char) (QAns × List Event × Device)
  | .recordResult r tag => .ok (.unit, [.record (.result (decide (r = Device.pointer true)) tag)], δ)
  | .legacyResult r => .ok (.unit, [.legacy (.result (decide (r = Device.pointer true)))], δ)
  | c => δ.step c

/-- What a program records on such a device, and the state it leaves. -/
def runOn (step : Device → QCall → Except (List Char) (QAns × List Event × Device)) :
    Prog QCall QAns → Device → Except (List Event) (List Event × Device)
  | .done, δ => .ok ([], δ)
  | .call c k, δ => match step δ c with
    | .error msg => .error [.record (.message msg)]
    | .ok (a, es, δ) => match runOn step (k a) δ with
      | .error es' => .error (es ++ es')
      | .ok (es', δ) => .ok (es ++ es', δ)

/-- Several shots, each on a new device; the samples are taken from one stream. -/
def shotsOn (step : Device → QCall → Except (List Char) (QAns × List Event × Device)) (p : Prog QCall QAns) :
    ℕ → (ℕ → ℝ) → Except (List (List Event) × List Event) (List (List Event))
  | 0, _ => .ok []
  | n + 1, rng => match runOn step p (Device.init rng) with
    | .error es => .error ([], es)
    | .ok (es, δ) => match shotsOn step p n δ.rng with
      | .error (ess, es') => .error (es :: ess, es')
      | .ok ess => .ok (es :: ess)

open Classical in
/-- The probability that what a program records on such a device, together with whether it ends well, is in `S` (see
`chance`). -/
def chanceOn (step : Device → QCall → Except (List Char) (QAns × List Event × Device)) :
    Prog QCall QAns → Device → Set (List Event × Bool) → ℝ
  | .done, _, S => if ([], true) ∈ S then 1 else 0
  | .call c k, δ, S => match measures δ c with
    | some ps => pauliProb ps true δ.psi * chanceOn step (k (finding true δ c).1) (finding true δ c).2 S +
        pauliProb ps false δ.psi * chanceOn step (k (finding false δ c).1) (finding false δ c).2 S
    | none => match step δ c with
      | .error m => if ([.record (.message m)], false) ∈ S then 1 else 0
      | .ok (a, es, δ') => chanceOn step (k a) δ' {o | (es ++ o.1, o.2) ∈ S}

/-- The calls that use a register. -/
def usesRegister : QCall → Bool
  | .mz _ _ | .mresetz _ _ | .readResult _ | .writeResult _ _ => true
  | _ => false

/-- Whether a register has been used, after a call. -/
def usedAfter (used : Bool) : QCall → Bool
  | .reinit => false
  | c => used || usesRegister c

/-- The output of result 1 comes after the first use of some register. -/
def Ordered : Bool → Prog QCall QAns → Prop
  | _, .done => True
  | used, .call c k => ((∃ t, c = .recordResult 1 t) ∨ c = .legacyResult 1 → used = true) ∧
      ∀ a, Ordered (usedAfter used c) (k a)

/-- The program uses no registers. -/
def Registerless : Prog QCall QAns → Prop
  | .done => True
  | .call c k => usesRegister c = false ∧ ∀ a, Registerless (k a)

/-- Write zero to a register whenever the program initialises the device. -/
def primedAgain : Prog QCall QAns → Prog QCall QAns
  | .done => .done
  | .call .reinit k => .call .reinit fun a => .call (.writeResult false 0) fun _ => primedAgain (k a)
  | .call c k => .call c fun a => primedAgain (k a)

/-- And before anything else. -/
def primed (p : Prog QCall QAns) : Prog QCall QAns := .call (.writeResult false 0) fun _ => primedAgain p

end Qir.Back
