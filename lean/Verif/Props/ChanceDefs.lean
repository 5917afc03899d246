import Verif.Props.SessionDefs
import Mathlib.Probability.ProductMeasure
import Mathlib.MeasureTheory.Measure.Lebesgue.Basic

/-!
# What the property theorems about probabilities talk about

The probability with which a program writes something, by the rule for single measurements: a measurement of a Pauli
product finds `v` with probability `pauliProb`, and leaves the normalised projection.  Nothing here mentions samples.
-/

noncomputable section
namespace Qir.Back
open Spec Sim Qir.Out Run MeasureTheory

/-- The Pauli product a call measures, if it measures at all.  The release of the only qubit does not. -/
def measures (δ : Device) : QCall → Option (List (Pauli × ℕ))
  | .reset q | .mresetz q _ | .mz q _ | .m q => some [(.Z, q)]
  | .measure ps qs => if ps.length = qs.length then some (support ps qs) else none
  | .release q => if δ.live = {q} then none else some [(.Z, q)]
  | _ => none

/-- The device after `v` has been found. -/
def found (ps : List (Pauli × ℕ)) (v : Bool) (δ : Device) : Device :=
  { δ.useAll (ps.map Prod.snd) with psi := pauliPost ps v δ.psi }

/-- The answer of a measuring call that finds `v`, and the device after it. -/
def finding (v : Bool) (δ : Device) : QCall → QAns × Device
  | .reset q => (.unit, (found [(.Z, q)] v δ).clear v q)
  | .mresetz q r => (.unit, ((found [(.Z, q)] v δ).clear v q).store r v)
  | .mz q r => (.unit, (found [(.Z, q)] v δ).store r v)
  | .m q => (.ptr (Device.pointer v), found [(.Z, q)] v δ)
  | .measure ps qs => (.ptr (Device.pointer v), found (support ps qs) v δ)
  | .release q => (.unit, { (found [(.Z, q)] v δ).clear v q with live := δ.live.erase q })
  | _ => (.unit, δ)

open Classical in
/-- The probability that what a program records, together with whether it ends well, is in `S`.  A program that fails
records its message last. -/
def chance : Prog QCall QAns → Device → Set (List Event × Bool) → ℝ
  | .done, _, S => if ([], true) ∈ S then 1 else 0
  | .call c k, δ, S => match measures δ c with
    | some ps => pauliProb ps true δ.psi * chance (k (finding true δ c).1) (finding true δ c).2 S +
        pauliProb ps false δ.psi * chance (k (finding false δ c).1) (finding false δ c).2 S
    | none => match δ.step c with
      | .error m => if ([.record (.message m)], false) ∈ S then 1 else 0
      | .ok (a, es, δ') => chance (k a) δ' {o | (es ++ o.1, o.2) ∈ S}

/-- The program ends well and records something in `T`. -/
def records (T : Set (List Event)) : Set (List Event × Bool) := {o | o.1 ∈ T ∧ o.2 = true}

/-- The program fails, and what it has recorded up to then, with the message, is in `T`. -/
def failsWith (T : Set (List Event)) : Set (List Event × Bool) := {o | o.1 ∈ T ∧ o.2 = false}

/-- A device nothing has been done to. -/
def blank : Device := Device.init fun _ => 0

/-- The samples are in the unit interval, which almost all streams of uniform samples are. -/
def InUnit (r : ℕ → ℝ) : Prop := ∀ i, 0 ≤ r i ∧ r i < 1

/-- The uniform distribution on the unit interval. -/
def uniform : Measure ℝ := volume.restrict (Set.Ico 0 1)

instance : IsProbabilityMeasure uniform := ⟨by simp [uniform]⟩

/-- The distribution of a stream of independent uniform samples. -/
def streams : Measure (ℕ → ℝ) := Measure.infinitePi fun _ => uniform

instance : IsProbabilityMeasure streams := by unfold streams; infer_instance

end Qir.Back
