import Verif.Proof.Deferred
import Verif.Props.Handled

/-!
# Measurements may be deferred (C90)

Gates that depend on the result of a measurement may be replaced by gates controlled by the qubit before it is measured, and
the other way round.  As in C87 and C88 the output stays the same for every seed.
-/

noncomputable section
namespace Qir.Back
open Spec Sim Qir.Out Run MeasureTheory

variable {env : Env} {fmt : Fmt} {p p' : Prog QCall QAns}

/-- **C90**, the ideal device. -/
theorem C90_ideal (h : Deferred p p') (hp : Numbered p) (n : ℕ) (r : ℕ → ℝ) : idealShots p' n r = idealShots p n r :=
  Arr.shots_alike (σ := Equiv.refl ℕ) (fun _ => Arr.alike_deferred h hp (Arr.init_alike _) (finSupp_ket _)) n r

/-- **C90**.  The code writes the same for both programs, shot for shot and for every stream of samples. -/
theorem C90_deferred (he : env.eps = 0) (h : Deferred p p') (hp : Fixed p) (hp' : Fixed p') (n : ℕ) (s s' : Backend)
    (hs : InUnit s.sim.rng) (hr : s'.sim.rng = s.sim.rng) :
    written env fmt p' n s' = written env fmt p n s := by
  rw [hp'.writes he n s' (by rw [hr]; exact hs), hp.writes he n s hs, hr, C90_ideal h hp.numbered]

/-- **C90**, the ideal probabilities. -/
theorem C90_chance (h : Deferred p p') (hp : Numbered p) (S : Set (List Event × Bool)) :
    chance p' blank S = chance p blank S :=
  Arr.chance_deferred h hp S (Arr.init_alike (σ := Equiv.refl ℕ) _) (finSupp_ket _)

/-- The program with the measurement deferred can be carried out if the one without can: only the distinctness of the
operands of the controlled gates has to be seen to, and nobody rotates about Y without controls. -/
theorem C90_fixed {q r : ℕ} {cs : List QCall} {k : Bool → Prog QCall QAns}
    (hc : ∀ c ∈ cs, Controllable c ∧ c.Distinct ∧ q ∉ named c) (hk : ∀ b, Fixed (k b)) :
    Fixed (beforeMeasuring q r cs k) := by
  have hm : Fixed (measuring q r k) := by
    refine ⟨trivial, trivial, trivial, trivial, fun _ => ⟨trivial, trivial, trivial, trivial, fun a => ?_⟩⟩
    cases a <;> first | exact hk _ | trivial
  unfold beforeMeasuring
  induction cs with
  | nil => exact hm
  | cons c cs ih =>
    obtain ⟨h1, h2, h3⟩ := hc c (by simp)
    refine ⟨?_, ?_, ?_, ?_, fun _ => ih fun d hd => hc d (by simp [hd])⟩
    · exact Arr.gate_static (Arr.control_gate h1 q).2
    · cases c <;> first | exact h1.elim | skip
      all_goals simp only [controlledBy, QCall.Distinct, named, List.cons_append, List.nil_append, List.nodup_cons] at *
      all_goals simp_all
    · cases c <;> first | exact h1.elim | trivial
    · cases c <;> first | exact h1.elim | trivial

/-! ### Why the conditions are needed -/

/-- Measure qubit 0, and apply a Hadamard gate to the same qubit if the result is one.  "Controlled by the qubit itself" is
not a gate. -/
example : ¬ (QCall.Distinct (controlledBy 0 (.gate .h 0))) := by simp [controlledBy, QCall.Distinct]

/-! ### A concrete program -/

/-- Toss a coin with qubit 0 and copy the result to qubit 1, once by looking at the result and once by a gate. -/
def copied : Prog QCall QAns := .call (.gate .h 0) fun _ => whenOne 0 0 [.gate .x 1, .r .Z 1 1] fun _ =>
  .call (.mz 1 1) fun _ => report

def copied' : Prog QCall QAns := andThen [.gate .h 0, .ctl .x [0] 1, .rCtl [0] .Z 1 1, .mz 0 0] <|
  .call (.readResult 0) fun
  | .bit _ => .call (.mz 1 1) fun _ => report
  | _ => .done

theorem copied_deferred : Deferred copied copied' :=
  .under _ fun _ => .defer 0 0 (by simp [Controllable, QCall.Distinct, named]) fun _ => .call (.mz 1 1) fun _ => report

theorem report_fixed : Fixed (.call (.mz 1 1) fun _ => report) := by
  simp [report, andThen, Fixed, QCall.Static, QCall.Distinct, QCall.Determined, NoY]

theorem copied_fixed : Fixed copied ∧ Fixed copied' := by
  constructor
  · refine ⟨trivial, trivial, trivial, trivial, fun _ => ⟨trivial, trivial, trivial, trivial, fun _ =>
      ⟨trivial, trivial, trivial, trivial, fun a => ?_⟩⟩⟩
    cases a with
    | bit b =>
      cases b
      · exact report_fixed
      · exact ⟨trivial, trivial, trivial, trivial, fun _ => ⟨trivial, trivial, trivial, trivial, fun _ => report_fixed⟩⟩
    | _ => trivial
  · exact ⟨trivial, trivial, trivial, trivial, fun _ => C90_fixed (q := 0) (r := 0) (cs := [.gate .x 1, .r .Z 1 1])
      (by simp [Controllable, QCall.Distinct, named]) fun _ => report_fixed⟩

example (he : env.eps = 0) (n : ℕ) (s : Backend) (hs : InUnit s.sim.rng) :
    written env fmt copied' n s = written env fmt copied n s :=
  C90_deferred he copied_deferred copied_fixed.1 copied_fixed.2 n s s hs rfl

end Qir.Back

namespace Qir.RBack
open Spec Sim Qir.Out Run Rnd MeasureTheory
open Qir.Back (Backend Fmt streams blank Deferred Numbered)

/-- **C90**, rounded arithmetic: the distributions of the outputs differ by at most the sum of the bounds of C63 for the two
programs. -/
theorem C90_rounded {A : Arith} {N W M N' W' M' : ℕ} {T T' : ℝ} {fmt : Fmt} {p p' : Prog QCall QAns}
    (h : Deferred p p') (hp : Numbered p) (h0 : 0 < A.eps) (h1 : A.eps ≤ 1 / 4) (h2 : 1000 * (A.u + A.eta) ≤ A.eps)
    (hw : Within A N p blank W M T) (hT : A.u * T + A.eta ≤ A.eps)
    (ht : Turnless A fmt p (Backend.new (fun _ => 0) fun _ => 0))
    (hw' : Within A N' p' blank W' M' T') (hT' : A.u * T' + A.eta ≤ A.eps)
    (ht' : Turnless A fmt p' (Backend.new (fun _ => 0) fun _ => 0)) (os os' : ℕ → ℕ) (S : Set (Bytes × Bool)) :
    |streams.real {r | outcome A fmt p (Backend.new r os) ∈ S} -
      streams.real {r | outcome A fmt p' (Backend.new r os') ∈ S}| ≤ gap A N W M + gap A N' W' M' := by
  have e1 := (C63_distance h0 h1 h2 hw hT ht os S).2
  have e2 := (C63_distance h0 h1 h2 hw' hT' ht' os' S).2
  rw [← Back.C90_chance h hp] at e1
  rw [abs_sub_comm] at e2
  exact (abs_sub_le _ _ _).trans (add_le_add e1 e2)

end Qir.RBack
