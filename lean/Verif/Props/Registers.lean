import Verif.Proof.Registers
import Verif.Props.Rewrite
import Verif.Props.Texts

/-!
# The values of results in whole programs (C94)

A result is a register if any register has been used, and otherwise the pointer itself (finding F5).  So the output of a
result may depend on calls about other results (finding F30, C86).  This says when the output is what one expects, and that
writing zero to a register first is a way around.
-/

noncomputable section
namespace Qir.Back
open Spec Sim Qir.Out Run MeasureTheory

variable {env : Env} {fmt : Fmt} {p : Prog QCall QAns}

/-- The lines written by the shots on a device. -/
def linesOn (x : Except (List (List Event) × List Event) (List (List Event))) : Except (List Bytes × Bytes) (List Bytes) :=
  match x with
  | .ok ess => .ok (ess.map lines)
  | .error (ess, es) => .error (ess.map lines, lines es)

/-- **C94**, registers: a program that uses some register before it outputs result 1 writes for every output the value of the
register, shot for shot. -/
theorem C94_registers (he : env.eps = 0) (ho : Ordered false p) (hm : ∀ r, InUnit r → Meaningful p (Device.init r))
    (hn : ∀ (r : ℕ → ℝ) (os : ℕ → ℕ), InUnit r → NoTurn env fmt p (Backend.new r os)) (n : ℕ) (s : Backend)
    (hs : InUnit s.sim.rng) : written env fmt p n s = linesOn (shotsOn registerStep p n s.sim.rng) := by
  rw [written_ideal he hm hn n s hs, Regs.shotsOn_ideal,
    Regs.shots_same (s' := registerStep) (p' := p) (fun r => by rw [Regs.runOn_ordered p (Regs.unused_init r) ho])]
  rfl

/-- **C94**, results that are not registers: a program that uses no register writes for every output what was measured when
the result was returned. -/
theorem C94_pointers (he : env.eps = 0) (ho : Registerless p) (hm : ∀ r, InUnit r → Meaningful p (Device.init r))
    (hn : ∀ (r : ℕ → ℝ) (os : ℕ → ℕ), InUnit r → NoTurn env fmt p (Backend.new r os)) (n : ℕ) (s : Backend)
    (hs : InUnit s.sim.rng) : written env fmt p n s = linesOn (shotsOn pointerStep p n s.sim.rng) := by
  rw [written_ideal he hm hn n s hs, Regs.shotsOn_ideal,
    Regs.shots_same (s' := pointerStep) (p' := p) (fun r => by rw [Regs.runOn_registerless p rfl ho])]
  rfl

/-- **C94**, the way around F5 and F30: any program writes the values of the registers, in whatever order it uses and outputs
them, if it writes zero to register 0 first. -/
theorem C94_primed (he : env.eps = 0) (hm : ∀ r, InUnit r → Meaningful p (Device.init r)) (hy : NoYProg p) (n : ℕ)
    (s : Backend) (hs : InUnit s.sim.rng) :
    written env fmt (primed p) n s = linesOn (shotsOn registerStep p n s.sim.rng) := by
  rw [C94_registers he (Regs.primed_ordered p) (fun r hr => Regs.primed_meaningful (hm r hr))
    (fun _ _ _ => (Regs.primed_noY hy).noTurn _) n s hs, Regs.primed_shots]

/-- **C94**, and this changes nothing for programs that do the right thing already. -/
theorem C94_unchanged (he : env.eps = 0) (ho : Ordered false p) (hm : ∀ r, InUnit r → Meaningful p (Device.init r))
    (hy : NoYProg p) (n : ℕ) (s s' : Backend) (hs : InUnit s.sim.rng) (hr : s'.sim.rng = s.sim.rng) :
    written env fmt (primed p) n s' = written env fmt p n s := by
  rw [C94_primed he hm hy n s' (by rw [hr]; exact hs), C94_registers he ho hm (fun _ _ _ => hy.noTurn _) n s hs, hr]

/-! ### Examples, and why the conditions are needed -/

/-- The entangled pair measures before it outputs. -/
example (he : env.eps = 0) (n : ℕ) (s : Backend) (hs : InUnit s.sim.rng) :
    written env fmt pair n s = linesOn (shotsOn registerStep pair n s.sim.rng) := by
  refine C94_registers he ?_ (fun _ _ => pair_fixed.meaningful rfl) (fun _ _ _ => pair_fixed.noY.noTurn _) n s hs
  simp [pair, report, andThen, Ordered, usedAfter, usesRegister]

/-- The program of C88 uses no register. -/
example (he : env.eps = 0) (n : ℕ) (s : Backend) (hs : InUnit s.sim.rng) :
    written env fmt turnOtherwise n s = linesOn (shotsOn pointerStep turnOtherwise n s.sim.rng) := by
  refine C94_pointers he ?_ (fun _ _ => turn_fixed.meaningful rfl) (fun _ _ _ => turn_fixed.noY.noTurn _) n s hs
  refine ⟨rfl, fun _ => ⟨rfl, fun _ => ⟨rfl, fun _ => ⟨rfl, fun _ => ⟨rfl, fun a => ?_⟩⟩⟩⟩⟩
  cases a <;> first | exact ⟨rfl, fun _ => trivial⟩ | trivial

/-- **C94**, the program of F30, which outputs result 1 before it uses any register: the code writes 1, although the register
is zero, and 0 if register 0 is written first. -/
theorem C94_early (he : env.eps = 0) (s : Backend) (hs : InUnit s.sim.rng) :
    ¬ Ordered false recordThenMeasure ∧
    written env fmt recordThenMeasure 1 s = .ok [bitLine true] ∧
    written env fmt (primed recordThenMeasure) 1 s = .ok [bitLine false] := by
  refine ⟨fun h => by simpa using h.1 (.inl ⟨none, rfl⟩), ?_, ?_⟩
  · rw [result_fixed.2.writes he 1 s hs]
    simp only [idealShots, idealRun, recordThenMeasure, Device.step, Device.resultValue, Device.init, Bool.false_eq_true,
      if_false, decide_true, List.append_nil, List.map_cons, List.map_nil, coin_lines]
  · rw [C94_primed he (fun _ _ => result_fixed.2.meaningful rfl) result_fixed.2.noY 1 s hs]
    simp only [linesOn, shotsOn, runOn, recordThenMeasure, registerStep, Device.step, Device.init, List.append_nil,
      List.map_cons, List.map_nil, coin_lines]

/-- Flip a qubit and measure it; use a register; output what was measured. -/
def mixedResults : Prog QCall QAns := andThen [.gate .x 0] <| .call (.m 0) fun
  | .ptr n => .call (.writeResult false 0) fun _ => .call (.recordResult n none) fun _ => .done
  | _ => .done

theorem mixed_fixed : Fixed mixedResults := by
  refine ⟨trivial, trivial, trivial, trivial, fun _ => ⟨trivial, trivial, trivial, trivial, fun a => ?_⟩⟩
  cases a <;> first | exact ⟨trivial, trivial, trivial, trivial, fun _ => ⟨trivial, trivial, trivial, trivial, fun _ => trivial⟩⟩ | trivial

/-- **C94**, the two kinds of results do not mix: the qubit is measured as one and the code writes 0. -/
theorem C94_mixed (he : env.eps = 0) (s : Backend) (hs : InUnit s.sim.rng) :
    written env fmt mixedResults 1 s = .ok [bitLine false] ∧
    linesOn (shotsOn pointerStep mixedResults 1 s.sim.rng) = .ok [bitLine true] := by
  classical
  have hp : pauliProb [(.Z, 0)] true (Spec.ctrl [] matX 0 (ket zeroBasis)) = 1 := by
    rw [pauliProb_Z, prob_flip]
    unfold prob
    rw [finsum_eq_single _ zeroBasis (fun b hb => by simp [ket, hb])]
    simp [ket, parity, zeroBasis]
  have ho : ((Device.init s.sim.rng).apply [0] (Spec.ctrl [] Gate.x.mat 0)).outcome [(.Z, 0)] = true := by
    show decide (s.sim.rng 0 < pauliProb [(.Z, 0)] true (Spec.ctrl [] matX 0 (ket zeroBasis))) = true
    rw [hp]
    exact decide_eq_true (hs 0).2
  constructor
  · rw [C94_registers he (by
      refine ⟨by simp, fun _ => ⟨by simp, fun a => ?_⟩⟩
      cases a <;> simp [Ordered, usedAfter, usesRegister]) (fun _ _ => mixed_fixed.meaningful rfl)
      (fun _ _ _ => mixed_fixed.noY.noTurn _) 1 s hs]
    simp only [linesOn, shotsOn, runOn, mixedResults, andThen, registerStep, Device.step, ho]
    show Except.ok [lines [.record (.result false none)]] = _
    rw [coin_lines]
  · simp only [linesOn, shotsOn, runOn, mixedResults, andThen, pointerStep, Device.step, ho]
    show Except.ok [lines [.record (.result true none)]] = _
    rw [coin_lines]

/-- Toss a coin with one qubit and output the result that comes back. -/
def tossed : Prog QCall QAns := andThen [.gate .h 0] <| .call (.m 0) fun
  | .ptr n => .call (.recordResult n none) fun _ => .done
  | _ => .done

theorem tossed_fixed : Fixed tossed := by
  refine ⟨trivial, trivial, trivial, trivial, fun _ => ⟨trivial, trivial, trivial, trivial, fun a => ?_⟩⟩
  cases a <;> first | exact ⟨trivial, trivial, trivial, trivial, fun _ => trivial⟩ | trivial

theorem tossed_registerless : Registerless tossed := by
  refine ⟨rfl, fun _ => ⟨rfl, fun a => ?_⟩⟩
  cases a <;> first | exact ⟨rfl, fun _ => trivial⟩ | trivial

/-- What is written is what was measured. -/
example (he : env.eps = 0) (s : Backend) (hs : InUnit s.sim.rng) : written env fmt tossed 1 s =
    .ok [bitLine (((Device.init s.sim.rng).apply [0] (Spec.ctrl [] Gate.h.mat 0)).outcome [(.Z, 0)])] := by
  rw [C94_pointers he tossed_registerless (fun _ _ => tossed_fixed.meaningful rfl) (fun _ _ _ => tossed_fixed.noY.noTurn _) 1
    s hs]
  simp only [linesOn, shotsOn, runOn, tossed, andThen, pointerStep, Device.step]
  cases ((Device.init s.sim.rng).apply [0] (Spec.ctrl [] Gate.h.mat 0)).outcome [(.Z, 0)]
  · show Except.ok [lines [.record (.result false none)]] = _
    rw [coin_lines]
  · show Except.ok [lines [.record (.result true none)]] = _
    rw [coin_lines]

end Qir.Back
