import Verif.Proof.Known
import Verif.Props.Deferred

/-!
# Circuits may be simplified by what is known about the qubits (C91)

A qubit is zero before its first use and after a reset, and stays so while it is only a control or measured.  Circuits that
agree as long as those qubits are zero may replace each other.  One consequence is that teleporting the state of a qubit is
the same as exchanging two qubits and tossing two coins.  As in C87, C88 and C90 the output stays the same for every seed.
-/

noncomputable section
namespace Qir.Back
open Spec Sim Qir.Out Run MeasureTheory

variable {env : Env} {fmt : Fmt} {p p' : Prog QCall QAns}

/-- **C91**, the ideal device. -/
theorem C91_ideal (h : Folded Set.univ p p') (hp : Numbered p) (n : ℕ) (r : ℕ → ℝ) : idealShots p' n r = idealShots p n r :=
  Arr.shots_alike (σ := Equiv.refl ℕ)
    (fun _ => Arr.alike_folded h hp (Arr.init_alike _) (finSupp_ket _) Arr.zeroOn_ket) n r

/-- **C91**.  The code writes the same for both programs, shot for shot and for every stream of samples. -/
theorem C91_known (he : env.eps = 0) (h : Folded Set.univ p p') (hp : Fixed p) (hp' : Fixed p') (n : ℕ) (s s' : Backend)
    (hs : InUnit s.sim.rng) (hr : s'.sim.rng = s.sim.rng) :
    written env fmt p' n s' = written env fmt p n s := by
  rw [hp'.writes he n s' (by rw [hr]; exact hs), hp.writes he n s hs, hr, C91_ideal h hp.numbered]

/-- **C91**, the ideal probabilities. -/
theorem C91_chance (h : Folded Set.univ p p') (hp : Numbered p) (S : Set (List Event × Bool)) :
    chance p' blank S = chance p blank S :=
  Arr.chance_folded h hp S (Arr.init_alike (σ := Equiv.refl ℕ) _) (finSupp_ket _) Arr.zeroOn_ket

/-! ### Circuits that are equal as long as some qubits are zero -/

variable {Z : Set ℕ} {q : ℕ}

/-- A gate controlled by a qubit that is zero may be left out. -/
theorem C91_control {c : QCall} (hc : Controllable c) (hn : q ∉ named c) (hq : q ∈ Z) :
    SameCircuitOn Z [controlledBy q c] [] := by
  refine ⟨by simpa using (Arr.control_gate hc q).2, by simp, 1, norm_one, fun ψ hz => ?_⟩
  rw [Arr.effect_eq (by simp), Arr.effect_eq (by simpa using (Arr.control_gate hc q).2), one_smul]
  have h0 : gateL ones q ψ = 0 := by
    funext b
    rw [ones_apply]
    split
    · rename_i hb
      by_contra h0
      rw [hz b h0 q hq] at hb
      cases hb
    · rfl
  have hk := LinearMap.congr_fun (Arr.ones_turning hc hn) ψ
  show ψ = Arr.turning (controlledBy q c) ψ
  rw [Arr.turning_control hc]
  simp only [LinearMap.add_apply, Module.End.mul_apply, LinearMap.sub_apply, Module.End.one_apply, map_sub] at hk ⊢
  rw [hk, h0]
  simp

/-- If the qubit has been turned to one, the control may be left out. -/
theorem C91_turned {c : QCall} (hc : Controllable c) (hn : q ∉ named c) (hq : q ∈ Z) :
    SameCircuitOn Z [.gate .x q, controlledBy q c] [.gate .x q, c] := by
  have hl : ∀ d ∈ [QCall.gate .x q, controlledBy q c], IsGate d := by
    simpa [IsGate] using (Arr.control_gate hc q).2
  have hr : ∀ d ∈ [QCall.gate .x q, c], IsGate d := by
    simpa [IsGate] using (Arr.control_gate hc q).1
  refine ⟨hl, hr, 1, norm_one, fun ψ hz => ?_⟩
  rw [Arr.effect_eq hl, Arr.effect_eq hr, one_smul]
  show Arr.turning c (Spec.ctrl [] matX q ψ) = Arr.turning (controlledBy q c) (Spec.ctrl [] matX q ψ)
  have h1 : gateL ones q (Spec.ctrl [] matX q ψ) = Spec.ctrl [] matX q ψ := by
    funext b
    rw [ones_apply]
    split
    · rfl
    · rename_i hb
      by_contra h0
      have h2 : Spec.ctrl [] matX q ψ b = ψ (Function.update b q true) := by
        simp [Spec.ctrl, matX, mat, hb]
      rw [h2] at h0
      have := hz _ (Ne.symm h0) q hq
      simp at this
  generalize Spec.ctrl [] matX q ψ = φ at h1 ⊢
  have hk := LinearMap.congr_fun (Arr.ones_turning hc hn) φ
  rw [Arr.turning_control hc]
  simp only [LinearMap.add_apply, Module.End.mul_apply, LinearMap.sub_apply, Module.End.one_apply, map_sub] at hk ⊢
  rw [hk, h1]
  simp

/-- A diagonal gate on a qubit that is zero may be left out. -/
theorem C91_diagonal (g : Gate) (h0 : g.mat true false = 0) (h1 : ‖g.mat false false‖ = 1) (hq : q ∈ Z) :
    SameCircuitOn Z [] [.gate g q] := by
  have hg : ∀ d ∈ [QCall.gate g q], IsGate d := by simp [IsGate]
  refine ⟨by simp, hg, g.mat false false, h1, fun ψ hz => ?_⟩
  rw [Arr.effect_eq hg, Arr.effect_eq (cs := []) (by simp)]
  show Spec.ctrl [] g.mat q ψ = g.mat false false • ψ
  have hu : ∀ b : Basis, ψ (Function.update b q true) = 0 := by
    intro b
    by_contra h
    have := hz _ h q hq
    simp at this
  funext b
  unfold Spec.ctrl
  rw [if_pos (by simp), hu, Pi.smul_apply, smul_eq_mul]
  cases hb : b q
  · rw [show Function.update b q false = b by rw [← hb, Function.update_eq_self]]
    simp
  · rw [h0, show ψ b = 0 by rw [← hu b, ← hb, Function.update_eq_self]]
    simp

/-! ### Teleportation -/

/-- Teleport the state of qubit `a` to qubit `c` with the help of qubit `b`, and go on. -/
def teleport (a b c ra rb : ℕ) (k : Bool → Bool → Prog QCall QAns) : Prog QCall QAns :=
  afterCircuit [.gate .h b, .ctl .x [b] c, .ctl .x [a] b, .gate .h a] <|
    whenOne b rb [.gate .x c] fun y => whenOne a ra [.gate .z c] (k y)

/-- Exchange the qubits `a` and `c`, toss a coin with each of the others, and go on. -/
def exchange (a b c ra rb : ℕ) (k : Bool → Bool → Prog QCall QAns) : Prog QCall QAns :=
  afterCircuit [.swap a c, .gate .h a, .gate .h b] <| measuring b rb fun y => measuring a ra (k y)

/-- **C91**, teleportation: given that `b` and `c` are zero, the same as an exchange of `a` and `c`, whatever follows. -/
theorem C91_teleport {a b c : ℕ} (hab : a ≠ b) (hac : a ≠ c) (hbc : b ≠ c) (hb : b ∈ Z) (hc : c ∈ Z) (ra rb : ℕ)
    (k : Bool → Bool → Prog QCall QAns) : Folded Z (teleport a b c ra rb k) (exchange a b c ra rb k) := by
  have hd : Folded Z (teleport a b c ra rb k)
      (afterCircuit [.gate .h b, .ctl .x [b] c, .ctl .x [a] b, .gate .h a, .ctl .x [b] c] <|
        measuring b rb fun y => afterCircuit [.ctl .z [a] c] (measuring a ra (k y))) := by
    refine .defer (.under _ fun _ => .under _ fun _ => .under _ fun _ => .under _ fun _ => .trans
      (p' := whenOne b rb [.gate .x c] fun y => beforeMeasuring a ra [.gate .z c] (k y)) ?_ ?_)
    · refine .under _ fun _ => .under _ fun x => ?_
      cases x with
      | bit y => cases y <;> first
        | exact .defer a ra (by simp [Controllable, QCall.Distinct, named, hac]) _
        | exact .under _ fun _ => .defer a ra (by simp [Controllable, QCall.Distinct, named, hac]) _
      | _ => exact .rewrite (.refl _)
    · exact .defer b rb (by simp [Controllable, QCall.Distinct, named, hbc]) _
  refine hd.trans (.trans (p' := afterCircuit [.gate .h b, .ctl .x [b] c, .ctl .x [a] b, .gate .h a, .ctl .x [b] c] <|
    afterCircuit [.ctl .z [a] c] (measuring b rb fun y => measuring a ra (k y))) ?_ ?_)
  · refine .under _ fun _ => .under _ fun _ => .under _ fun _ => .under _ fun _ => .under _ fun _ => .symm ?_
    exact .pass b rb (by simp [IsGate, QCall.Distinct, QCall.uses, hac, hab.symm, hbc]) _
  · exact .circuit (Arr.teleport_circuit hab hac hbc hb hc) _

/-- Gates do not touch qubits that are not their targets. -/
theorem Folded.after {cs : List QCall} {Y : Set ℕ} (hc : ∀ d ∈ cs, IsGate d ∧ ∀ q ∈ Y, q ∉ targets d) :
    ∀ {Z : Set ℕ}, Y ⊆ Z → (∀ Z, Y ⊆ Z → Folded Z p p') → Folded Z (afterCircuit cs p) (afterCircuit cs p') := by
  induction cs with
  | nil => exact fun hZ h => h _ hZ
  | cons d cs ih =>
    intro Z hZ h
    refine .under d fun _ => ih (fun e he => hc e (by simp [he])) (fun q hq => ?_) h
    obtain ⟨h1, h2⟩ := hc d (by simp)
    cases d <;> first | exact h1.elim | exact ⟨hZ hq, h2 q hq⟩

theorem measuring_fixed {r : ℕ} {k : Bool → Prog QCall QAns} (hk : ∀ b, Fixed (k b)) : Fixed (measuring q r k) := by
  refine ⟨trivial, trivial, trivial, trivial, fun _ => ⟨trivial, trivial, trivial, trivial, fun x => ?_⟩⟩
  cases x <;> first | exact hk _ | trivial

theorem circuit_fixed {cs : List QCall} (hc : ∀ d ∈ cs, d.Static ∧ d.Distinct ∧ d.Determined ∧ NoY d) (hp : Fixed p) :
    Fixed (afterCircuit cs p) := by
  induction cs with
  | nil => exact hp
  | cons d cs ih =>
    obtain ⟨h1, h2, h3, h4⟩ := hc d (by simp)
    exact ⟨h1, h2, h3, h4, fun _ => ih fun e he => hc e (by simp [he])⟩

theorem teleport_fixed {a b c : ℕ} (hab : a ≠ b) (hbc : b ≠ c) (ra rb : ℕ)
    {k : Bool → Bool → Prog QCall QAns} (hk : ∀ y x, Fixed (k y x)) :
    Fixed (teleport a b c ra rb k) ∧ Fixed (exchange a b c ra rb k) := by
  constructor
  · refine circuit_fixed (by simp [QCall.Static, QCall.Distinct, QCall.Determined, NoY, hab, hbc]) ?_
    refine measuring_fixed fun y => circuit_fixed ?_ (measuring_fixed fun x => circuit_fixed ?_ (hk y x))
    · cases y <;> simp [QCall.Static, QCall.Distinct, QCall.Determined, NoY]
    · cases x <;> simp [QCall.Static, QCall.Distinct, QCall.Determined, NoY]
  · refine circuit_fixed (by simp [QCall.Static, QCall.Distinct, QCall.Determined, NoY]) ?_
    exact measuring_fixed fun y => measuring_fixed fun x => hk y x

/-- **C91**, teleportation by the code: whatever circuit prepares the state, and whatever follows, the output is the one of
the program that exchanges the two qubits, shot for shot and for every stream of samples. -/
theorem C91_teleported (he : env.eps = 0) {a b c : ℕ} (hab : a ≠ b) (hac : a ≠ c) (hbc : b ≠ c) (ra rb : ℕ)
    {cs : List QCall} (hg : ∀ d ∈ cs, IsGate d ∧ b ∉ targets d ∧ c ∉ targets d) (hd : ∀ d ∈ cs, d.Distinct ∧ NoY d)
    {k : Bool → Bool → Prog QCall QAns} (hk : ∀ y x, Fixed (k y x)) (n : ℕ) (s s' : Backend)
    (hs : InUnit s.sim.rng) (hr : s'.sim.rng = s.sim.rng) :
    written env fmt (afterCircuit cs (exchange a b c ra rb k)) n s' =
      written env fmt (afterCircuit cs (teleport a b c ra rb k)) n s := by
  have hf : ∀ d ∈ cs, d.Static ∧ d.Distinct ∧ d.Determined ∧ NoY d := by
    intro d h
    have hd' : d.Determined := by
      have := (hg d h).1
      cases d <;> first | exact this.elim | trivial
    exact ⟨Arr.gate_static (hg d h).1, (hd d h).1, hd', (hd d h).2⟩
  obtain ⟨h1, h2⟩ := teleport_fixed hab hbc ra rb hk
  refine C91_known he (Folded.after (Y := {b, c}) ?_ (Set.subset_univ _) ?_) (circuit_fixed hf h1) (circuit_fixed hf h2)
    n s s' hs hr
  · intro d h
    refine ⟨(hg d h).1, fun q hq => ?_⟩
    rcases hq with rfl | rfl
    · exact (hg d h).2.1
    · exact (hg d h).2.2
  · exact fun Z hZ => C91_teleport hab hac hbc (hZ (by simp)) (hZ (by simp)) ra rb k

/-! ### Why the conditions are needed -/

/-- Nothing can be left out if the control is not known to be zero. -/
theorem C91_unknown : ¬ SameCircuitOn ∅ [.ctl .x [0] 1] [] := by
  rintro ⟨hl, hr, w, -, h⟩
  have h := congrFun (h (Spec.ket fun q => decide (q = 0)) fun b _ q hq => hq.elim) fun q => decide (q = 0)
  rw [Arr.effect_eq hl, Arr.effect_eq hr] at h
  have h1 : Spec.ctrl [0] matX 1 (Spec.ket fun q => decide (q = 0)) (fun q => decide (q = 0)) =
      Spec.ket (fun q => decide (q = 0)) (Function.update (fun q => decide (q = 0)) 1 true) := by
    simp [Spec.ctrl, matX, mat]
  have h2 : Function.update (fun q : ℕ => decide (q = 0)) 1 true ≠ fun q => decide (q = 0) := by
    intro e
    have := congrFun e 1
    simp at this
  have h3 : Spec.ket (fun q => decide (q = 0)) (fun q => decide (q = 0)) =
      w * Spec.ctrl [0] matX 1 (Spec.ket fun q => decide (q = 0)) (fun q => decide (q = 0)) := h
  rw [h1] at h3
  unfold Spec.ket at h3
  rw [if_pos rfl, if_neg h2, mul_zero] at h3
  exact one_ne_zero h3

/-! ### Concrete programs -/

/-- A qubit is reset and used as a control: the gate may be left out. -/
example (he : env.eps = 0) (n : ℕ) (s : Backend) (hs : InUnit s.sim.rng) :
    written env fmt (andThen [.gate .h 0, .reset 0, .mz 0 0, .mz 1 1] report) n s =
      written env fmt (andThen [.gate .h 0, .reset 0, .ctl .x [0] 1, .mz 0 0, .mz 1 1] report) n s := by
  refine C91_known he ?_ ?_ ?_ n s s hs rfl
  · exact .under _ fun _ => .under _ fun _ =>
      .circuit (C91_control (q := 0) (c := .gate .x 1) trivial (by simp [named]) (Set.mem_insert _ _)) _
  · simp [report, andThen, Fixed, QCall.Static, QCall.Distinct, QCall.Determined, NoY]
  · simp [report, andThen, Fixed, QCall.Static, QCall.Distinct, QCall.Determined, NoY]

/-- Qubit 0 is turned by some angle, teleported to qubit 2, and measured there. -/
example (he : env.eps = 0) (θ : ℝ) (n : ℕ) (s : Backend) (hs : InUnit s.sim.rng) :
    written env fmt (afterCircuit [.gate (.rx θ) 0] <| exchange 0 1 2 3 4 fun _ _ => .call (.mz 2 1) fun _ => report) n s =
      written env fmt (afterCircuit [.gate (.rx θ) 0] <| teleport 0 1 2 3 4 fun _ _ => .call (.mz 2 1) fun _ => report) n s := by
  refine C91_teleported he (by decide) (by decide) (by decide) 3 4 ?_ ?_ (fun _ _ => ?_) n s s hs rfl
  · simp [IsGate, targets]
  · simp [QCall.Distinct, NoY]
  · simp [report, andThen, Fixed, QCall.Static, QCall.Distinct, QCall.Determined, NoY]

end Qir.Back

namespace Qir.RBack
open Spec Sim Qir.Out Run Rnd MeasureTheory
open Qir.Back (Backend Fmt streams blank Folded Numbered)

/-- **C91**, rounded arithmetic: the distributions of the outputs differ by at most the sum of the bounds of C63 for the two
programs. -/
theorem C91_rounded {A : Arith} {N W M N' W' M' : ℕ} {T T' : ℝ} {fmt : Fmt} {p p' : Prog QCall QAns}
    (h : Folded Set.univ p p') (hp : Numbered p) (h0 : 0 < A.eps) (h1 : A.eps ≤ 1 / 4) (h2 : 1000 * (A.u + A.eta) ≤ A.eps)
    (hw : Within A N p blank W M T) (hT : A.u * T + A.eta ≤ A.eps)
    (ht : Turnless A fmt p (Backend.new (fun _ => 0) fun _ => 0))
    (hw' : Within A N' p' blank W' M' T') (hT' : A.u * T' + A.eta ≤ A.eps)
    (ht' : Turnless A fmt p' (Backend.new (fun _ => 0) fun _ => 0)) (os os' : ℕ → ℕ) (S : Set (Bytes × Bool)) :
    |streams.real {r | outcome A fmt p (Backend.new r os) ∈ S} -
      streams.real {r | outcome A fmt p' (Backend.new r os') ∈ S}| ≤ gap A N W M + gap A N' W' M' := by
  have e1 := (C63_distance h0 h1 h2 hw hT ht os S).2
  have e2 := (C63_distance h0 h1 h2 hw' hT' ht' os' S).2
  rw [← Back.C91_chance h hp] at e1
  rw [abs_sub_comm] at e2
  exact (abs_sub_le _ _ _).trans (add_le_add e1 e2)

end Qir.RBack
