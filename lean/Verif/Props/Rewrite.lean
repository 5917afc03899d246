import Verif.Proof.Rewrite
import Verif.Props.Rearrange
import Verif.Props.Settled

/-!
# The numbers of the qubits do not matter (C87), and equal circuits may replace each other (C88)

Both say that not only the distribution of the output stays the same, but the output itself for every seed: the
measurements are the same ones in the same order and use the same samples.
-/

noncomputable section
namespace Qir.Back
open Spec Sim Qir.Out Run MeasureTheory

variable {env : Env} {fmt : Fmt} {p p' : Prog QCall QAns}

theorem Fixed.numbered {p : Prog QCall QAns} (h : Fixed p) : Numbered p := by
  induction p with
  | done => trivial
  | call c k ih => exact ⟨h.1, fun a => ih a (h.2.2.2.2 a)⟩

theorem Fixed.writes {p : Prog QCall QAns} (h : Fixed p) (he : env.eps = 0) : Writes env fmt p p :=
  written_ideal he (fun _ _ => h.meaningful rfl) (fun _ _ _ => h.noY.noTurn _)

theorem onQubits_fixed (σ : Equiv.Perm ℕ) {c : QCall} (h : c.Static ∧ c.Distinct ∧ c.Determined ∧ NoY c) :
    (onQubits σ c).Static ∧ (onQubits σ c).Distinct ∧ (onQubits σ c).Determined ∧ NoY (onQubits σ c) := by
  obtain ⟨h1, h2, h3, h4⟩ := h
  refine ⟨?_, ?_, ?_, ?_⟩
  · cases c <;> first | exact h1.elim | trivial
  · have hn : ∀ l : List ℕ, l.Nodup → (l.map σ).Nodup := fun l hl => hl.map σ.injective
    cases c with
    | ctl g cs q => simpa [onQubits, QCall.Distinct] using hn _ h2
    | rxx θ a b | ryy θ a b | rzz θ a b => exact fun e => h2 (σ.injective e)
    | rCtl cs P θ q | rCtlAdj cs P θ q => simpa [onQubits, QCall.Distinct] using hn _ h2
    | exp ps θ qs | expAdj ps θ qs =>
      refine ⟨hn _ h2.1, ?_⟩
      rw [List.length_map]
      exact h2.2
    | expCtl cs ps θ qs | expCtlAdj cs ps θ qs =>
      refine ⟨?_, ?_⟩
      · rw [← List.map_append]
        exact hn _ h2.1
      · rw [List.length_map]
        exact h2.2
    | measure ps qs | assertProb ps qs result prob msg tol =>
      show ((support ps (qs.map σ)).map Prod.snd).Nodup
      have := hn _ h2
      rw [List.map_map] at this
      rw [Arr.support_moved, Arr.moved, List.map_map]
      exact this
    | _ => trivial
  · cases c <;> first | exact h3.elim | trivial
  · cases c with
    | gate g q => cases g <;> first | exact h4.elim | trivial
    | r P θ q | rAdj P θ q => cases P <;> first | exact h4.elim | trivial
    | _ => trivial

theorem Fixed.renamed (σ : Equiv.Perm ℕ) {p : Prog QCall QAns} (h : Fixed p) : Fixed (renamed σ p) := by
  induction p with
  | done => trivial
  | call c k ih =>
    obtain ⟨h1, h2, h3, h4, h5⟩ := h
    obtain ⟨g1, g2, g3, g4⟩ := onQubits_fixed σ ⟨h1, h2, h3, h4⟩
    exact ⟨g1, g2, g3, g4, fun a => ih a (h5 a)⟩

/-! ### C87 -/

/-- **C87**, the ideal device: for every stream of samples the same records, shot for shot. -/
theorem C87_ideal (σ : Equiv.Perm ℕ) (hp : Numbered p) (n : ℕ) (r : ℕ → ℝ) :
    idealShots (renamed σ p) n r = idealShots p n r :=
  Arr.shots_alike (fun _ => Arr.alike_renamed hp (Arr.init_alike _)) n r

/-- **C87**.  The code writes the same for both programs, shot for shot and for every stream of samples, whatever the
backends were used for before. -/
theorem C87_renamed (he : env.eps = 0) (σ : Equiv.Perm ℕ) (hp : Fixed p) (n : ℕ) (s s' : Backend)
    (hs : InUnit s.sim.rng) (hr : s'.sim.rng = s.sim.rng) :
    written env fmt (renamed σ p) n s' = written env fmt p n s := by
  rw [(hp.renamed σ).writes he n s' (by rw [hr]; exact hs), hp.writes he n s hs, hr, C87_ideal σ hp.numbered]

/-- **C87**, the ideal probabilities. -/
theorem C87_chance (σ : Equiv.Perm ℕ) (hp : Numbered p) (S : Set (List Event × Bool)) :
    chance (renamed σ p) blank S = chance p blank S := Arr.chance_renamed hp S (Arr.init_alike _)

/-! ### C88 -/

/-- **C88**, the ideal device. -/
theorem C88_ideal (h : Rewritten p p') (hp : Numbered p) (n : ℕ) (r : ℕ → ℝ) : idealShots p' n r = idealShots p n r :=
  Arr.shots_alike (σ := Equiv.refl ℕ) (fun _ => Arr.alike_rewritten h hp (Arr.init_alike _)) n r

/-- **C88**.  The code writes the same for both programs, shot for shot and for every stream of samples. -/
theorem C88_rewritten (he : env.eps = 0) (h : Rewritten p p') (hp : Fixed p) (hp' : Fixed p') (n : ℕ) (s s' : Backend)
    (hs : InUnit s.sim.rng) (hr : s'.sim.rng = s.sim.rng) :
    written env fmt p' n s' = written env fmt p n s := by
  rw [hp'.writes he n s' (by rw [hr]; exact hs), hp.writes he n s hs, hr, C88_ideal h hp.numbered]

/-- **C88**, the ideal probabilities. -/
theorem C88_chance (h : Rewritten p p') (hp : Numbered p) (S : Set (List Event × Bool)) :
    chance p' blank S = chance p blank S := Arr.chance_rewritten h hp S (Arr.init_alike (σ := Equiv.refl ℕ) _)

/-! ### Circuits that are equal -/

/-- Gates on one qubit may be replaced by others with the same product of matrices up to a phase. -/
theorem C88_gates (q : ℕ) (gs hs : List Gate) (w : ℂ) (hw : ‖w‖ = 1) (h : gateProduct hs = w • gateProduct gs) :
    SameCircuit (gs.map fun g => .gate g q) (hs.map fun g => .gate g q) :=
  Arr.sameCircuit (by simp [IsGate]) (by simp [IsGate]) w hw fun ψ => by
    rw [Arr.product_gate, Arr.product_gate, h, Arr.ctrl_scaled]

/-- With controls the phase matters. -/
theorem C88_controlled {cs : List ℕ} {q : ℕ} (hq : q ∉ cs) (gs hs : List Gate) (h : gateProduct hs = gateProduct gs) :
    SameCircuit (gs.map fun g => .ctl g cs q) (hs.map fun g => .ctl g cs q) :=
  Arr.sameCircuit (by simp [IsGate]) (by simp [IsGate]) 1 norm_one fun ψ => by
    rw [Arr.product_ctl hq, Arr.product_ctl hq, h, one_smul]

/-- Exponentials of the same Pauli product add up, with or without controls. -/
theorem C88_exp {cs : List ℕ} {ps : List Pauli} {qs : List ℕ} (hn : (cs ++ qs).Nodup) (α β : ℝ) :
    SameCircuit [.expCtl cs ps α qs, .expCtl cs ps β qs] [.expCtl cs ps (α + β) qs] := by
  have hn' : (cs ++ (ps.zip qs).map Prod.snd).Nodup :=
    hn.sublist (List.Sublist.append_left (zip_snd_sublist ps qs) cs)
  refine Arr.sameCircuit (by simp [IsGate]) (by simp [IsGate]) 1 norm_one fun ψ => ?_
  rw [one_smul, add_comm α β]
  exact (LinearMap.congr_fun (Arr.expL_add hn' β α) ψ).symm

/-- A swap is three controlled X gates. -/
theorem C88_swap {a b : ℕ} (h : a ≠ b) : SameCircuit [.swap a b] [.ctl .x [a] b, .ctl .x [b] a, .ctl .x [a] b] :=
  Arr.sameCircuit (by simp [IsGate]) (by simp [IsGate]) 1 norm_one fun ψ => by
    rw [one_smul]
    exact Arr.swap_cnots h ψ

/-- The controls of a controlled gate may be given in any order, and those of a controlled Z gate are exchangeable with
its target. -/
theorem C88_controls (g : Gate) {cs ds : List ℕ} (h : cs.Perm ds) (q : ℕ) (a b : ℕ) :
    SameCircuit [.ctl g cs q] [.ctl g ds q] ∧ SameCircuit [.ctl .z [a] b] [.ctl .z [b] a] := by
  constructor
  · refine Arr.sameCircuit (by simp [IsGate]) (by simp [IsGate]) 1 norm_one fun ψ => ?_
    rw [one_smul]
    funext bits
    show Spec.ctrl ds g.mat q ψ bits = Spec.ctrl cs g.mat q ψ bits
    unfold Spec.ctrl
    simp only [h.mem_iff]
  · refine Arr.sameCircuit (by simp [IsGate]) (by simp [IsGate]) 1 norm_one fun ψ => ?_
    rw [one_smul]
    exact LinearMap.congr_fun (ctrlL_Z_congr (cs := [b]) (cs' := [a]) (t := a) (t' := b) (by simp [or_comm])) ψ

theorem sqrt_half : (1 / Real.sqrt 2 : ℝ) * (1 / Real.sqrt 2 : ℝ) = 1 / 2 := by
  rw [div_mul_div_comm, Real.mul_self_sqrt (by norm_num)]
  norm_num

/-- Textbook identities: `HH = 1`, `TT = S`, `SS = Z`, `HZH = X`, `Rz(θ)Rz(θ') = Rz(θ + θ')`, and up to a phase
`Rz(π/2) = S`; and `Ry(π/2)` is `Z` followed by `H`. -/
theorem C88_identities (q : ℕ) (θ θ' : ℝ) :
    SameCircuit [.gate .h q, .gate .h q] [] ∧
    SameCircuit [.gate .t q, .gate .t q] [.gate .s q] ∧
    SameCircuit [.gate .s q, .gate .s q] [.gate .z q] ∧
    SameCircuit [.gate .h q, .gate .z q, .gate .h q] [.gate .x q] ∧
    SameCircuit [.gate (.rz θ) q, .gate (.rz θ') q] [.gate (.rz (θ + θ')) q] ∧
    SameCircuit [.gate .s q] [.gate (.rz (Real.pi / 2)) q] ∧
    SameCircuit [.gate (.ry (Real.pi / 2)) q] [.gate .z q, .gate .h q] := by
  have hh : ((1 / Real.sqrt 2 : ℝ) : ℂ) * ((1 / Real.sqrt 2 : ℝ) : ℂ) = 1 / 2 := by
    rw [← Complex.ofReal_mul, sqrt_half]; norm_num
  refine ⟨C88_gates q [.h, .h] [] 1 norm_one ?_, C88_gates q [.t, .t] [.s] 1 norm_one ?_,
    C88_gates q [.s, .s] [.z] 1 norm_one ?_, C88_gates q [.h, .z, .h] [.x] 1 norm_one ?_,
    C88_gates q [.rz θ, .rz θ'] [.rz (θ + θ')] 1 norm_one ?_,
    C88_gates q [.s] [.rz (Real.pi / 2)] (Complex.exp (-(Complex.I * (Real.pi / 4)))) ?_ ?_,
    C88_gates q [.ry (Real.pi / 2)] [.z, .h] 1 norm_one ?_⟩
  · simp only [gateProduct, List.foldl_cons, List.foldl_nil, Gate.mat, matH, mat_one, mat_mul, mat_smul]
    generalize ((1 / Real.sqrt 2 : ℝ) : ℂ) = x at *
    congr 1 <;> first | ring1 | linear_combination (-2) * hh
  · simp only [gateProduct, List.foldl_cons, List.foldl_nil, Gate.mat, matT, matS, matPhase, mat_one, mat_mul, mat_smul]
    have h : Complex.exp (Complex.I * (Real.pi / 4)) * Complex.exp (Complex.I * (Real.pi / 4)) = Complex.I := by
      rw [← Complex.exp_add, show Complex.I * (Real.pi / 4) + Complex.I * (Real.pi / 4) = (Real.pi / 2 : ℂ) * Complex.I by
        ring, Complex.exp_pi_div_two_mul_I]
    congr 1 <;> first | ring1 | linear_combination -h
  · simp only [gateProduct, List.foldl_cons, List.foldl_nil, Gate.mat, matZ, matS, matPhase, mat_one, mat_mul, mat_smul]
    congr 1 <;> first | ring1 | linear_combination -Complex.I_mul_I
  · simp only [gateProduct, List.foldl_cons, List.foldl_nil, Gate.mat, matX, matH, matZ, mat_one, mat_mul, mat_smul]
    generalize ((1 / Real.sqrt 2 : ℝ) : ℂ) = x at *
    congr 1 <;> first | ring1 | linear_combination (-2) * hh
  · simp only [gateProduct, List.foldl_cons, List.foldl_nil, Gate.mat, matRz, mat_one, mat_mul, mat_smul]
    have h1 : Complex.exp (-(Complex.I * (θ / 2))) * Complex.exp (-(Complex.I * (θ' / 2))) =
        Complex.exp (-(Complex.I * ((θ + θ' : ℝ) / 2))) := by
      rw [← Complex.exp_add]
      congr 1
      push_cast
      ring
    have h2 : Complex.exp (Complex.I * (θ / 2)) * Complex.exp (Complex.I * (θ' / 2)) =
        Complex.exp (Complex.I * ((θ + θ' : ℝ) / 2)) := by
      rw [← Complex.exp_add]
      congr 1
      push_cast
      ring
    congr 1 <;> first | ring1 | linear_combination -h1 | linear_combination -h2
  · rw [show -(Complex.I * (Real.pi / 4)) = ((-(Real.pi / 4) : ℝ) : ℂ) * Complex.I by push_cast; ring]
    exact Complex.norm_exp_ofReal_mul_I _
  · simp only [gateProduct, List.foldl_cons, List.foldl_nil, Gate.mat, matRz, matS, matPhase, mat_one, mat_mul, mat_smul]
    have h1 : Complex.exp (-(Complex.I * ((Real.pi / 2 : ℝ) / 2))) = Complex.exp (-(Complex.I * (Real.pi / 4))) := by
      congr 1
      push_cast
      ring
    have h2 : Complex.exp (Complex.I * ((Real.pi / 2 : ℝ) / 2)) = Complex.exp (-(Complex.I * (Real.pi / 4))) * Complex.I := by
      rw [show Complex.I * ((Real.pi / 2 : ℝ) / 2) = -(Complex.I * (Real.pi / 4)) + (Real.pi / 2 : ℂ) * Complex.I by
        push_cast; ring, Complex.exp_add, Complex.exp_pi_div_two_mul_I]
    congr 1 <;> first | ring1 | linear_combination h1 | linear_combination h2
  · simp only [gateProduct, List.foldl_cons, List.foldl_nil, Gate.mat, matRy, matH, matZ, mat_one, mat_mul, mat_smul]
    have h1 : Real.pi / 2 / 2 = Real.pi / 4 := by ring
    have h2 : Real.sqrt 2 / 2 = 1 / Real.sqrt 2 := by
      rw [div_eq_div_iff (by norm_num) (by positivity), Real.mul_self_sqrt (by norm_num)]
      norm_num
    rw [h1, Real.cos_pi_div_four, Real.sin_pi_div_four, h2]
    congr 1 <;> ring1

/-! ### Why rotations about Y are excluded -/

/-- The program of C49 that the code does not carry out as it should, with the rotation about Y replaced. -/
def turnOtherwise : Prog QCall QAns := afterCircuit [.r .X Real.pi 0] <| afterCircuit [.gate .z 0, .gate .h 0] <|
  afterCircuit [.gate .h 0] <| .call (.m 0) fun
  | .ptr n => .call (.recordResult n none) fun _ => .done
  | _ => .done

theorem turn_rewritten : Rewritten turnThenRecord turnOtherwise := by
  refine .under _ fun _ => .trans ?_ (.circuit (C88_identities 0 0 0).2.2.2.2.2.2 _)
  refine .circuit (cs := [.r .Y (Real.pi / 2) 0]) (ds := [.gate (.ry (Real.pi / 2)) 0]) ?_ _
  refine Arr.sameCircuit (by simp [IsGate]) (by simp [IsGate]) 1 norm_one fun ψ => ?_
  rw [one_smul]
  exact congrFun (ctrl_Ry [] 0 (Real.pi / 2)) ψ

theorem turn_fixed : Fixed turnOtherwise := by
  refine ⟨trivial, trivial, trivial, trivial, fun _ => ⟨trivial, trivial, trivial, trivial, fun _ =>
    ⟨trivial, trivial, trivial, trivial, fun _ => ⟨trivial, trivial, trivial, trivial, fun _ =>
      ⟨trivial, trivial, trivial, trivial, fun a => ?_⟩⟩⟩⟩⟩
  cases a <;> first | exact ⟨trivial, trivial, trivial, trivial, fun _ => trivial⟩ | trivial

theorem turn_numbered : Numbered turnThenRecord := (Arr.numbered_rewritten turn_rewritten).2 turn_fixed.numbered

/-- **C88**, the condition on rotations about Y cannot be dropped: these two programs are equal on the ideal device, and the
code writes 0 for the first and 1 for the second, whatever the samples. -/
theorem C88_turned (he : env.eps = 0) (s : Backend) (hs : InUnit s.sim.rng) :
    Rewritten turnThenRecord turnOtherwise ∧ Numbered turnThenRecord ∧ Fixed turnOtherwise ∧
    written env fmt turnThenRecord 1 s = .ok [bitLine false] ∧
    written env fmt turnOtherwise 1 s = .ok [bitLine true] := by
  obtain ⟨-, ⟨δ, hi⟩, s', h⟩ := C49_counterexample (env := env) (fmt := fmt) he hs s.os
  refine ⟨turn_rewritten, turn_numbered, turn_fixed, ?_, ?_⟩
  · unfold written
    have h' : speech (step env fmt) turnThenRecord (reinit s) = .ok (lines [.record (.result false none)], s') := h
    simp only [session, h', coin_lines]
    rfl
  · rw [turn_fixed.writes he 1 s hs, C88_ideal turn_rewritten turn_numbered]
    simp only [idealShots, hi]
    show Except.ok [lines [.record (.result true none)]] = _
    rw [coin_lines]

/-! ### A concrete program -/

/-- An entangled pair on the qubits 0 and 1, measured and recorded. -/
def pair : Prog QCall QAns := andThen [.gate .h 0, .ctl .x [0] 1, .mz 0 0, .mz 1 1] report

theorem pair_fixed : Fixed pair := by
  simp [pair, report, andThen, Fixed, QCall.Static, QCall.Distinct, QCall.Determined, NoY]

/-- On the qubits 7 and 1 it writes the same, sample for sample. -/
example (he : env.eps = 0) (n : ℕ) (s : Backend) (hs : InUnit s.sim.rng) :
    written env fmt (andThen [.gate .h 7, .ctl .x [7] 1, .mz 7 0, .mz 1 1] report) n s = written env fmt pair n s :=
  C87_renamed he (Equiv.swap 0 7) pair_fixed n s s hs rfl

/-- And so does the program that exchanges the qubits twice in between, the second time by controlled X gates. -/
example (he : env.eps = 0) (n : ℕ) (s : Backend) (hs : InUnit s.sim.rng) :
    written env fmt (andThen [.gate .h 0, .swap 0 1, .ctl .x [0] 1, .ctl .x [1] 0, .ctl .x [0] 1, .ctl .x [0] 1, .mz 0 0,
      .mz 1 1] report) n s = written env fmt pair n s := by
  refine C88_rewritten he (.symm ?_) pair_fixed ?_ n s s hs rfl
  · refine .under _ fun _ => .trans (.under _ fun _ => .symm (.circuit (C88_swap (a := 0) (b := 1) (by decide)) _)) ?_
    refine .circuit (cs := [.swap 0 1, .swap 0 1]) (ds := []) ?_ _
    refine Arr.sameCircuit (by simp [IsGate]) (by simp [IsGate]) 1 norm_one fun ψ => ?_
    rw [one_smul]
    funext b
    show ψ b = ψ _
    simp
  · simp [report, andThen, Fixed, QCall.Static, QCall.Distinct, QCall.Determined, NoY]

end Qir.Back

namespace Qir.RBack
open Spec Sim Qir.Out Run Rnd MeasureTheory
open Qir.Back (Backend Fmt streams blank Rewritten Numbered renamed)

/-- **C87**, rounded arithmetic: the distributions of the outputs differ by at most the sum of the bounds of C63 for the two
programs. -/
theorem C87_rounded {A : Arith} {N W M N' W' M' : ℕ} {T T' : ℝ} {fmt : Fmt} {p : Prog QCall QAns} (σ : Equiv.Perm ℕ)
    (hp : Numbered p) (h0 : 0 < A.eps) (h1 : A.eps ≤ 1 / 4) (h2 : 1000 * (A.u + A.eta) ≤ A.eps)
    (hw : Within A N p blank W M T) (hT : A.u * T + A.eta ≤ A.eps)
    (ht : Turnless A fmt p (Backend.new (fun _ => 0) fun _ => 0))
    (hw' : Within A N' (renamed σ p) blank W' M' T') (hT' : A.u * T' + A.eta ≤ A.eps)
    (ht' : Turnless A fmt (renamed σ p) (Backend.new (fun _ => 0) fun _ => 0)) (os os' : ℕ → ℕ) (S : Set (Bytes × Bool)) :
    |streams.real {r | outcome A fmt p (Backend.new r os) ∈ S} -
      streams.real {r | outcome A fmt (renamed σ p) (Backend.new r os') ∈ S}| ≤ gap A N W M + gap A N' W' M' := by
  have e1 := (C63_distance h0 h1 h2 hw hT ht os S).2
  have e2 := (C63_distance h0 h1 h2 hw' hT' ht' os' S).2
  rw [← Back.C87_chance σ hp] at e1
  rw [abs_sub_comm] at e2
  exact (abs_sub_le _ _ _).trans (add_le_add e1 e2)

/-- **C88**, rounded arithmetic. -/
theorem C88_rounded {A : Arith} {N W M N' W' M' : ℕ} {T T' : ℝ} {fmt : Fmt} {p p' : Prog QCall QAns}
    (h : Rewritten p p') (hp : Numbered p) (h0 : 0 < A.eps) (h1 : A.eps ≤ 1 / 4) (h2 : 1000 * (A.u + A.eta) ≤ A.eps)
    (hw : Within A N p blank W M T) (hT : A.u * T + A.eta ≤ A.eps)
    (ht : Turnless A fmt p (Backend.new (fun _ => 0) fun _ => 0))
    (hw' : Within A N' p' blank W' M' T') (hT' : A.u * T' + A.eta ≤ A.eps)
    (ht' : Turnless A fmt p' (Backend.new (fun _ => 0) fun _ => 0)) (os os' : ℕ → ℕ) (S : Set (Bytes × Bool)) :
    |streams.real {r | outcome A fmt p (Backend.new r os) ∈ S} -
      streams.real {r | outcome A fmt p' (Backend.new r os') ∈ S}| ≤ gap A N W M + gap A N' W' M' := by
  have e1 := (C63_distance h0 h1 h2 hw hT ht os S).2
  have e2 := (C63_distance h0 h1 h2 hw' hT' ht' os' S).2
  rw [← Back.C88_chance h hp] at e1
  rw [abs_sub_comm] at e2
  exact (abs_sub_le _ _ _).trans (add_le_add e1 e2)

end Qir.RBack
