import Verif.Proof.Handled
import Verif.Props.Rewrite

/-!
# Dynamic allocation only saves qubits (C89)

A program that allocates and releases its qubits, and gets the numbers of released qubits again, writes everything with the
same probability as the one in which every allocation has a qubit of its own that nobody else ever uses.
-/

noncomputable section
namespace Qir.Back
open Spec Sim Qir.Out Run MeasureTheory

variable {env : Env} {fmt : Fmt} {p : Handled}

/-- The program does not rotate about Y without controls. -/
def Handled.Unturned : Handled → Prop
  | .done => True
  | .allocate k | .release _ k => k.Unturned
  | .call c k => NoY c ∧ ∀ a, (k a).Unturned

theorem Handled.noY (h : p.Unturned) : ∀ (f : ℕ → ℕ) (n : ℕ), NoYProg (p.dynamic f n) := by
  induction p with
  | done => intros; trivial
  | allocate k ih =>
    intro f n
    refine ⟨trivial, fun a => ?_⟩
    cases a <;> first | exact ih h _ _ | trivial
  | release x k ih => exact fun f n => ⟨trivial, fun _ => ih h f n⟩
  | call c k ih =>
    intro f n
    refine ⟨?_, fun a => ih a (h.2 a) f n⟩
    have h1 := h.1
    cases c with
    | gate g q => cases g <;> first | exact h1.elim | trivial
    | r P θ q | rAdj P θ q => cases P <;> first | exact h1.elim | trivial
    | _ => trivial

theorem Handled.fixed (h : p.Unturned) : ∀ {H : Finset ℕ} {n : ℕ}, p.Scoped H n → Fixed p.static := by
  induction p with
  | done => intros; trivial
  | allocate k ih => exact fun hs => ih h hs
  | release x k ih => exact fun hs => ⟨trivial, trivial, trivial, trivial, fun _ => ih h hs.2⟩
  | call c k ih =>
    exact fun hs => ⟨Arr.movable_static hs.1, hs.2.1, Arr.movable_determined hs.1, h.1, fun a => ih a (h.2 a) (hs.2.2.2 a)⟩

theorem init_held (f : ℕ → ℕ) (r : ℕ → ℝ) : Arr.Held f ∅ 0 (Device.init r) (Equiv.refl ℕ) :=
  ⟨by simp, rfl, by simp [Device.init], by simp⟩

/-- **C89**, the ideal device.  Before the first allocation no handle has a name. -/
theorem C89_chance (hp : p.Scoped ∅ 0) (f : ℕ → ℕ) (S : Set (List Event × Bool)) :
    chance (p.dynamic f 0) blank S = chance p.static blank S := by
  refine Arr.chance_dynamic hp ⟨init_held f _, Arr.init_alike _, blank_fit, blank_fit, fun b hb q hq => ?_⟩ S
  exfalso
  apply hb
  refine if_neg ?_
  rintro rfl
  cases hq

/-- **C89**, the calls of both programs make sense, whatever the samples. -/
theorem C89_meaningful (hp : p.Scoped ∅ 0) (f : ℕ → ℕ) (r : ℕ → ℝ) : Meaningful (p.dynamic f 0) (Device.init r) :=
  Arr.dynamic_meaningful hp (init_held f r)

/-- **C89**.  The code writes any sequence of outputs with the same probability for both programs, whatever the backends
were used for before. -/
theorem C89_shots (he : env.eps = 0) (hp : p.Scoped ∅ 0) (hy : p.Unturned) (f : ℕ → ℕ) (s s' : Backend)
    (Bs : List (Set Bytes)) :
    streams {r | ∃ outs, written env fmt (p.dynamic f 0) Bs.length (resampled r s) = .ok outs ∧
        List.Forall₂ (· ∈ ·) outs Bs} =
      streams {r | ∃ outs, written env fmt p.static Bs.length (resampled r s') = .ok outs ∧
        List.Forall₂ (· ∈ ·) outs Bs} := by
  rw [C57_shots he (fun r _ => C89_meaningful hp f r) (fun _ _ _ => (Handled.noY hy f 0).noTurn _),
    C57_shots he (fun _ _ => (Handled.fixed hy hp).meaningful rfl) (fun _ _ _ => (Handled.fixed hy hp).noY.noTurn _)]
  simp only [C89_chance hp]

/-- **C89**, and so every table of relative frequencies converges to the same probabilities. -/
theorem C89_histogram (he : env.eps = 0) (hp : p.Scoped ∅ 0) (hy : p.Unturned) (f : ℕ → ℕ)
    (hf : chance p.static blank (failsWith Set.univ) = 0) (s s' : Backend) :
    ∀ᵐ r ∂streams, ∃ out out' : ℕ → Bytes,
      (∀ n, written env fmt (p.dynamic f 0) n (resampled r s) = .ok ((List.range n).map out)) ∧
      (∀ n, written env fmt p.static n (resampled r s') = .ok ((List.range n).map out')) ∧
      ∀ b : Bytes, Filter.Tendsto (fun n : ℕ => (((List.range n).map out).count b : ℝ) / n -
        (((List.range n).map out').count b : ℝ) / n) Filter.atTop (nhds 0) := by
  have h1 := C58_histogram (env := env) (fmt := fmt) he (fun r _ => C89_meaningful hp f r)
    (fun _ _ _ => (Handled.noY hy f 0).noTurn _) (by rw [C89_chance hp]; exact hf) s
  have h2 := C58_histogram (env := env) (fmt := fmt) he (fun _ _ => (Handled.fixed hy hp).meaningful rfl)
    (fun _ _ _ => (Handled.fixed hy hp).noY.noTurn _) hf s'
  filter_upwards [h1, h2] with r h1 h2
  obtain ⟨out, a1, a2⟩ := h1
  obtain ⟨out', b1, b2⟩ := h2
  refine ⟨out, out', a1, b1, fun b => ?_⟩
  have := (a2 b).sub (b2 b)
  rwa [C89_chance hp, sub_self] at this

/-! ### Not sample for sample -/

/-- Allocate a qubit and release it. -/
def comeAndGo : Handled := .allocate (.release 0 .done)

/-- **C89** cannot be had for every stream of samples: to release the only qubit takes no sample, to reset it does. -/
theorem C89_samples (f : ℕ → ℕ) (r : ℕ → ℝ) : comeAndGo.Scoped ∅ 0 ∧
    (∃ δ, idealRun (comeAndGo.dynamic f 0) (Device.init r) = .ok ([], δ) ∧ δ.rng = r) ∧
    ∃ δ, idealRun comeAndGo.static (Device.init r) = .ok ([], δ) ∧ δ.rng = fun n => r (n + 1) := by
  refine ⟨⟨by simp, trivial⟩, ?_, ⟨_, rfl, rfl⟩⟩
  refine ⟨{ Device.init r with high := 1 }, ?_, rfl⟩
  simp [comeAndGo, Handled.dynamic, idealRun, Device.step, Device.fresh, Device.init]

/-! ### A concrete program -/

/-- Toss a coin with a qubit, release it, and toss another one with a new qubit, entangled with a third one that is
allocated before the second one is released. -/
def tosses : Handled :=
  .allocate <| .call (.gate .h 0) fun _ => .call (.mz 0 0) fun _ => .release 0 <|
  .allocate <| .call (.gate .h 1) fun _ => .allocate <| .call (.ctl .x [1] 2) fun _ => .release 1 <|
  .call (.mz 2 1) fun _ => .call (.recordResult 0 none) fun _ => .call (.recordResult 1 none) fun _ => .release 2 .done

theorem tosses_scoped : tosses.Scoped ∅ 0 ∧ tosses.Unturned := by
  simp [tosses, Handled.Scoped, Handled.Unturned, Movable, QCall.Distinct, named, NoY]

/-- The second qubit has the number of the first one: the program needs two qubits, and the other one three. -/
example (r : ℕ → ℝ) : ((Device.init r).step .allocate).toOption.map (fun x => x.1) = some (.ptr 0) ∧
    (({ Device.init r with high := 1 } : Device).step .allocate).toOption.map (fun x => x.1) = some (.ptr 0) ∧
    tosses.static = andThen [.gate .h 0, .mz 0 0, .reset 0, .gate .h 1, .ctl .x [1] 2, .reset 1, .mz 2 1,
      .recordResult 0 none, .recordResult 1 none, .reset 2] .done := by
  refine ⟨?_, ?_, rfl⟩ <;> simp [Device.step, Device.fresh, Device.init, Except.toOption]

example (he : env.eps = 0) (f : ℕ → ℕ) (s : Backend) (b c : Bool) :
    streams {r | ∃ outs, written env fmt (tosses.dynamic f 0) 1 (resampled r s) = .ok outs ∧
        List.Forall₂ (· ∈ ·) outs [({bitLine b ++ bitLine c} : Set Bytes)]} =
      streams {r | ∃ outs, written env fmt tosses.static 1 (resampled r s) = .ok outs ∧
        List.Forall₂ (· ∈ ·) outs [({bitLine b ++ bitLine c} : Set Bytes)]} :=
  C89_shots he tosses_scoped.1 tosses_scoped.2 f s s [_]

end Qir.Back

namespace Qir.RBack
open Spec Sim Qir.Out Run Rnd MeasureTheory
open Qir.Back (Backend Fmt streams blank Handled)

/-- **C89**, rounded arithmetic: the distributions of the outputs differ by at most the sum of the bounds of C63 for the two
programs. -/
theorem C89_rounded {A : Arith} {N W M N' W' M' : ℕ} {T T' : ℝ} {fmt : Fmt} {p : Handled} {f : ℕ → ℕ}
    (hp : p.Scoped ∅ 0) (h0 : 0 < A.eps) (h1 : A.eps ≤ 1 / 4) (h2 : 1000 * (A.u + A.eta) ≤ A.eps)
    (hw : Within A N (p.dynamic f 0) blank W M T) (hT : A.u * T + A.eta ≤ A.eps)
    (ht : Turnless A fmt (p.dynamic f 0) (Backend.new (fun _ => 0) fun _ => 0))
    (hw' : Within A N' p.static blank W' M' T') (hT' : A.u * T' + A.eta ≤ A.eps)
    (ht' : Turnless A fmt p.static (Backend.new (fun _ => 0) fun _ => 0)) (os os' : ℕ → ℕ) (S : Set (Bytes × Bool)) :
    |streams.real {r | outcome A fmt (p.dynamic f 0) (Backend.new r os) ∈ S} -
      streams.real {r | outcome A fmt p.static (Backend.new r os') ∈ S}| ≤ gap A N W M + gap A N' W' M' := by
  have e1 := (C63_distance h0 h1 h2 hw hT ht os S).2
  have e2 := (C63_distance h0 h1 h2 hw' hT' ht' os' S).2
  rw [Back.C89_chance hp] at e1
  rw [abs_sub_comm] at e2
  exact (abs_sub_le _ _ _).trans (add_le_add e1 e2)

end Qir.RBack
