import Verif.Proof.Compiled
import Verif.Props.Known

/-!
# All rules together (C92)

`Compiled` (`Props/CompiledDefs.lean`) mixes the rules of C86, C88, C90 and C91 and adds those that come from measured qubits
having the value found: a reset of a qubit that is zero may be left out, its measurement gives zero, a second measurement
gives the first result again, measuring and resetting may be done in one step, and reading a result just written gives what
was written.  These rules change the number of measurements, so the output stays the same in distribution, not sample for
sample.
-/

noncomputable section
namespace Qir.Back
open Spec Sim Qir.Out Run MeasureTheory

variable {env : Env} {fmt : Fmt} {p p' : Prog QCall QAns}

/-- **C92**, the ideal device; the qubits may be renamed as well. -/
theorem C92_chance (h : Compiled Set.univ p p') (hp : Numbered p') (σ : Equiv.Perm ℕ) (S : Set (List Event × Bool)) :
    chance (renamed σ p') blank S = chance p blank S := by
  rw [C87_chance σ hp]
  exact (Arr.chance_compiled h blank_fit Arr.zeroOn_ket S).symm

/-- **C92**.  The code writes any sequence of outputs with the same probability for both programs, whatever the backends
were used for before. -/
theorem C92_compiled (he : env.eps = 0) (h : Compiled Set.univ p p') (hp : Fixed p) (hp' : Fixed p') (σ : Equiv.Perm ℕ)
    (s s' : Backend) (Bs : List (Set Bytes)) :
    streams {r | ∃ outs, written env fmt (renamed σ p') Bs.length (resampled r s') = .ok outs ∧
        List.Forall₂ (· ∈ ·) outs Bs} =
      streams {r | ∃ outs, written env fmt p Bs.length (resampled r s) = .ok outs ∧ List.Forall₂ (· ∈ ·) outs Bs} := by
  have hq := hp'.renamed σ
  rw [C57_shots he (fun _ _ => hp.meaningful rfl) (fun _ _ _ => hp.noY.noTurn _),
    C57_shots he (fun _ _ => hq.meaningful rfl) (fun _ _ _ => hq.noY.noTurn _)]
  simp only [C92_chance h hp'.numbered]

/-- **C92**, failures: they fail at the same shot with the same message with the same probability. -/
theorem C92_fails (he : env.eps = 0) (h : Compiled Set.univ p p') (hp : Fixed p) (hp' : Fixed p') (σ : Equiv.Perm ℕ)
    (s s' : Backend) (Bs : List (Set Bytes)) (B : Set Bytes) (n : ℕ) (hl : Bs.length < n) :
    streams {r | ∃ outs o, written env fmt (renamed σ p') n (resampled r s') = .error (outs, o) ∧
        List.Forall₂ (· ∈ ·) outs Bs ∧ o ∈ B} =
      streams {r | ∃ outs o, written env fmt p n (resampled r s) = .error (outs, o) ∧
        List.Forall₂ (· ∈ ·) outs Bs ∧ o ∈ B} := by
  have hq := hp'.renamed σ
  rw [C57_fails he (fun _ _ => hp.meaningful rfl) (fun _ _ _ => hp.noY.noTurn _) s Bs B n hl,
    C57_fails he (fun _ _ => hq.meaningful rfl) (fun _ _ _ => hq.noY.noTurn _) s' Bs B n hl]
  simp only [C92_chance h hp'.numbered]

/-- **C92**, programs that allocate their qubits: they may be compiled to programs that name their qubits by number, and then
simplified. -/
theorem C92_dynamic (he : env.eps = 0) {d : Handled} (hd : d.Scoped ∅ 0) (hy : d.Unturned) (f : ℕ → ℕ)
    (h : Compiled Set.univ d.static p') (hp' : Fixed p') (σ : Equiv.Perm ℕ) (s s' : Backend) (Bs : List (Set Bytes)) :
    streams {r | ∃ outs, written env fmt (renamed σ p') Bs.length (resampled r s') = .ok outs ∧
        List.Forall₂ (· ∈ ·) outs Bs} =
      streams {r | ∃ outs, written env fmt (d.dynamic f 0) Bs.length (resampled r s) = .ok outs ∧
        List.Forall₂ (· ∈ ·) outs Bs} := by
  rw [C89_shots he hd hy f s s Bs]
  exact C92_compiled he h (Handled.fixed hy hd) hp' σ s s' Bs

/-! ### Consequences -/

/-- **C92**, a branch that cannot be taken: measuring a qubit known to be zero and going on with the result. -/
theorem C92_branch {Z : Set ℕ} {q : ℕ} (hq : q ∈ Z) (r : ℕ) {k : Bool → Prog QCall QAns} (hk : ∀ b, Numbered (k b)) :
    Compiled Z (measuring q r k) (.call (.writeResult false r) fun _ => k false) :=
  .trans (.zero hq r (p := .call (.readResult r) fun
    | .bit b => k b
    | _ => .done) ⟨trivial, fun a => by cases a <;> first | exact hk _ | trivial⟩) (.constant false r _)

/-- **C92**, two resets in a row. -/
theorem C92_resets {Z : Set ℕ} (q : ℕ) {p : Prog QCall QAns} (hp : Numbered p) :
    Compiled Z (.call (.reset q) fun _ => .call (.reset q) fun _ => p) (.call (.reset q) fun _ => p) :=
  .under (c := .reset q) trivial trivial fun _ => .cleared (Set.mem_insert _ _) hp

/-! ### Not sample for sample -/

/-- The rules of C92 cannot be had for every stream of samples: a reset takes a sample, its absence does not. -/
theorem C92_samples (r : ℕ → ℝ) : Compiled Set.univ (.call (.reset 0) fun _ => .done) .done ∧
    (∃ δ, idealRun (.call (.reset 0) fun _ => .done) (Device.init r) = .ok ([], δ) ∧ δ.rng = fun n => r (n + 1)) ∧
    ∃ δ, idealRun .done (Device.init r) = .ok ([], δ) ∧ δ.rng = r :=
  ⟨.cleared (Set.mem_univ _) trivial, ⟨_, rfl, rfl⟩, ⟨_, rfl, rfl⟩⟩

/-! ### A concrete program -/

/-- Reset qubit 0 first, toss a coin with it, measure it twice and record both results. -/
def careful : Prog QCall QAns := andThen [.reset 0, .gate .h 0, .mz 0 0, .mz 0 1] report

/-- The same with one measurement. -/
def careless : Prog QCall QAns := .call (.gate .h 0) fun _ => measuredOnce 0 0 1 report

theorem careful_compiled : Compiled Set.univ careful careless := by
  refine .trans (.cleared (Set.mem_univ 0) ?_) (.under (c := .gate .h 0) trivial trivial fun _ => .twice 0 0 1 ?_) <;>
    simp [andThen, report, Numbered, QCall.Static]

theorem careful_fixed : Fixed careful ∧ Fixed careless := by
  constructor
  · simp [careful, report, andThen, Fixed, QCall.Static, QCall.Distinct, QCall.Determined, NoY]
  · refine ⟨trivial, trivial, trivial, trivial, fun _ => ⟨trivial, trivial, trivial, trivial, fun _ =>
      ⟨trivial, trivial, trivial, trivial, fun a => ?_⟩⟩⟩
    cases a <;> simp [report, andThen, Fixed, QCall.Static, QCall.Distinct, QCall.Determined, NoY]

example (he : env.eps = 0) (s s' : Backend) (B : Set Bytes) :
    streams {r | ∃ outs, written env fmt (renamed (Equiv.swap 0 5) careless) 1 (resampled r s') = .ok outs ∧
        List.Forall₂ (· ∈ ·) outs [B]} =
      streams {r | ∃ outs, written env fmt careful 1 (resampled r s) = .ok outs ∧ List.Forall₂ (· ∈ ·) outs [B]} :=
  C92_compiled he careful_compiled careful_fixed.1 careful_fixed.2 _ s s' [B]

end Qir.Back

namespace Qir.RBack
open Spec Sim Qir.Out Run Rnd MeasureTheory
open Qir.Back (Backend Fmt streams blank Compiled Numbered renamed)

/-- **C92**, rounded arithmetic: the distributions of the outputs differ by at most the sum of the bounds of C63 for the two
programs. -/
theorem C92_rounded {A : Arith} {N W M N' W' M' : ℕ} {T T' : ℝ} {fmt : Fmt} {p p' : Prog QCall QAns}
    (h : Compiled Set.univ p p') (hp : Numbered p') (σ : Equiv.Perm ℕ)
    (h0 : 0 < A.eps) (h1 : A.eps ≤ 1 / 4) (h2 : 1000 * (A.u + A.eta) ≤ A.eps)
    (hw : Within A N p blank W M T) (hT : A.u * T + A.eta ≤ A.eps)
    (ht : Turnless A fmt p (Backend.new (fun _ => 0) fun _ => 0))
    (hw' : Within A N' (renamed σ p') blank W' M' T') (hT' : A.u * T' + A.eta ≤ A.eps)
    (ht' : Turnless A fmt (renamed σ p') (Backend.new (fun _ => 0) fun _ => 0)) (os os' : ℕ → ℕ) (S : Set (Bytes × Bool)) :
    |streams.real {r | outcome A fmt p (Backend.new r os) ∈ S} -
      streams.real {r | outcome A fmt (renamed σ p') (Backend.new r os') ∈ S}| ≤ gap A N W M + gap A N' W' M' := by
  have e1 := (C63_distance h0 h1 h2 hw hT ht os S).2
  have e2 := (C63_distance h0 h1 h2 hw' hT' ht' os' S).2
  rw [← Back.C92_chance h hp σ] at e1
  rw [abs_sub_comm] at e2
  exact (abs_sub_le _ _ _).trans (add_le_add e1 e2)

end Qir.RBack
