import Verif.Proof.Workaround
import Verif.Props.Compiled

/-!
# A way around finding F1 (C93)

The code carries out some rotations about Y wrongly (C01, C49, finding F1).  A program with every uncontrolled rotation
about Y replaced by a rotation about X between two phase gates means the same, and the code carries it out as it should:
the hypothesis about rotations that the theorems about whole programs have can always be met.
-/

noncomputable section
namespace Qir.Back
open Spec Sim Qir.Out Run MeasureTheory

variable {env : Env} {fmt : Fmt} {p p' : Prog QCall QAns}

/-- **C93**, the ideal device: the replacement changes neither the records nor the state left, whatever the state was. -/
theorem C93_ideal (p : Prog QCall QAns) (δ : Device) : idealRun (unturned p) δ = idealRun p δ := Arr.unturned_run p δ

/-- **C93**, the result never meets the bug. -/
theorem C93_safe (p : Prog QCall QAns) (s : Backend) : NoTurn env fmt (unturned p) s := (Arr.unturned_noY p).noTurn s

/-- **C93**.  Every program, with every rotation about Y replaced, writes what the program itself, with its rotations about
Y, writes on the ideal device, shot for shot and sample for sample. -/
theorem C93_writes (he : env.eps = 0) (hm : ∀ r, InUnit r → Meaningful p (Device.init r)) : Writes env fmt (unturned p) p := by
  intro n s hs
  have h := written_ideal (p := unturned p) (fmt := fmt) he (fun r hr => Arr.unturned_meaningful p (hm r hr))
    (fun _ _ _ => C93_safe p _) n s hs
  rw [h, Arr.unturned_shots]

/-- **C93**, in terms of the ideal probabilities of the program. -/
theorem C93_shots (he : env.eps = 0) (hm : ∀ r, InUnit r → Meaningful p (Device.init r)) (s : Backend)
    (Bs : List (Set Bytes)) :
    streams {r | ∃ outs, written env fmt (unturned p) Bs.length (resampled r s) = .ok outs ∧
        List.Forall₂ (· ∈ ·) outs Bs} =
      (Bs.map fun B => ENNReal.ofReal (chance p blank (records {es | lines es ∈ B}))).prod := by
  rw [C57_shots he (fun r hr => Arr.unturned_meaningful p (hm r hr)) (fun _ _ _ => C93_safe p _)]
  simp only [Arr.unturned_chance]

/-- **C93**, where the program does not meet the bug anyway the code writes the same for both. -/
theorem C93_unchanged (he : env.eps = 0) (hm : ∀ r, InUnit r → Meaningful p (Device.init r))
    (hn : ∀ (r : ℕ → ℝ) (os : ℕ → ℕ), InUnit r → NoTurn env fmt p (Backend.new r os)) (n : ℕ) (s s' : Backend)
    (hs : InUnit s.sim.rng) (hr : s'.sim.rng = s.sim.rng) :
    written env fmt (unturned p) n s' = written env fmt p n s := by
  rw [C93_writes he hm n s' (by rw [hr]; exact hs), written_ideal he hm hn n s hs, hr]

/-- **C93**, failures. -/
theorem C93_fails (he : env.eps = 0) (hm : ∀ r, InUnit r → Meaningful p (Device.init r)) (s : Backend)
    (Bs : List (Set Bytes)) (B : Set Bytes) (n : ℕ) (hl : Bs.length < n) :
    streams {r | ∃ outs o, written env fmt (unturned p) n (resampled r s) = .error (outs, o) ∧
        List.Forall₂ (· ∈ ·) outs Bs ∧ o ∈ B} =
      (Bs.map fun B => ENNReal.ofReal (chance p blank (records {es | lines es ∈ B}))).prod *
        ENNReal.ofReal (chance p blank (failsWith {es | lines es ∈ B})) := by
  rw [C57_fails he (fun r hr => Arr.unturned_meaningful p (hm r hr)) (fun _ _ _ => C93_safe p _) s Bs B n hl]
  simp only [Arr.unturned_chance]

/-- **C93**, with it the transformations that keep the samples (C88, C90, C91) may be applied to programs with any
rotations. -/
theorem C93_known (he : env.eps = 0) (h : Folded Set.univ p p') (hp : Tidy p) (hp' : Tidy p') (n : ℕ)
    (s s' : Backend) (hs : InUnit s.sim.rng) (hr : s'.sim.rng = s.sim.rng) :
    written env fmt (unturned p') n s' = written env fmt (unturned p) n s := by
  rw [C93_writes he (fun _ _ => hp'.meaningful rfl) n s' (by rw [hr]; exact hs),
    C93_writes he (fun _ _ => hp.meaningful rfl) n s hs, hr, C91_ideal h hp.numbered]

/-- **C93**, and so may all the transformations (C92). -/
theorem C93_compiled (he : env.eps = 0) (h : Compiled Set.univ p p') (hp : Tidy p) (hp' : Tidy p') (s s' : Backend)
    (Bs : List (Set Bytes)) :
    streams {r | ∃ outs, written env fmt (unturned p') Bs.length (resampled r s') = .ok outs ∧
        List.Forall₂ (· ∈ ·) outs Bs} =
      streams {r | ∃ outs, written env fmt (unturned p) Bs.length (resampled r s) = .ok outs ∧
        List.Forall₂ (· ∈ ·) outs Bs} := by
  rw [C93_shots he (fun _ _ => hp'.meaningful rfl), C93_shots he (fun _ _ => hp.meaningful rfl)]
  simp only [← C92_chance h hp'.numbered (Equiv.refl ℕ), C87_chance (Equiv.refl ℕ) hp'.numbered]

/-! ### The program on which the code goes wrong -/

theorem turn_tidy : Tidy turnThenRecord := by
  refine ⟨trivial, trivial, trivial, fun _ => ⟨trivial, trivial, trivial, fun _ => ⟨trivial, trivial, trivial, fun _ =>
    ⟨trivial, trivial, trivial, fun a => ?_⟩⟩⟩⟩
  cases a <;> first | exact ⟨trivial, trivial, trivial, fun _ => trivial⟩ | trivial

/-- **C93**, and the replacement is of use: the ideal device writes 1 for this program, the code writes 0 for it, and 1 after
the replacement, whatever the samples. -/
theorem C93_repaired (he : env.eps = 0) (s : Backend) (hs : InUnit s.sim.rng) :
    written env fmt turnThenRecord 1 s = .ok [bitLine false] ∧
    written env fmt (unturned turnThenRecord) 1 s = .ok [bitLine true] := by
  obtain ⟨h1, h2, h3, h4, h5⟩ := C88_turned (env := env) (fmt := fmt) he s hs
  refine ⟨h4, ?_⟩
  rw [C93_writes he (fun _ _ => turn_tidy.meaningful rfl) 1 s hs, ← C88_ideal h1 h2, ← h3.writes he 1 s hs, h5]

end Qir.Back

namespace Qir.RBack
open Spec Sim Qir.Out Run Rnd MeasureTheory
open Qir.Back (Backend Fmt streams blank unturned turnThenRecord)

/-- **C93**, rounded arithmetic: after the replacement the distribution of the output is, up to the bound of C63 for three
times the number of passes, that of the program on the ideal device, with no condition on its rotations about Y. -/
theorem C93_rounded {A : Arith} {N W M : ℕ} {T : ℝ} {fmt : Fmt} {p : Prog QCall QAns}
    (h0 : 0 < A.eps) (h1 : A.eps ≤ 1 / 4) (h2 : 1000 * (A.u + A.eta) ≤ A.eps)
    (hw : Within A N p blank W M T) (hT : A.u * T + A.eta ≤ A.eps) (os : ℕ → ℕ) (S : Set (Bytes × Bool)) :
    |streams.real {r | outcome A fmt (unturned p) (Backend.new r os) ∈ S} - Qir.Back.chance p blank (texts S)| ≤
      gap A N (3 * W) M := by
  have h := (C63_distance (fmt := fmt) h0 h1 h2 (Within.unturned h0.le p hw) hT
    (C63_no_turn (Qir.Back.Arr.unturned_noY p) _) os S).2
  rwa [Qir.Back.Arr.unturned_chance] at h

/-- The program on which the code goes wrong meets the hypotheses. -/
theorem turn_within (A : Arith) (h0 : 0 ≤ A.eps) : Within A 1 turnThenRecord blank 55 1 (6 + 2 * A.eps) := by
  have hp := Real.pi_le_four
  have hp0 := Real.pi_pos
  have a1 : turn A (.r .X Real.pi 0) = Real.pi + A.eps := by show |Real.pi| + _ = _; rw [abs_of_pos hp0]
  have a2 : turn A (.r .Y (Real.pi / 2) 0) = Real.pi / 2 + A.eps := by
    show |Real.pi / 2| + _ = _; rw [abs_of_pos (by positivity)]
  refine ⟨.inr (.inr ⟨rfl, le_refl _⟩), trivial, by decide, by rw [a1]; linarith, fun a es δ1 e1 => ?_⟩
  cases e1
  refine ⟨by decide, .inr (.inl (by decide)), trivial, by decide, by rw [a1, a2]; linarith, fun a es δ2 e2 => ?_⟩
  cases e2
  refine ⟨by decide, .inl (by decide), trivial, by decide, by rw [a1, a2]; show (0 : ℝ) ≤ _; linarith, fun a es δ3 e3 => ?_⟩
  cases e3
  refine ⟨by decide, .inl (by decide), trivial, by decide, ?_, by decide, fun v => ⟨?_, ?_, ?_⟩⟩
  · rw [a1, a2]; show (0 : ℝ) ≤ _ - 0; linarith
  · cases v <;> decide
  · decide
  · refine ⟨trivial, trivial, by cases v <;> decide, ?_, fun a es δ4 e4 => ?_⟩
    · rw [a1, a2]; show (0 : ℝ) ≤ _ - 0 - 0; linarith
    · cases e4
      exact ⟨by cases v <;> decide, trivial⟩

end Qir.RBack
