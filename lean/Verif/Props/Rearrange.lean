import Verif.Proof.Rearrange
import Verif.Props.Chance
import Verif.Props.TotalVariation

/-!
# The order of calls on different qubits does not matter (C86)

`Rearranged` (`Props/RearrangeDefs.lean`) is what a compiler may do to a program: exchange neighbouring calls that have
no qubit and no register in common, and leave out calls nothing depends on.  The distribution of the output stays the same,
on the ideal device and in the code.  The outputs for a given seed do not: the calls then use other samples.
-/

noncomputable section
namespace Qir.Back
open Spec Sim Qir.Out Run MeasureTheory

variable {env : Env} {fmt : Fmt} {p p' : Prog QCall QAns}

/-- **C86**, the ideal device. -/
theorem C86_chance (h : Rearranged p p') (S : Set (List Event × Bool)) : chance p blank S = chance p' blank S :=
  Arr.chance_rearranged h blank_fit S

/-- **C86**.  The code writes any sequence of outputs with the same probability for both programs, whatever the backends
were used for before. -/
theorem C86_shots (he : env.eps = 0) (h : Rearranged p p') (hm : ∀ r, InUnit r → Meaningful p (Device.init r))
    (hm' : ∀ r, InUnit r → Meaningful p' (Device.init r))
    (hn : ∀ (r : ℕ → ℝ) (os : ℕ → ℕ), InUnit r → NoTurn env fmt p (Backend.new r os))
    (hn' : ∀ (r : ℕ → ℝ) (os : ℕ → ℕ), InUnit r → NoTurn env fmt p' (Backend.new r os)) (s s' : Backend)
    (Bs : List (Set Bytes)) :
    streams {r | ∃ outs, written env fmt p Bs.length (resampled r s) = .ok outs ∧ List.Forall₂ (· ∈ ·) outs Bs} =
      streams {r | ∃ outs, written env fmt p' Bs.length (resampled r s') = .ok outs ∧ List.Forall₂ (· ∈ ·) outs Bs} := by
  rw [C57_shots he hm hn, C57_shots he hm' hn']
  simp only [C86_chance h]

/-- **C86**, failures: they fail at the same shot with the same message with the same probability. -/
theorem C86_fails (he : env.eps = 0) (h : Rearranged p p') (hm : ∀ r, InUnit r → Meaningful p (Device.init r))
    (hm' : ∀ r, InUnit r → Meaningful p' (Device.init r))
    (hn : ∀ (r : ℕ → ℝ) (os : ℕ → ℕ), InUnit r → NoTurn env fmt p (Backend.new r os))
    (hn' : ∀ (r : ℕ → ℝ) (os : ℕ → ℕ), InUnit r → NoTurn env fmt p' (Backend.new r os)) (s s' : Backend)
    (Bs : List (Set Bytes)) (B : Set Bytes) (n : ℕ) (hl : Bs.length < n) :
    streams {r | ∃ outs o, written env fmt p n (resampled r s) = .error (outs, o) ∧
        List.Forall₂ (· ∈ ·) outs Bs ∧ o ∈ B} =
      streams {r | ∃ outs o, written env fmt p' n (resampled r s') = .error (outs, o) ∧
        List.Forall₂ (· ∈ ·) outs Bs ∧ o ∈ B} := by
  rw [C57_fails he hm hn s Bs B n hl, C57_fails he hm' hn' s' Bs B n hl]
  simp only [C86_chance h]

/-! ### Programs with fixed qubits -/

/-- The program names its qubits by number, with distinct operands, and does not rotate about Y without controls. -/
def Fixed : Prog QCall QAns → Prop
  | .done => True
  | .call c k => c.Static ∧ c.Distinct ∧ c.Determined ∧ NoY c ∧ ∀ a, Fixed (k a)

theorem Fixed.meaningful {p : Prog QCall QAns} (h : Fixed p) : ∀ {δ : Device}, δ.live = Finset.range δ.high →
    Meaningful p δ := by
  induction p with
  | done => intro δ _; trivial
  | call c k ih =>
    intro δ hl
    obtain ⟨h1, h2, h3, -, h5⟩ := h
    exact ⟨static_valid hl h1 h2, h3, fun a es δ' hs => ih a (h5 a) (static_step hl h1 hs).1⟩

theorem Fixed.noY {p : Prog QCall QAns} (h : Fixed p) : NoYProg p := by
  induction p with
  | done => trivial
  | call c k ih => exact ⟨h.2.2.2.1, fun a => ih a (h.2.2.2.2 a)⟩

/-- **C86**, programs with fixed qubits: nothing else has to be assumed. -/
theorem C86_fixed (he : env.eps = 0) (h : Rearranged p p') (hp : Fixed p) (hp' : Fixed p') (s s' : Backend)
    (Bs : List (Set Bytes)) :
    streams {r | ∃ outs, written env fmt p Bs.length (resampled r s) = .ok outs ∧ List.Forall₂ (· ∈ ·) outs Bs} =
      streams {r | ∃ outs, written env fmt p' Bs.length (resampled r s') = .ok outs ∧ List.Forall₂ (· ∈ ·) outs Bs} :=
  C86_shots he h (fun _ _ => hp.meaningful rfl) (fun _ _ => hp'.meaningful rfl) (fun _ _ _ => hp.noY.noTurn _)
    (fun _ _ _ => hp'.noY.noTurn _) s s' Bs

/-! ### What can be reached by rearranging -/

/-- A call may be moved to the front of calls it is apart from. -/
theorem C86_move {d : QCall} (cs : List QCall) (hd : ∀ c ∈ cs, Apart c d) (k : QAns → Prog QCall QAns) :
    Rearranged (andThen cs (.call d k)) (.call d fun a => andThen cs (k a)) := by
  induction cs with
  | nil => exact .refl _
  | cons c cs ih =>
    have h := hd c (by simp)
    exact .trans (.under h.proper fun _ => ih fun c hc => hd c (by simp [hc]))
      (.swap (fun _ b => andThen cs (k b)) h)

/-- The list `l` consists of `cs` and `ds`, each in its order. -/
inductive Interleaved : List QCall → List QCall → List QCall → Prop
  | nil : Interleaved [] [] []
  | left {c : QCall} {cs ds l : List QCall} (h : Interleaved cs ds l) : Interleaved (c :: cs) ds (c :: l)
  | right {d : QCall} {cs ds l : List QCall} (h : Interleaved cs ds l) : Interleaved cs (d :: ds) (d :: l)

/-- **C86**, scheduling: two sequences of calls that are apart may be interleaved in any way. -/
theorem C86_interleave {cs ds l : List QCall} (hl : Interleaved cs ds l) (h : ∀ c ∈ cs, ∀ d ∈ ds, Apart c d)
    (hd : ∀ c ∈ cs ++ ds, c.Distinct) (p : Prog QCall QAns) :
    Rearranged (andThen l p) (andThen cs (andThen ds p)) := by
  induction hl with
  | nil => exact .refl _
  | @left c cs ds l _ ih =>
    exact .under (hd c (by simp)) fun _ => ih (fun c hc d hd => h c (by simp [hc]) d hd)
      fun c hc => hd c (by simpa using .inr (by simpa using hc))
  | @right d cs ds l _ ih =>
    refine .trans (.under (hd d (by simp)) fun _ => ih (fun c hc d hd => h c hc d (by simp [hd]))
      fun c hc => hd c ?_) (.symm (C86_move cs (fun c hc => h c hc d (by simp)) fun _ => andThen ds p))
    rcases List.mem_append.1 hc with hc | hc <;> simp [hc]

/-- Every call of the program is apart from `c`. -/
def AllApart (c : QCall) : Prog QCall QAns → Prop
  | .done => True
  | .call d k => Apart c d ∧ ∀ a, AllApart c (k a)

/-- **C86**, useless calls: a call, of a measurement say, whose qubits and registers are not used afterwards may be left out.
What is done to some qubits cannot be seen in others. -/
theorem C86_unused {c : QCall} (hm : Movable c) (hd : c.Distinct) (hq : Quiet c) {p : Prog QCall QAns}
    (h : AllApart c p) : Rearranged (.call c fun _ => p) p := by
  induction p with
  | done => exact .drop hm hd hq
  | call d k ih =>
    exact .trans (.swap (fun _ b => k b) h.1) (.under h.1.proper' fun a => ih a (h.2 a))

/-! ### Why the conditions are needed -/

/-- Measure qubit 0 into register 0 and record register 1. -/
def measureThenRecord : Prog QCall QAns := .call (.mz 0 0) fun _ => .call (.recordResult 1 none) fun _ => .done

/-- The other way round. -/
def recordThenMeasure : Prog QCall QAns := .call (.recordResult 1 none) fun _ => .call (.mz 0 0) fun _ => .done

theorem result_chance (T : Set (List Event)) [DecidablePred (· ∈ T)] :
    chance measureThenRecord blank (records T) = (if [.record (.result false none)] ∈ T then 1 else 0) ∧
    chance recordThenMeasure blank (records T) = (if [.record (.result true none)] ∈ T then 1 else 0) := by
  constructor
  · have hw := Arr.weight_add (c := .mz 0 0) trivial trivial blank_fit
    have h := Arr.chance_arm (c := .mz 0 0) trivial trivial blank_fit
      (fun _ => .call (.recordResult 1 none) fun _ => .done) (records T)
    have hv : ∀ v, chance (.call (.recordResult 1 none) fun _ => .done) (Arr.next (.mz 0 0) v blank)
        (Arr.shifted (Arr.noted (.mz 0 0) blank) (records T)) =
          if [.record (.result false none)] ∈ T then 1 else 0 := by
      intro v
      simp [chance, measures, Device.step, Device.resultValue, Arr.shifted, Arr.noted, records, Arr.next, Arr.put,
        Arr.marked, Arr.kept, blank, Device.init]
    rw [hv, hv, ← add_mul, hw, one_mul] at h
    exact h
  · have hr : blank.resultValue 1 = true := by simp [Device.resultValue, blank, Device.init]
    have hw := Arr.weight_add (c := .mz 0 0) trivial trivial blank_fit
    have h := Arr.chance_drop (c := .mz 0 0) trivial trivial trivial blank_fit
      (Arr.shifted [.record (.result true none)] (records T))
    have e : chance recordThenMeasure blank (records T) =
        chance (.call (.mz 0 0) fun _ => .done) blank (Arr.shifted [.record (.result true none)] (records T)) := by
      rw [recordThenMeasure, chance]
      simp only [measures, Device.step, hr]
      rfl
    rw [e, h]
    simp [chance, Arr.shifted, records]

theorem result_fixed : Fixed measureThenRecord ∧ Fixed recordThenMeasure := by
  simp [measureThenRecord, recordThenMeasure, Fixed, QCall.Static, QCall.Distinct, QCall.Determined, NoY]

/-- **C86**, the condition on registers.  The output of a result must not be exchanged even with a measurement into another
register: as long as no register has been used, the result with number 1 reads as one, afterwards as zero.  So the first
program always writes 0, and the second always writes 1. -/
theorem C86_result (he : env.eps = 0) (s : Backend) :
    ¬ Rearranged measureThenRecord recordThenMeasure ∧
    streams {r | written env fmt measureThenRecord 1 (resampled r s) = .ok [bitLine false]} = 1 ∧
    streams {r | written env fmt recordThenMeasure 1 (resampled r s) = .ok [bitLine true]} = 1 := by
  classical
  have hl : ∀ (p : Prog QCall QAns) (b : Bool), {r | written env fmt p 1 (resampled r s) = .ok [bitLine b]} =
      {r | ∃ outs, written env fmt p [({bitLine b} : Set Bytes)].length (resampled r s) = .ok outs ∧
        List.Forall₂ (· ∈ ·) outs [({bitLine b} : Set Bytes)]} := by
    intro p b
    ext r
    simp only [Set.mem_ofPred_eq, List.length_singleton]
    constructor
    · intro e
      exact ⟨_, e, .cons rfl .nil⟩
    · rintro ⟨outs, e, h⟩
      cases h with
      | cons h1 h2 =>
        cases h2
        rw [e, Set.mem_singleton_iff.1 h1]
  refine ⟨fun h => ?_, ?_, ?_⟩
  · have := C86_chance h (records {[.record (.result false none)]})
    rw [(result_chance _).1, (result_chance _).2] at this
    simp at this
  · rw [hl, C57_shots he (fun _ _ => result_fixed.1.meaningful rfl) (fun _ _ _ => result_fixed.1.noY.noTurn _),
      List.map_singleton, List.prod_singleton, (result_chance _).1,
      if_pos (show _ ∈ {es | lines es ∈ ({bitLine false} : Set Bytes)} from coin_lines false),
      ENNReal.ofReal_one]
  · rw [hl, C57_shots he (fun _ _ => result_fixed.2.meaningful rfl) (fun _ _ _ => result_fixed.2.noY.noTurn _),
      List.map_singleton, List.prod_singleton, (result_chance _).2,
      if_pos (show _ ∈ {es | lines es ∈ ({bitLine true} : Set Bytes)} from coin_lines true),
      ENNReal.ofReal_one]

/-! ### A concrete program -/

/-- Two coins, one after the other. -/
def coins : List QCall := [.gate .h 0, .mz 0 0, .gate .h 1, .mz 1 1]

/-- Two coins at the same time. -/
def coins' : List QCall := [.gate .h 1, .gate .h 0, .mz 1 1, .mz 0 0]

/-- Record both. -/
def report : Prog QCall QAns := andThen [.recordResult 0 none, .recordResult 1 none] .done

/-- The first program also measures a qubit in vain. -/
theorem coins_rearranged : Rearranged (andThen coins (.call (.m 0) fun _ => report)) (andThen coins' report) := by
  have hu : Rearranged (.call (.m 0) fun _ => report) report := by
    refine C86_unused (c := .m 0) trivial trivial trivial ⟨?_, fun _ => ⟨?_, fun _ => trivial⟩⟩ <;>
      exact ⟨trivial, trivial, trivial, trivial, by simp [QCall.uses], by simp [registers], .inl trivial⟩
  have h1 : Rearranged (andThen coins (.call (.m 0) fun _ => report)) (andThen coins report) :=
    .under (c := .gate .h 0) trivial fun _ => .under (c := .mz 0 0) trivial fun _ => .under (c := .gate .h 1) trivial
      fun _ => .under (c := .mz 1 1) trivial fun _ => hu
  have ha : ∀ c ∈ [QCall.gate .h 0, .mz 0 0], ∀ d ∈ [QCall.gate .h 1, .mz 1 1], Apart c d := by
    intro c hc d hd
    simp only [List.mem_cons, List.not_mem_nil, or_false] at hc hd
    rcases hc with rfl | rfl <;> rcases hd with rfl | rfl <;>
      exact ⟨trivial, trivial, trivial, trivial, by simp [QCall.uses], by simp [registers], .inl trivial⟩
  have hl : Interleaved [.gate .h 0, .mz 0 0] [.gate .h 1, .mz 1 1] coins' := .right (.left (.right (.left .nil)))
  have h2 := C86_interleave hl ha (by simp [QCall.Distinct]) report
  exact .trans h1 (.symm h2)

theorem coins_fixed : Fixed (andThen coins (.call (.m 0) fun _ => report)) ∧ Fixed (andThen coins' report) := by
  simp [coins, coins', report, andThen, Fixed, QCall.Static, QCall.Distinct, QCall.Determined, NoY]

/-- The histograms of both are the same. -/
example (he : env.eps = 0) (s s' : Backend) (B : Set Bytes) :
    streams {r | ∃ outs, written env fmt (andThen coins (.call (.m 0) fun _ => report)) 1 (resampled r s) = .ok outs ∧
        List.Forall₂ (· ∈ ·) outs [B]} =
      streams {r | ∃ outs, written env fmt (andThen coins' report) 1 (resampled r s') = .ok outs ∧
        List.Forall₂ (· ∈ ·) outs [B]} :=
  C86_fixed he coins_rearranged coins_fixed.1 coins_fixed.2 s s' [B]

end Qir.Back

namespace Qir.RBack
open Spec Sim Qir.Out Run Rnd MeasureTheory
open Qir.Back (Backend Fmt streams blank Rearranged)

/-- **C86**, rounded arithmetic: the distributions of the outputs differ by at most the sum of the bounds of C63 for the two
programs. -/
theorem C86_rounded {A : Arith} {N W M N' W' M' : ℕ} {T T' : ℝ} {fmt : Fmt} {p p' : Prog QCall QAns}
    (h : Rearranged p p') (h0 : 0 < A.eps) (h1 : A.eps ≤ 1 / 4) (h2 : 1000 * (A.u + A.eta) ≤ A.eps)
    (hw : Within A N p blank W M T) (hT : A.u * T + A.eta ≤ A.eps)
    (ht : Turnless A fmt p (Backend.new (fun _ => 0) fun _ => 0))
    (hw' : Within A N' p' blank W' M' T') (hT' : A.u * T' + A.eta ≤ A.eps)
    (ht' : Turnless A fmt p' (Backend.new (fun _ => 0) fun _ => 0)) (os os' : ℕ → ℕ) (S : Set (Bytes × Bool)) :
    |streams.real {r | outcome A fmt p (Backend.new r os) ∈ S} -
      streams.real {r | outcome A fmt p' (Backend.new r os') ∈ S}| ≤ gap A N W M + gap A N' W' M' := by
  have e1 := (C63_distance h0 h1 h2 hw hT ht os S).2
  have e2 := (C63_distance h0 h1 h2 hw' hT' ht' os' S).2
  rw [Back.C86_chance h] at e1
  rw [abs_sub_comm] at e2
  exact (abs_sub_le _ _ _).trans (add_le_add e1 e2)

end Qir.RBack
