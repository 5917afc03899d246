import Verif.Proof.AlikeBack
import Verif.Props.Chance
import Verif.Props.Transcript

/-!
# The distribution of what any program prints (C57, C58)

The theorems of Chance.lean are about programs that avoid the wrong rotations of C01.  For the others it has to be known
whether a rotation is carried out the wrong way round, and this does not depend on what is measured: the same gates are
pending after the same calls.  So for every program there is one program, the same for all samples, that differs
from it in the sense of rotations about Y only, and the shots print what the ideal device prints with that program.
-/

noncomputable section
namespace Qir.Back
open Spec Sim Qir.Out Run MeasureTheory

variable {env : Env} {fmt : Fmt} {p : Prog QCall QAns}

/-- The states in which a call can leave the backend, with a given answer. -/
def after (env : Env) (fmt : Fmt) (c : QCall) (a : QAns) (P : Set Backend) : Set Backend :=
  {s' | ∃ s ∈ P, ∃ out, qstep env fmt c s = .ok (a, out, s')}

open Classical in
/-- The call carried out when `c` is requested in one of the states in `P`. -/
def carried (P : Set Backend) (c : QCall) : QCall := if h : P.Nonempty then carriedOut h.some c else c

/-- The program carried out when `p` is run from one of the states in `P`. -/
def carry (env : Env) (fmt : Fmt) : Prog QCall QAns → Set Backend → Prog QCall QAns
  | .done, _ => .done
  | .call c k, P => .call (carried P c) fun a =>
      carry env fmt (k a) (after env fmt c a P)

/-- The new backends. -/
def fresh : Set Backend := {s | ∃ r os, InUnit r ∧ s = Backend.new r os}

/-- The program carried out by the shots of `p`, whatever the samples. -/
def settled (env : Env) (fmt : Fmt) (p : Prog QCall QAns) : Prog QCall QAns := carry env fmt p fresh

/-! ### What it is -/

/-- Specification: the same call, or a rotation about Y in the opposite sense. -/
def Resigned : QCall → QCall → Prop
  | .gate (.ry θ) q, c => c = .gate (.ry θ) q ∨ c = .gate (.ry (-θ)) q
  | .r .Y θ q, c => c = .r .Y θ q ∨ c = .r .Y (-θ) q
  | .rAdj .Y θ q, c => c = .rAdj .Y θ q ∨ c = .rAdj .Y (-θ) q
  | c, c' => c' = c

/-- Specification: the programs differ in the sense of uncontrolled rotations about Y only. -/
def ResignedProg : Prog QCall QAns → Prog QCall QAns → Prop
  | .done, p' => p' = .done
  | .call c k, p' => ∃ c' k', p' = .call c' k' ∧ Resigned c c' ∧ ∀ a, ResignedProg (k a) (k' a)

theorem Resigned.refl (c : QCall) : Resigned c c := by
  unfold Resigned
  split <;> first | exact .inl rfl | rfl

theorem resigned_carriedOut (s : Backend) (c : QCall) : Resigned c (carriedOut s c) := by
  unfold carriedOut
  split
  · split
    · exact .inr rfl
    · exact .inl rfl
  · split
    · exact .inr rfl
    · exact .inl rfl
  · split
    · exact .inr rfl
    · exact .inl rfl
  · exact .refl _

theorem resigned_carry (p : Prog QCall QAns) : ∀ P : Set Backend, ResignedProg p (carry env fmt p P) := by
  induction p with
  | done => intro P; rfl
  | call c k ih =>
    intro P
    refine ⟨_, _, rfl, ?_, fun a => ih a _⟩
    unfold carried
    split
    · exact resigned_carriedOut _ c
    · exact .refl c

/-- The program carried out differs from the program in the sense of uncontrolled rotations about Y only. -/
theorem C57_resigned (env : Env) (fmt : Fmt) (p : Prog QCall QAns) : ResignedProg p (settled env fmt p) :=
  resigned_carry p _

theorem carry_noTurn (p : Prog QCall QAns) : ∀ P : Set Backend, (∀ s ∈ P, NoTurn env fmt p s) →
    carry env fmt p P = p := by
  induction p with
  | done => intro P _; rfl
  | call c k ih =>
    intro P h
    have h1 : carried P c = c := by
      unfold carried
      split
      · next hP => exact carriedOut_ok (h _ hP.some_mem).1
      · rfl
    unfold carry
    rw [h1]
    congr 1
    funext a
    exact ih a _ fun s' ⟨s, hs, out, e⟩ => (h s hs).2 a out s' e

/-- A program that avoids the wrong rotations is carried out as it is. -/
theorem C57_unturned (hn : ∀ (r : ℕ → ℝ) (os : ℕ → ℕ), InUnit r → NoTurn env fmt p (Backend.new r os)) :
    settled env fmt p = p :=
  carry_noTurn p _ fun _ ⟨r, os, hr, e⟩ => e ▸ hn r os hr

/-! ### The shots -/

theorem AlikeB.carriedOut {s s' : Backend} (h : AlikeB s s') (c : QCall) : carriedOut s' c = carriedOut s c := by
  have : ∀ q, PendingHalfTurn s'.sim q ↔ PendingHalfTurn s.sim q := fun q => by
    unfold PendingHalfTurn
    rw [h.1.rx]
  classical
  unfold Back.carriedOut
  split <;> first | rfl | simp only [this _]

/-- One call, of those that have a determined effect. -/
theorem qref_carried {s : Backend} {δ : Device} (he : env.eps = 0) (h : QRef s δ) {c : QCall}
    (hv : δ.Valid (carriedOut s c)) (hd : (carriedOut s c).Determined) :
    (∀ a es δ', δ.step (carriedOut s c) = .ok (a, es, δ') →
      ∃ s', qstep env fmt c s = .ok (a, lines es, s') ∧ QRef s' δ') ∧
    (∀ m, δ.step (carriedOut s c) = .error m → qstep env fmt c s = .error (.fail m)) := by
  by_cases hok : QCallOk s c
  · rw [carriedOut_ok hok] at hv hd ⊢
    exact qref_step he h hv hd hok
  · cases c with
    | gate g q =>
      cases g with
      | ry θ =>
        have hp : PendingHalfTurn s.sim q := not_not.1 hok
        rw [show carriedOut s (.gate (.ry θ) q) = .gate (.ry (-θ)) q from if_pos hp] at hv hd ⊢
        obtain ⟨s', e, h'⟩ := gate_meant he h hv θ hp
        refine ⟨fun a es δ' e' => ?_, fun m e' => by cases e'⟩
        cases e'
        exact ⟨s', by simp only [qstep, e]; rfl, h'⟩
      | _ => exact absurd trivial hok
    | r p θ q =>
      cases p with
      | Y =>
        have hp : PendingHalfTurn s.sim q := not_not.1 hok
        rw [show carriedOut s (.r .Y θ q) = .r .Y (-θ) q from if_pos hp] at hv hd ⊢
        obtain ⟨s', e, h'⟩ := r_meant he h (hv.resolve_left (by decide)) θ hp
        refine ⟨fun a es δ' e' => ?_, fun m e' => by cases e'⟩
        cases e'
        refine ⟨s', by simp only [qstep, e]; rfl, ?_⟩
        show QRef s' (δ.apply [q] (ctrlExp [] [(.Y, q)] (-(-θ / 2))))
        rw [show -(-θ / 2) = θ / 2 by ring]
        exact h'
      | _ => exact absurd trivial hok
    | rAdj p θ q =>
      cases p with
      | Y =>
        have hp : PendingHalfTurn s.sim q := not_not.1 hok
        rw [show carriedOut s (.rAdj .Y θ q) = .rAdj .Y (-θ) q from if_pos hp] at hv hd ⊢
        obtain ⟨s', e, h'⟩ := r_meant he h (hv.resolve_left (by decide)) (-θ) hp
        refine ⟨fun a es δ' e' => ?_, fun m e' => by cases e'⟩
        cases e'
        exact ⟨s', by simp only [qstep, rAdj, e]; rfl, h'⟩
      | _ => exact absurd trivial hok
    | _ => exact absurd trivial hok

theorem speech_carry (he : env.eps = 0) (p : Prog QCall QAns) : ∀ {P : Set Backend}
    (_ : ∀ s ∈ P, ∀ s' ∈ P, AlikeB s s') {s : Backend} {δ : Device}, s ∈ P → QRef s δ → Meaningful (carry env fmt p P) δ →
    match idealRun (carry env fmt p P) δ with
    | .error es => speech (step env fmt) p s = .error (lines es)
    | .ok (es, δ') => ∃ s', speech (step env fmt) p s = .ok (lines es, s') ∧ QRef s' δ' := by
  induction p with
  | done => intro P _ s δ _ h _; exact ⟨s, rfl, h⟩
  | call c k ih =>
    intro P hP s δ hsP h hm
    have hne : P.Nonempty := ⟨s, hsP⟩
    have hc : carried P c = carriedOut s c := by
      unfold carried
      rw [dif_pos hne]
      exact (hP s hsP _ hne.some_mem).carriedOut c
    unfold carry at hm ⊢
    rw [hc] at hm ⊢
    have hs := qref_carried (fmt := fmt) he h hm.1 hm.2.1
    simp only [idealRun, speech]
    cases hc : δ.step (carriedOut s c) with
    | error m =>
      simp only [step, hs.2 m hc, fail_line]
    | ok r =>
      obtain ⟨a, es, δ1⟩ := r
      obtain ⟨s1, e1, h1⟩ := hs.1 a es δ1 hc
      have hP' : ∀ s ∈ after env fmt c a P, ∀ s' ∈ after env fmt c a P, AlikeB s s' := by
        rintro t ⟨u, hu, out, e⟩ t' ⟨u', hu', out', e'⟩
        exact rl_qstep env fmt (hP u hu u' hu') c _ _ e e'
      have := ih a hP' ⟨s, hsP, _, e1⟩ h1 (hm.2.2 a es δ1 hc)
      simp only [step, e1]
      cases hi : idealRun (carry env fmt (k a) (after env fmt c a P)) δ1 with
      | error es' =>
        simp only [hi] at this
        simp only [this, lines_append]
      | ok r =>
        obtain ⟨es', δ2⟩ := r
        simp only [hi] at this
        obtain ⟨s2, e2, h2⟩ := this
        simp only [e2, lines_append]
        exact ⟨s2, rfl, h2⟩

theorem fresh_alike : ∀ s ∈ fresh, ∀ s' ∈ fresh, AlikeB s s' := by
  rintro s ⟨r, os, _, rfl⟩ s' ⟨r', os', _, rfl⟩
  exact ⟨⟨rfl, rfl, rfl, rfl⟩, rfl⟩

theorem session_carry (he : env.eps = 0) (p : Prog QCall QAns)
    (hm : ∀ rng : ℕ → ℝ, InUnit rng → Meaningful (settled env fmt p) (Device.init rng)) (n : ℕ) :
    ∀ s : Backend, InUnit s.sim.rng →
    match idealShots (settled env fmt p) n s.sim.rng with
    | .error (ess, es) => session (step env fmt) reinit p n s = .error (ess.map lines, lines es)
    | .ok ess => ∃ s', session (step env fmt) reinit p n s = .ok (ess.map lines, s') := by
  induction n with
  | zero => intro s _; exact ⟨s, rfl⟩
  | succ n ih =>
    intro s hr
    have h1 := speech_carry he p fresh_alike ⟨_, s.os, hr, rfl⟩ (qref_new hr s.os) (hm _ hr)
    rw [← reinit_eq] at h1
    simp only [idealShots, session]
    unfold settled
    cases hi : idealRun (carry env fmt p fresh) (Device.init s.sim.rng) with
    | error es =>
      simp only [hi] at h1
      simp only [h1, List.map_nil]
    | ok r =>
      obtain ⟨es, δ⟩ := r
      simp only [hi] at h1
      obtain ⟨s1, e1, h1⟩ := h1
      have hrng : s1.sim.rng = δ.rng := h1.sim.rng
      have h2 := ih s1 (by rw [hrng]; exact h1.sim.good.samples)
      rw [hrng] at h2
      simp only [e1]
      unfold settled at h2
      cases hj : idealShots (carry env fmt p fresh) n δ.rng with
      | error r =>
        obtain ⟨ess, es'⟩ := r
        simp only [hj] at h2
        simp only [h2, List.map_cons]
      | ok ess =>
        simp only [hj] at h2
        obtain ⟨s2, e2⟩ := h2
        simp only [e2, List.map_cons]
        exact ⟨_, rfl⟩

theorem written_settled (he : env.eps = 0)
    (hm : ∀ r, InUnit r → Meaningful (settled env fmt p) (Device.init r)) : Writes env fmt p (settled env fmt p) := by
  intro n s hs
  have h1 := session_carry (fmt := fmt) he p hm n s hs
  unfold written
  cases hi : idealShots (settled env fmt p) n s.sim.rng with
  | error e =>
    simp only [hi] at h1
    rw [h1]
    rfl
  | ok ess =>
    simp only [hi] at h1
    obtain ⟨s', h1⟩ := h1
    rw [h1]
    rfl

/-! ### C49 -/

/-- **C49** without a case left out: the transcript is that of the ideal device, given the program carried out, which
is the same for all samples. -/
theorem C49_settled (he : env.eps = 0) (toStdOut : Bool) (fs : List Func) (code : Func → Prog QCall QAns)
    (name : Option String) (f : Func) (n : ℕ) (s : Backend) (io : Io) (hb : ∃ m, bindFunctions fs = .ok m)
    (hf : chooseEntryPoint fs name = .ok f) (hp : f.params = 0) (hr : Ready toStdOut io) (samples : InUnit s.sim.rng)
    (hm : ∀ rng : ℕ → ℝ, InUnit rng → Meaningful (settled env fmt (code f)) (Device.init rng)) :
    match idealShots (settled env fmt (code f)) n s.sim.rng with
    | .ok ess => ∃ s' io', runModule (step env fmt) reinit toStdOut fs code name n s io = .ok (s', io') ∧
        seen toStdOut io' = seen toStdOut io ++ ess.flatMap (fun es => block f.attrs (lines es))
    | .error (ess, es) => ∃ io',
        runModule (step env fmt) reinit toStdOut fs code name n s io = .error (.aborted, io') ∧
        seen toStdOut io' = seen toStdOut io ++ ess.flatMap (fun es => block f.attrs (lines es)) ++
          utf8 "START\n" ++ f.attrs.flatMap metadataLine ++ (if io.recorder.useStdOut then lines es else []) ∧
        io'.recorder.buffer = if io.recorder.useStdOut then [] else lines es := by
  have h1 := session_carry he (code f) hm n s samples
  have h2 := runShots_session (step env fmt) reinit toStdOut f hp (code f) n s io hr
  rw [runModule_eq hb hf]
  cases hi : idealShots (settled env fmt (code f)) n s.sim.rng with
  | error r =>
    obtain ⟨ess, es⟩ := r
    simp only [hi] at h1
    simp only [h1, List.flatMap_map] at h2
    obtain ⟨io', e1, e2, e3, -⟩ := h2
    exact ⟨io', e1, e2, e3⟩
  | ok ess =>
    simp only [hi] at h1
    obtain ⟨s', h1⟩ := h1
    simp only [h1, List.flatMap_map] at h2
    obtain ⟨io', e1, _, _, e2, _⟩ := h2
    exact ⟨s', io', e1, e2⟩

/-! ### C57 and C58 -/

/-- **C57** for every program: the shots are independent, and each writes something in a given set with the probability
with which the ideal device does, given the program carried out. -/
theorem C57_every (he : env.eps = 0) (hm : ∀ r, InUnit r → Meaningful (settled env fmt p) (Device.init r))
    (s : Backend) (Bs : List (Set Bytes)) :
    streams {r | ∃ outs, written env fmt p Bs.length (resampled r s) = .ok outs ∧ List.Forall₂ (· ∈ ·) outs Bs} =
      (Bs.map fun B => ENNReal.ofReal (chance (settled env fmt p) blank (records {es | lines es ∈ B}))).prod :=
  (written_settled he hm).shots hm s Bs

/-- **C57** for every program, failures. -/
theorem C57_every_fails (he : env.eps = 0) (hm : ∀ r, InUnit r → Meaningful (settled env fmt p) (Device.init r))
    (s : Backend) (Bs : List (Set Bytes)) (B : Set Bytes) (n : ℕ) (hl : Bs.length < n) :
    streams {r | ∃ outs o, written env fmt p n (resampled r s) = .error (outs, o) ∧
        List.Forall₂ (· ∈ ·) outs Bs ∧ o ∈ B} =
      (Bs.map fun B => ENNReal.ofReal (chance (settled env fmt p) blank (records {es | lines es ∈ B}))).prod *
        ENNReal.ofReal (chance (settled env fmt p) blank (failsWith {es | lines es ∈ B})) :=
  (written_settled he hm).fails hm s Bs B n hl

/-- **C58** for every program: the table of relative frequencies converges. -/
theorem C58_every (he : env.eps = 0) (hm : ∀ r, InUnit r → Meaningful (settled env fmt p) (Device.init r))
    (hf : chance (settled env fmt p) blank (failsWith Set.univ) = 0) (s : Backend) :
    ∀ᵐ r ∂streams, ∃ out : ℕ → Bytes,
      (∀ n, written env fmt p n (resampled r s) = .ok ((List.range n).map out)) ∧
      ∀ b : Bytes, Filter.Tendsto (fun n : ℕ => (((List.range n).map out).count b : ℝ) / n) Filter.atTop
        (nhds (chance (settled env fmt p) blank (records {es | lines es = b}))) :=
  (written_settled he hm).histogram hm hf s

/-- Specification: every call of the program has a determined effect. -/
def Plain : Prog QCall QAns → Prop
  | .done => True
  | .call c k => c.Determined ∧ ∀ a, Plain (k a)

theorem Resigned.step {c c' : QCall} (h : Resigned c c') (hd : c.Determined) (δ : Device) :
    (δ.Valid c → δ.Valid c') ∧ c'.Determined ∧ ∀ a es δ', δ.step c' = .ok (a, es, δ') →
      ∃ δ'' φ, May fmt δ c a (lines es) δ'' ∧ δ' = { δ'' with psi := φ } := by
  have same : (δ.Valid c → δ.Valid c) ∧ c.Determined ∧ ∀ a es δ', δ.step c = .ok (a, es, δ') →
      ∃ δ'' φ, May fmt δ c a (lines es) δ'' ∧ δ' = { δ'' with psi := φ } := by
    refine ⟨fun h => h, hd, fun a es δ' e => ⟨δ', δ'.psi, ?_, rfl⟩⟩
    cases c <;> first | exact ⟨es, e, rfl⟩ | exact hd.elim
  unfold Resigned at h
  split at h
  · rcases h with rfl | rfl
    · exact same
    · exact ⟨fun h => h, trivial, fun a es δ' e => by cases e; exact ⟨_, _, ⟨[], rfl, rfl⟩, rfl⟩⟩
  · rcases h with rfl | rfl
    · exact same
    · exact ⟨fun h => h, trivial, fun a es δ' e => by cases e; exact ⟨_, _, ⟨[], rfl, rfl⟩, rfl⟩⟩
  · rcases h with rfl | rfl
    · exact same
    · exact ⟨fun h => h, trivial, fun a es δ' e => by cases e; exact ⟨_, _, ⟨[], rfl, rfl⟩, rfl⟩⟩
  · rw [h]; exact same

theorem meaningful_resigned (p : Prog QCall QAns) : ∀ {p' : Prog QCall QAns} {δ : Device}, ResignedProg p p' → Plain p →
    Sensible fmt p δ → Meaningful p' δ := by
  induction p with
  | done => intro p' δ h _ _; rw [show p' = .done from h]; trivial
  | call c k ih =>
    rintro p' δ ⟨c', k', rfl, hc, hk⟩ hp hs
    obtain ⟨h1, h2, h3⟩ := hc.step (fmt := fmt) hp.1 δ
    refine ⟨h1 hs.1, h2, fun a es δ' e => ?_⟩
    obtain ⟨δ'', φ, hm, rfl⟩ := h3 a es δ' e
    exact ih a (hk a) (hp.2 a) (hs.2.2 δ.psi a _ δ'' φ hm)

/-- If the program makes sense whatever is measured, and every call has a determined effect, then the program carried
out is meaningful. -/
theorem C57_meaningful (hp : Plain p) (hs : ∀ r, Sensible fmt p (Device.init r)) (r : ℕ → ℝ) :
    Meaningful (settled env fmt p) (Device.init r) :=
  meaningful_resigned p (C57_resigned env fmt p) hp (hs r)

/-! ### A program that is carried out the wrong way round -/

theorem turn_plain : Plain turnThenRecord := by
  refine ⟨trivial, fun _ => ⟨trivial, fun _ => ⟨trivial, fun _ => ⟨trivial, fun a => ?_⟩⟩⟩⟩
  dsimp only
  split
  · exact ⟨trivial, fun _ => trivial⟩
  · trivial

theorem turn_sensible (r : ℕ → ℝ) : Sensible fmt turnThenRecord (Device.init r) := by
  refine ⟨.inr (.inr ⟨rfl, le_refl _⟩), (by intro _ _ e; cases e), fun ψ a out δ φ h => ?_⟩
  obtain ⟨es, h1, h2⟩ := h
  cases h1
  refine ⟨.inr (.inl (by simp [Device.apply, Device.useAll, Device.use, Device.init])), (by intro _ _ e; cases e),
    fun ψ a out δ φ h => ?_⟩
  obtain ⟨es, h1, h2⟩ := h
  cases h1
  refine ⟨.inl (by simp [Device.apply, Device.useAll, Device.use, Device.init]), (by intro _ _ e; cases e),
    fun ψ a out δ φ h => ?_⟩
  obtain ⟨es, h1, h2⟩ := h
  cases h1
  refine ⟨.inl (by simp [Device.apply, Device.useAll, Device.use, Device.init]), (by intro _ _ e; cases e),
    fun ψ a out δ φ h => ?_⟩
  dsimp only
  split
  · exact ⟨trivial, (by intro _ _ e; cases e), fun _ _ _ _ _ _ => trivial⟩
  · trivial

theorem streams_sure {S : Set (ℕ → ℝ)} (h : ∀ r, InUnit r → r ∈ S) : streams S = 1 := by
  rw [← measure_univ (μ := streams)]
  refine measure_congr ?_
  filter_upwards [streams_unit] with r hr
  exact propext ⟨fun _ => trivial, fun _ => h r hr⟩

/-- A half-turn about X and a quarter-turn about Y: by quantum mechanics the result is 1 with certainty; the
program carried out, and so the code, yields 0 with certainty.  Hence the hypothesis on `NoTurn` of the theorems in
Chance.lean cannot be dropped, and the program carried out is the right one to ask. -/
theorem C57_turned (he : env.eps = 0) (s : Backend) :
    chance turnThenRecord blank (records {es | lines es ∈ ({bitLine true} : Set Bytes)}) = 1 ∧
    chance (settled env fmt turnThenRecord) blank (records {es | lines es ∈ ({bitLine false} : Set Bytes)}) = 1 ∧
    streams {r | written env fmt turnThenRecord 1 (resampled r s) = .ok [bitLine false]} = 1 := by
  have h3 : streams {r | written env fmt turnThenRecord 1 (resampled r s) = .ok [bitLine false]} = 1 := by
    refine streams_sure fun r hr => ?_
    obtain ⟨-, -, s', h⟩ := C49_counterexample (env := env) (fmt := fmt) he hr s.os
    show written env fmt turnThenRecord 1 (resampled r s) = .ok [bitLine false]
    unfold written
    have h' : speech (step env fmt) turnThenRecord (reinit (resampled r s)) =
        .ok (lines [.record (.result false none)], s') := h
    simp only [session, h', coin_lines]
    rfl
  refine ⟨?_, ?_, h3⟩
  · have h := (law turnThenRecord blank_fit (fun r hr => (C49_counterexample (env := env) (fmt := fmt) he hr s.os).1)
      {es | lines es ∈ ({bitLine true} : Set Bytes)} MeasurableSet.univ).1
    rw [streams_sure, measure_univ, mul_one] at h
    · have := congrArg ENNReal.toReal h
      rw [ENNReal.toReal_ofReal (chance_nonneg _ _ _)] at this
      simpa using this.symm
    · intro r hr
      obtain ⟨-, ⟨δ, e⟩, -⟩ := C49_counterexample (env := env) (fmt := fmt) he hr s.os
      exact ⟨_, δ, e, coin_lines true, trivial⟩
  · have h := C57_every (env := env) (fmt := fmt) he
      (fun r _ => C57_meaningful turn_plain (fun r => turn_sensible (fmt := fmt) r) r) s [{bitLine false}]
    have h4 : streams {r | ∃ outs, written env fmt turnThenRecord [({bitLine false} : Set Bytes)].length
        (resampled r s) = .ok outs ∧ List.Forall₂ (· ∈ ·) outs [({bitLine false} : Set Bytes)]} = 1 := by
      refine le_antisymm prob_le_one (h3 ▸ measure_mono fun r hr => ⟨_, hr, by simp⟩)
    rw [h4] at h
    have := congrArg ENNReal.toReal h
    simp only [List.map_cons, List.map_nil, List.prod_cons, List.prod_nil, mul_one] at this
    rw [ENNReal.toReal_ofReal (chance_nonneg _ _ _)] at this
    simpa using this.symm

end Qir.Back
