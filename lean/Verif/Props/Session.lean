import Verif.Props.SessionDefs
import Verif.Proof.Seeds
import Verif.Proof.BackReach
import Verif.Props.Backend

/-!
# Shots and seeds (C27, C48), and whole runs against the ideal device (C49)
-/

noncomputable section
namespace Qir.Back
open Spec Sim Qir.Out Run

variable {env : Env} {fmt : Fmt}

/-! ### Auxiliary facts about programs -/

theorem step_ok {c : QCall} {s : Backend} {r : QAns × Bytes × Backend} (h : step env fmt c s = .ok r) :
    qstep env fmt c s = .ok r := by
  unfold step at h
  cases hq : qstep env fmt c s with
  | error e => simp [hq] at h
  | ok r' => simp only [hq] at h; cases h; rfl

theorem step_os {c : QCall} (hc : NoDraw c) (o : ℕ → ℕ) (s : Backend) :
    step env fmt c (setOs o s) = (step env fmt c s).map (fun r => (r.1, r.2.1, setOs o r.2.2)) := by
  unfold step
  rw [qstep_os c hc]
  cases qstep env fmt c s <;> rfl

theorem speech_os {p : Prog QCall QAns} (hp : Seeded p) (o : ℕ → ℕ) : ∀ s : Backend,
    speech (step env fmt) p (setOs o s) = (speech (step env fmt) p s).map (fun r => (r.1, setOs o r.2)) := by
  induction p with
  | done => intro s; rfl
  | call c k ih =>
    intro s
    simp only [speech, step_os hp.1]
    cases step env fmt c s with
    | error e => rfl
    | ok r =>
      obtain ⟨a, out, s1⟩ := r
      simp only [Except.map, ih a (hp.2 a)]
      cases speech (step env fmt) (k a) s1 <;> rfl

theorem speech_takes (p : Prog QCall QAns) : ∀ (s : Backend) {out : Bytes} {s' : Backend},
    speech (step env fmt) p s = .ok (out, s') →
    ∃ k, ((trace (step env fmt) p s).map least).sum ≤ k ∧ k ≤ ((trace (step env fmt) p s).map most).sum ∧
      Advanced k s.sim.rng s'.sim.rng := by
  induction p with
  | done => intro s out s' h; cases h; exact ⟨0, le_refl _, le_refl _, .refl _⟩
  | call c k ih =>
    intro s out s' h
    simp only [speech] at h
    simp only [trace]
    cases hc : step env fmt c s with
    | error e => simp [hc] at h
    | ok r =>
      obtain ⟨a, o, s1⟩ := r
      simp only [hc] at h ⊢
      cases hk : speech (step env fmt) (k a) s1 with
      | error e => simp [hk] at h
      | ok r =>
        obtain ⟨o', s2⟩ := r
        simp only [hk, Except.ok.injEq, Prod.mk.injEq] at h
        obtain ⟨-, rfl⟩ := h
        obtain ⟨k1, a1, a2, a3⟩ := qstep_takes (step_ok hc)
        obtain ⟨k2, b1, b2, b3⟩ := ih a s1 hk
        refine ⟨k1 + k2, ?_, ?_, a3.trans b3⟩
        · simp only [List.map_cons, List.sum_cons]; omega
        · simp only [List.map_cons, List.sum_cons]; omega

theorem trace_os {p : Prog QCall QAns} (hp : Seeded p) (o : ℕ → ℕ) : ∀ s : Backend,
    trace (step env fmt) p (setOs o s) = trace (step env fmt) p s := by
  induction p with
  | done => intro s; rfl
  | call c k ih =>
    intro s
    simp only [trace, step_os hp.1]
    cases step env fmt c s with
    | error e => rfl
    | ok r =>
      obtain ⟨a, out, s1⟩ := r
      simp only [Except.map, ih a (hp.2 a)]

theorem reinit_eq (s : Backend) : reinit s = Backend.new s.sim.rng s.os := rfl

/-! ### C27 Shots are isolated -/

/-- **C27**.  Whatever a first program has done, with any arguments and in any order, after
`__quantum__rt__initialize` every program behaves as on a new backend whose random stream is the original one from
some position on.  The position is the number of samples taken: one for each measurement, at most one for each
release.  The answer includes what is written when a call panics, and the state left behind. -/
theorem C27_isolated (history : Prog QCall QAns) (rng : ℕ → ℝ) (os : ℕ → ℕ) {out : Bytes} {s : Backend}
    (h : speech (step env fmt) history (Backend.new rng os) = .ok (out, s)) :
    ∃ k, ((trace (step env fmt) history (Backend.new rng os)).map least).sum ≤ k ∧
      k ≤ ((trace (step env fmt) history (Backend.new rng os)).map most).sum ∧
      ∀ p : Prog QCall QAns,
        speech (step env fmt) p (reinit s) = speech (step env fmt) p (Backend.new (streamFrom k rng) s.os) := by
  obtain ⟨k, h1, h2, h3⟩ := speech_takes history _ h
  refine ⟨k, h1, h2, fun p => ?_⟩
  rw [reinit_eq, show s.sim.rng = streamFrom k rng from h3]

/-- **C27**, for programs that do not draw from the source of the operating system: two pasts that have brought the
stream to the same position cannot be told apart, whatever the states they have left. -/
theorem C27_indistinguishable (s₁ s₂ : Backend) (h : s₁.sim.rng = s₂.sim.rng) (p : Prog QCall QAns) (hp : Seeded p) :
    (speech (step env fmt) p (reinit s₁)).map Prod.fst = (speech (step env fmt) p (reinit s₂)).map Prod.fst ∧
    ∀ out s₁', speech (step env fmt) p (reinit s₁) = .ok (out, s₁') →
      ∃ s₂', speech (step env fmt) p (reinit s₂) = .ok (out, s₂') ∧ s₁'.sim = s₂'.sim ∧ s₁'.res = s₂'.res ∧
        s₁'.max = s₂'.max := by
  have e : reinit s₁ = setOs s₁.os (reinit s₂) := by rw [reinit_eq, reinit_eq, h]; rfl
  rw [e, speech_os hp]
  refine ⟨?_, fun out s₁' h' => ?_⟩
  · cases speech (step env fmt) p (reinit s₂) <;> rfl
  · cases hs : speech (step env fmt) p (reinit s₂) with
    | error e => rw [hs] at h'; cases h'
    | ok r =>
      rw [hs] at h'
      cases h'
      exact ⟨_, rfl, rfl, rfl, rfl⟩

/-- **C27** for the calls of the runner: in a session the output of shot `i` is that of the program on a new backend
at position `pos i` of the stream; the first position is 0, and each shot moves on by the samples it takes. -/
theorem C27_session (p : Prog QCall QAns) (hp : Seeded p) : ∀ (n : ℕ) (s : Backend) {outs : List Bytes} {s' : Backend},
    session (step env fmt) reinit p n s = .ok (outs, s') →
    ∃ pos : ℕ → ℕ, pos 0 = 0 ∧ s'.sim.rng = streamFrom (pos n) s.sim.rng ∧ ∀ i < n, ∀ os,
      (∃ s'', speech (step env fmt) p (Backend.new (streamFrom (pos i) s.sim.rng) os) = .ok (outs.getD i [], s'')) ∧
      pos i + ((trace (step env fmt) p (Backend.new (streamFrom (pos i) s.sim.rng) os)).map least).sum ≤ pos (i + 1) ∧
      pos (i + 1) ≤ pos i + ((trace (step env fmt) p (Backend.new (streamFrom (pos i) s.sim.rng) os)).map most).sum
  | 0, s, outs, s', h => by
    cases h
    exact ⟨fun _ => 0, rfl, rfl, fun i hi => absurd hi (by omega)⟩
  | n + 1, s, outs, s', h => by
    simp only [session] at h
    cases h1 : speech (step env fmt) p (reinit s) with
    | error e => simp [h1] at h
    | ok r =>
      obtain ⟨o, s1⟩ := r
      simp only [h1] at h
      cases h2 : session (step env fmt) reinit p n s1 with
      | error e => simp [h2] at h
      | ok r =>
        obtain ⟨os', s2⟩ := r
        simp only [h2, Except.ok.injEq, Prod.mk.injEq] at h
        obtain ⟨rfl, rfl⟩ := h
        obtain ⟨k, hk1, hk2, hk⟩ := speech_takes p _ h1
        replace hk : s1.sim.rng = streamFrom k s.sim.rng := hk
        obtain ⟨pos, hp0, hpn, hpos⟩ := C27_session p hp n s1 h2
        have shift : ∀ j, streamFrom j s1.sim.rng = streamFrom (k + j) s.sim.rng := by
          intro j; rw [hk]; funext i; unfold streamFrom; congr 1; omega
        have first : ∀ os, speech (step env fmt) p (Backend.new (streamFrom 0 s.sim.rng) os) =
            .ok (o, setOs os s1) := by
          intro os
          have e : Backend.new (streamFrom 0 s.sim.rng) os = setOs os (reinit s) := rfl
          rw [e, speech_os hp, h1]; rfl
        refine ⟨fun i => match i with | 0 => 0 | i + 1 => k + pos i, rfl, ?_, ?_⟩
        · rw [hpn, shift]
        · intro i hi os
          cases i with
          | zero =>
            have e : Backend.new (streamFrom 0 s.sim.rng) os = setOs os (reinit s) := rfl
            refine ⟨⟨_, first os⟩, ?_⟩
            dsimp only
            rw [e, trace_os hp, hp0]
            omega
          | succ i =>
            have := hpos i (by omega) os
            rw [shift] at this
            refine ⟨this.1, ?_, ?_⟩
            · have := this.2.1; dsimp only; omega
            · have := this.2.2; dsimp only; omega

/-! ### C48 Same seed, same transcript -/

theorem runProg_os {p : Prog QCall QAns} (hp : Seeded p) (o : ℕ → ℕ) : ∀ (s : Backend) (io : Io),
    runProg (step env fmt) p (setOs o s) io =
      (runProg (step env fmt) p s io).map (fun r => (setOs o r.1, r.2)) := by
  induction p with
  | done => intro s io; rfl
  | call c k ih =>
    intro s io
    simp only [runProg, step_os hp.1]
    cases step env fmt c s with
    | error e => rfl
    | ok r => simp only [Except.map, ih _ (hp.2 _)]

theorem runShots_seed (toStdOut : Bool) (f : Func) {p : Prog QCall QAns} (hp : Seeded p) (n : ℕ) :
    ∀ (s₁ s₂ : Backend) (io : Io), s₁.sim.rng = s₂.sim.rng →
    (runShots (step env fmt) reinit toStdOut f p n s₁ io).map Prod.snd =
      (runShots (step env fmt) reinit toStdOut f p n s₂ io).map Prod.snd := by
  induction n with
  | zero => intro s₁ s₂ io _; rfl
  | succ n ih =>
    intro s₁ s₂ io h
    have e : reinit s₁ = setOs s₁.os (reinit s₂) := by rw [reinit_eq, reinit_eq, h]; rfl
    simp only [runShots, runShot]
    by_cases hf : f.params = 0
    · simp only [if_pos hf, e, runProg_os hp]
      cases runProg (step env fmt) p (reinit s₂) _ with
      | error e => rfl
      | ok r => exact ih _ _ _ rfl
    · simp only [if_neg hf]

/-- **C48**, for every program that does not draw from the source of the operating system: whatever two backends
have been through, once they are given the same seed the same module runs in the same way: the same error or
success, and the same bytes on the standard output, handed to the writer, and left in the recorder. -/
theorem C48_reproducible_partial (toStdOut : Bool) (fs : List Func) (code : Func → Prog QCall QAns)
    (name : Option String) (shots : ℕ) (stream : ℕ → ℝ) (b₁ b₂ : Backend) (io : Io) (hp : ∀ f ∈ fs, Seeded (code f)) :
    (runModule (step env fmt) reinit toStdOut fs code name shots (setRngSeed stream b₁) io).map Prod.snd =
      (runModule (step env fmt) reinit toStdOut fs code name shots (setRngSeed stream b₂) io).map Prod.snd := by
  unfold runModule
  cases bindFunctions fs with
  | error e => rfl
  | ok m =>
    simp only
    cases hf : chooseEntryPoint fs name with
    | error e => rfl
    | ok f =>
      have : f ∈ fs := by
        obtain ⟨pre, post, e, _⟩ := (C41_choice fs name f).1 hf
        rw [e]; simp
      exact runShots_seed toStdOut f (hp f this) shots _ _ io rfl

/-- A program that draws a bit and records it. -/
def drawBit : Prog QCall QAns := .call (.drawInt 0 1) fun
  | .int n => .call (.record (.int n none) (by intro b t e; cases e)) fun _ => .done
  | _ => .done

/-- The module of that program: it declares the functions it calls. -/
def drawModule : List Func := [⟨"main", 0, 1, [("entry_point", "")]⟩,
  ⟨"__quantum__qis__drawrandomint__body", 2, 0, []⟩, ⟨"__quantum__rt__int_record_output", 2, 0, []⟩]

theorem draw_zero : Std.drawRandomInt 0 1 0 0 = .ok 0 := by decide +kernel
theorem draw_one : Std.drawRandomInt 0 1 18446744073709551615 18446744073709551615 = .ok 1 := by decide +kernel

theorem drawModule_binds : ∃ m, bindFunctions drawModule = .ok m := by
  have : (bindFunctions drawModule).isOk = true := by decide +kernel
  cases h : bindFunctions drawModule with
  | ok m => exact ⟨m, rfl⟩
  | error e => rw [h] at this; cases this

theorem draw_session (env : Env) (fmt : Fmt) (s : Backend) {n : ℤ}
    (h : Std.drawRandomInt 0 1 (s.os 0) (s.os 1) = .ok n) :
    ∃ s', session (step env fmt) reinit drawBit 1 s = .ok ([bytesOf (emit (.int n none))], s') := by
  have e : (nextWords (reinit s)).1 = s.os 0 ∧ (nextWords (reinit s)).2.1 = s.os 1 := ⟨rfl, rfl⟩
  simp only [session, drawBit, speech, step, qstep, e.1, e.2, h, List.nil_append, List.append_nil]
  exact ⟨_, rfl⟩

theorem draw_run (env : Env) (fmt : Fmt) (s : Backend) {n : ℤ} (io : Io) (hr : Ready true io)
    (h : Std.drawRandomInt 0 1 (s.os 0) (s.os 1) = .ok n) :
    ∃ r, runModule (step env fmt) reinit true drawModule (fun _ => drawBit) none 1 s io = .ok r ∧
      r.2.stdout = io.stdout ++ block [("entry_point", "")] (bytesOf (emit (.int n none))) := by
  have hf : chooseEntryPoint drawModule none = .ok ⟨"main", 0, 1, [("entry_point", "")]⟩ := rfl
  obtain ⟨s', hs⟩ := draw_session env fmt s h
  obtain ⟨h1, h2⟩ := C40_framing (step env fmt) reinit true drawModule (fun _ => drawBit) none _ 1 s io
    drawModule_binds hf rfl hr
  obtain ⟨⟨s1, io1⟩, hr⟩ := h2.1 ⟨_, hs⟩
  obtain ⟨outs, e1, _, e3, _⟩ := h1 _ _ hr
  rw [hs] at e1
  cases e1
  refine ⟨_, hr, ?_⟩
  simpa [seen] using e3

/-- The full claim of **C48** is false: a draw is not governed by the seed, so two runs of the same program with
the same seed can give different transcripts. -/
theorem C48_draws_not_seeded (env : Env) (fmt : Fmt) (stream : ℕ → ℝ) : ∃ (b₁ b₂ : Backend) (io : Io) (r₁ r₂ : Backend × Io),
    runModule (step env fmt) reinit true drawModule (fun _ => drawBit) none 1 (setRngSeed stream b₁) io = .ok r₁ ∧
    runModule (step env fmt) reinit true drawModule (fun _ => drawBit) none 1 (setRngSeed stream b₂) io = .ok r₂ ∧
    r₁.2.stdout ≠ r₂.2.stdout := by
  refine ⟨Backend.new stream fun _ => 0, Backend.new stream fun _ => 18446744073709551615,
    ⟨[], ⟨[], true⟩, []⟩, ?_⟩
  obtain ⟨r₁, h₁, e₁⟩ := draw_run env fmt (setRngSeed stream (Backend.new stream fun _ => 0))
    ⟨[], ⟨[], true⟩, []⟩ ⟨fun _ => rfl, rfl⟩ draw_zero
  obtain ⟨r₂, h₂, e₂⟩ := draw_run env fmt (setRngSeed stream (Backend.new stream fun _ => 18446744073709551615))
    ⟨[], ⟨[], true⟩, []⟩ ⟨fun _ => rfl, rfl⟩ draw_one
  refine ⟨r₁, r₂, h₁, h₂, ?_⟩
  rw [e₁, e₂]
  decide +kernel

/-! ### C49 The transcript is that of the ideal device

Full claim (false, see `C49_counterexample`): the theorem below without the hypothesis on `NoTurn`.
What is missing: the defect of `ry` (C01). -/

theorem fail_line (m : List Char) : (Stop.fail m).output = lines [.record (.message m)] := by
  rw [show (Stop.fail m).output = bytesOf (emit (.message m)) from rfl, bytesOf_emit, lines_one]
  rfl

theorem speech_ideal (he : env.eps = 0) (p : Prog QCall QAns) : ∀ {s : Backend} {δ : Device}, QRef s δ →
    Meaningful p δ → NoTurn env fmt p s →
    match idealRun p δ with
    | .error es => speech (step env fmt) p s = .error (lines es)
    | .ok (es, δ') => ∃ s', speech (step env fmt) p s = .ok (lines es, s') ∧ QRef s' δ' := by
  induction p with
  | done => intro s δ h _ _; exact ⟨s, rfl, h⟩
  | call c k ih =>
    intro s δ h hm hn
    have hs := qref_step (fmt := fmt) he h hm.1 hm.2.1 hn.1
    simp only [idealRun, speech]
    cases hc : δ.step c with
    | error m =>
      simp only [step, hs.2 m hc, fail_line]
    | ok r =>
      obtain ⟨a, es, δ1⟩ := r
      obtain ⟨s1, e1, h1⟩ := hs.1 a es δ1 hc
      have := ih a h1 (hm.2.2 a es δ1 hc) (hn.2 _ _ _ e1)
      simp only [step, e1]
      cases hi : idealRun (k a) δ1 with
      | error es' =>
        simp only [hi] at this
        simp only [this, lines_append]
      | ok r =>
        obtain ⟨es', δ2⟩ := r
        simp only [hi] at this
        obtain ⟨s2, e2, h2⟩ := this
        simp only [e2, lines_append]
        exact ⟨s2, rfl, h2⟩

theorem session_ideal (he : env.eps = 0) (p : Prog QCall QAns)
    (hm : ∀ rng : ℕ → ℝ, (∀ i, 0 ≤ rng i ∧ rng i < 1) → Meaningful p (Device.init rng))
    (hn : ∀ (rng : ℕ → ℝ) (os : ℕ → ℕ), (∀ i, 0 ≤ rng i ∧ rng i < 1) → NoTurn env fmt p (Backend.new rng os)) (n : ℕ) :
    ∀ s : Backend, (∀ i, 0 ≤ s.sim.rng i ∧ s.sim.rng i < 1) →
    match idealShots p n s.sim.rng with
    | .error (ess, es) => session (step env fmt) reinit p n s = .error (ess.map lines, lines es)
    | .ok ess => ∃ s', session (step env fmt) reinit p n s = .ok (ess.map lines, s') := by
  induction n with
  | zero => intro s _; exact ⟨s, rfl⟩
  | succ n ih =>
    intro s hr
    have h1 := speech_ideal he p (qref_new hr s.os) (hm _ hr) (hn _ s.os hr)
    rw [← reinit_eq] at h1
    simp only [idealShots, session]
    cases hi : idealRun p (Device.init s.sim.rng) with
    | error es =>
      simp only [hi] at h1
      simp only [h1, List.map_nil]
    | ok r =>
      obtain ⟨es, δ⟩ := r
      simp only [hi] at h1
      obtain ⟨s1, e1, h1⟩ := h1
      have hrng : s1.sim.rng = δ.rng := h1.sim.rng
      have h2 := ih s1 (by rw [hrng]; exact h1.sim.good.samples)
      rw [hrng] at h2
      simp only [e1]
      cases hj : idealShots p n δ.rng with
      | error r =>
        obtain ⟨ess, es'⟩ := r
        simp only [hj] at h2
        simp only [h2, List.map_cons]
      | ok ess =>
        simp only [hj] at h2
        obtain ⟨s2, e2⟩ := h2
        simp only [e2, List.map_cons]
        exact ⟨_, rfl⟩

/-- **C49**.  Run a module whose entry point makes sense on the ideal device, for any number of shots and from any
backend with samples in the unit interval: what the caller sees is, for each shot, the start line, the metadata,
the lines of the records the program makes on an ideal device that starts empty and continues the stream of
samples, and the end line.  If the ideal run fails, the transcript stops there, with the message as the last line
(if the recorder writes to the standard output; otherwise what the failing shot has recorded is still in the buffer). -/
theorem C49_transcript_partial (he : env.eps = 0) (toStdOut : Bool) (fs : List Func) (code : Func → Prog QCall QAns)
    (name : Option String) (f : Func) (n : ℕ) (s : Backend) (io : Io) (hb : ∃ m, bindFunctions fs = .ok m)
    (hf : chooseEntryPoint fs name = .ok f) (hp : f.params = 0) (hr : Ready toStdOut io)
    (samples : ∀ i, 0 ≤ s.sim.rng i ∧ s.sim.rng i < 1)
    (hm : ∀ rng : ℕ → ℝ, (∀ i, 0 ≤ rng i ∧ rng i < 1) → Meaningful (code f) (Device.init rng))
    (hn : ∀ (rng : ℕ → ℝ) (os : ℕ → ℕ), (∀ i, 0 ≤ rng i ∧ rng i < 1) →
      NoTurn env fmt (code f) (Backend.new rng os)) :
    match idealShots (code f) n s.sim.rng with
    | .ok ess => ∃ s' io', runModule (step env fmt) reinit toStdOut fs code name n s io = .ok (s', io') ∧
        seen toStdOut io' = seen toStdOut io ++ ess.flatMap (fun es => block f.attrs (lines es))
    | .error (ess, es) => ∃ io',
        runModule (step env fmt) reinit toStdOut fs code name n s io = .error (.aborted, io') ∧
        seen toStdOut io' = seen toStdOut io ++ ess.flatMap (fun es => block f.attrs (lines es)) ++
          utf8 "START\n" ++ f.attrs.flatMap metadataLine ++ (if io.recorder.useStdOut then lines es else []) ∧
        io'.recorder.buffer = if io.recorder.useStdOut then [] else lines es := by
  have h1 := session_ideal he (code f) hm hn n s samples
  have h2 := runShots_session (step env fmt) reinit toStdOut f hp (code f) n s io hr
  rw [runModule_eq hb hf]
  cases hi : idealShots (code f) n s.sim.rng with
  | error r =>
    obtain ⟨ess, es⟩ := r
    simp only [hi] at h1
    simp only [h1, List.flatMap_map] at h2
    obtain ⟨io', e1, e2, e3, -⟩ := h2
    exact ⟨io', e1, e2, e3⟩
  | ok ess =>
    simp only [hi] at h1
    obtain ⟨s', h1⟩ := h1
    simp only [h1, List.flatMap_map] at h2
    obtain ⟨io', e1, _, _, e2, _⟩ := h2
    exact ⟨s', io', e1, e2⟩

/-- A program without uncontrolled rotations about Y. -/
def NoYProg : Prog QCall QAns → Prop
  | .done => True
  | .call c k => NoY c ∧ ∀ a, NoYProg (k a)

/-- Such a program meets the last hypothesis. -/
theorem NoYProg.noTurn {p : Prog QCall QAns} (h : NoYProg p) : ∀ s, NoTurn env fmt p s := by
  induction p with
  | done => intro s; trivial
  | call c k ih => intro s; exact ⟨h.1.ok s, fun a out s' _ => ih a (h.2 a) s'⟩

/-! ### A concrete program -/

/-- Make the calls of a list, whatever the answers, and go on. -/
def andThen : List QCall → Prog QCall QAns → Prog QCall QAns
  | [], p => p
  | c :: cs, p => .call c fun _ => andThen cs p

/-- Prepare a Bell pair, measure its first qubit, read the result, turn the qubit to zero if it was one, and record
the result. -/
def coin : Prog QCall QAns := andThen bellQ <| .call (.mz 0 0) fun _ => .call (.readResult 0) fun
  | .bit true => .call (.gate .x 0) fun _ => .call (.recordResult 0 none) fun _ => .done
  | _ => .call (.recordResult 0 none) fun _ => .done

theorem coin_seeded : Seeded coin := by
  refine ⟨trivial, fun _ => ⟨trivial, fun _ => ⟨trivial, fun _ => ⟨trivial, fun a => ?_⟩⟩⟩⟩
  dsimp only
  split
  · exact ⟨trivial, fun _ => ⟨trivial, fun _ => trivial⟩⟩
  · exact ⟨trivial, fun _ => trivial⟩

theorem coin_noY : NoYProg coin := by
  refine ⟨trivial, fun _ => ⟨trivial, fun _ => ⟨trivial, fun _ => ⟨trivial, fun a => ?_⟩⟩⟩⟩
  dsimp only
  split
  · exact ⟨trivial, fun _ => ⟨trivial, fun _ => trivial⟩⟩
  · exact ⟨trivial, fun _ => trivial⟩

theorem idealRun_andThen (p : Prog QCall QAns) : ∀ (cs : List QCall) {δ δ' : Device} {as : List QAns} {es : List Event},
    δ.run cs = .ok (as, es, δ') → idealRun (andThen cs p) δ =
      match idealRun p δ' with
      | .error es' => .error (es ++ es')
      | .ok (es', δ'') => .ok (es ++ es', δ'')
  | [], δ, δ', as, es, h => by
    cases h
    simp only [andThen, List.nil_append]
    cases idealRun p δ <;> rfl
  | c :: cs, δ, δ', as, es, h => by
    simp only [Device.run] at h
    simp only [andThen, idealRun]
    cases hc : δ.step c with
    | error m => rw [hc] at h; cases h
    | ok r =>
      obtain ⟨a, es1, δ1⟩ := r
      simp only [hc, ok_bind] at h
      cases hr : δ1.run cs with
      | error m => rw [hr] at h; cases h
      | ok r =>
        obtain ⟨as2, es2, δ2⟩ := r
        simp only [hr, ok_bind, pure_ok, Except.ok.injEq, Prod.mk.injEq] at h
        obtain ⟨rfl, rfl, rfl⟩ := h
        simp only [idealRun_andThen p cs hr]
        cases idealRun p δ2 with
        | error e => simp
        | ok r => simp

theorem meaningful_andThen (p : Prog QCall QAns) : ∀ (cs : List QCall) {δ δ' : Device} {as : List QAns} {es : List Event},
    (∀ c ∈ cs, c.Determined) → δ.ValidRun cs → δ.run cs = .ok (as, es, δ') → Meaningful p δ' →
    Meaningful (andThen cs p) δ
  | [], δ, δ', as, es, _, _, h, hm => by cases h; exact hm
  | c :: cs, δ, δ', as, es, hd, hv, h, hm => by
    refine ⟨hv.1, hd c (by simp), fun a es1 δ1 e => ?_⟩
    simp only [Device.run, e, ok_bind] at h
    cases hr : δ1.run cs with
    | error m => rw [hr] at h; cases h
    | ok r =>
      obtain ⟨as2, es2, δ2⟩ := r
      simp only [hr, ok_bind, pure_ok, Except.ok.injEq, Prod.mk.injEq] at h
      obtain ⟨rfl, rfl, rfl⟩ := h
      exact meaningful_andThen p cs (fun c hc => hd c (by simp [hc])) (hv.2 a es1 δ1 e) hr hm

theorem bellDevice_outcome (rng : ℕ → ℝ) : (bellDevice rng).outcome [(.Z, 0)] = decide (rng 0 < 1 / 2) := by
  have := pauliProb_bell (w := 1) (by simp)
  rw [one_smul] at this
  show decide (rng 0 < pauliProb [(.Z, 0)] true bellState) = _
  rw [this]

/-- The coin on the ideal device: the record is the first sample compared with one half, and one sample has been
used. -/
theorem coin_run (rng : ℕ → ℝ) : ∃ δ : Device, δ.rng = streamFrom 1 rng ∧ δ.reg 0 = decide (rng 0 < 1 / 2) ∧
    idealRun coin (Device.init rng) = .ok ([.record (.result (decide (rng 0 < 1 / 2)) none)], δ) := by
  unfold coin
  rw [idealRun_andThen _ bellQ (bellQ_run rng)]
  simp only [idealRun, Device.step, bellDevice_outcome]
  by_cases h : rng 0 < 1 / 2
  · simp only [Device.store, h, decide_true, Function.update_self, idealRun, Device.step, Device.resultValue,
      Device.apply, List.nil_append, List.append_nil]
    exact ⟨_, rfl, by simp only [Device.useAll, List.foldl_cons, List.foldl_nil, Device.use]; split <;> simp, rfl⟩
  · simp only [Device.store, h, decide_false, Function.update_self, idealRun, Device.step, Device.resultValue,
      Device.apply, List.nil_append, List.append_nil]
    exact ⟨_, rfl, by simp, rfl⟩

theorem coin_meaningful (rng : ℕ → ℝ) : Meaningful coin (Device.init rng) := by
  refine meaningful_andThen _ bellQ (by simp [bellQ, QCall.Determined]) (bellQ_valid rng) (bellQ_run rng) ?_
  have h0 : (bellDevice rng).Usable 0 := .inl (by simp [bellDevice])
  refine ⟨h0, trivial, fun a es δ e => ⟨trivial, trivial, fun a' es' δ' e' => ?_⟩⟩
  cases e
  cases e'
  dsimp only
  split
  · refine ⟨.inl ?_, trivial, fun _ _ _ _ => ⟨trivial, trivial, fun _ _ _ _ => trivial⟩⟩
    simp [Device.store, Device.observed, Device.useAll, Device.use, bellDevice]
  · exact ⟨trivial, trivial, fun _ _ _ _ => trivial⟩

/-- Shot after shot the coin uses the next sample. -/
theorem coin_shots (rng : ℕ → ℝ) (n : ℕ) : idealShots coin n rng =
    .ok ((List.range n).map fun i => [.record (.result (decide (rng i < 1 / 2)) none)]) := by
  induction n generalizing rng with
  | zero => rfl
  | succ n ih =>
    obtain ⟨δ, e1, -, e2⟩ := coin_run rng
    simp only [idealShots, e2, e1, ih]
    rw [List.range_succ_eq_map]
    simp [streamFrom, Function.comp_def]

/-- A module for the coin: it declares the functions it calls, and has a label. -/
def coinModule : List Func := [⟨"main", 0, 1, [("entry_point", ""), ("qir_profiles", "adaptive_profile")]⟩,
  ⟨"__quantum__qis__h__body", 1, 0, []⟩, ⟨"__quantum__qis__cx__body", 2, 0, []⟩,
  ⟨"__quantum__qis__x__body", 1, 0, []⟩, ⟨"__quantum__qis__mz__body", 2, 0, []⟩,
  ⟨"__quantum__rt__read_result", 1, 0, []⟩, ⟨"__quantum__rt__result_record_output", 2, 0, []⟩]

theorem coinModule_binds : ∃ m, bindFunctions coinModule = .ok m := by
  have : (bindFunctions coinModule).isOk = true := by decide +kernel
  cases h : bindFunctions coinModule with
  | ok m => exact ⟨m, rfl⟩
  | error e => rw [h] at this; cases this

/-- **C49** for the coin: whatever the backend was used for before, a run of `n` shots prints `n` blocks, and the
result in block `i` says whether sample `i` is below one half.  In particular the stream goes on from shot to shot
(**C48**), and no shot sees what an earlier one has done (**C27**). -/
theorem coin_transcript (he : env.eps = 0) (n : ℕ) (s : Backend) (io : Io) (hr : Ready true io)
    (samples : ∀ i, 0 ≤ s.sim.rng i ∧ s.sim.rng i < 1) :
    ∃ s' io', runModule (step env fmt) reinit true coinModule (fun _ => coin) none n s io = .ok (s', io') ∧
      io'.stdout = io.stdout ++ ((List.range n).map fun i => utf8 "START\nMETADATA\tentry_point\n" ++
        utf8 "METADATA\tqir_profiles\tadaptive_profile\n" ++
        (if s.sim.rng i < 1 / 2 then utf8 "OUTPUT\tRESULT\t1\n" else utf8 "OUTPUT\tRESULT\t0\n") ++
        utf8 "END\t0\n").flatten := by
  have h := C49_transcript_partial (fmt := fmt) he true coinModule (fun _ => coin) none _ n s io coinModule_binds rfl rfl hr
    samples (fun rng _ => coin_meaningful rng) (fun rng os _ => coin_noY.noTurn _)
  simp only [coin_shots] at h
  obtain ⟨s', io', h1, h2⟩ := h
  refine ⟨s', io', h1, ?_⟩
  simp only [seen, if_true] at h2
  rw [h2, List.flatMap_map, List.flatMap_def]
  congr 2
  apply List.map_congr_left
  intro i _
  by_cases hi : s.sim.rng i < 1 / 2
  · simp only [hi, decide_true, if_true]; decide +kernel
  · simp only [hi, decide_false, if_false]; decide +kernel

/-- **C27**, a past that has happened: after the coin the next program sees the stream from its second sample on, and
nothing else. -/
example (he : env.eps = 0) (rng : ℕ → ℝ) (os : ℕ → ℕ) (hr : ∀ i, 0 ≤ rng i ∧ rng i < 1) : ∃ out s,
    speech (step env fmt) coin (Backend.new rng os) = .ok (out, s) ∧ s.reg 0 = decide (rng 0 < 1 / 2) ∧
      ∀ p, speech (step env fmt) p (reinit s) = speech (step env fmt) p (Backend.new (streamFrom 1 rng) s.os) := by
  have h := speech_ideal (fmt := fmt) he coin (qref_new hr os) (coin_meaningful rng) (coin_noY.noTurn _)
  obtain ⟨δ, e1, e3, e2⟩ := coin_run rng
  simp only [e2] at h
  obtain ⟨s, h1, h2⟩ := h
  refine ⟨_, s, h1, ?_, fun p => ?_⟩
  · rw [h2.reg, e3]
  · rw [reinit_eq, show s.sim.rng = δ.rng from h2.sim.rng, e1]

/-! ### The exception of C49 -/

theorem runQ_snoc (c : QCall) : ∀ (cs : List QCall) {s s' : Backend} {as : List QAns} {out : Bytes},
    runQ env fmt (cs ++ [c]) s = .ok (as, out, s') → ∃ as1 a out1 out2 s1, runQ env fmt cs s = .ok (as1, out1, s1) ∧
      qstep env fmt c s1 = .ok (a, out2, s') ∧ as = as1 ++ [a] ∧ out = out1 ++ out2
  | [], s, s', as, out, h => by
    simp only [List.nil_append, runQ] at h
    obtain ⟨⟨a, o, s1⟩, h1, h⟩ := stop_bind h
    cases h
    exact ⟨[], a, [], o, s, rfl, h1, rfl, by simp⟩
  | d :: cs, s, s', as, out, h => by
    simp only [List.cons_append, runQ] at h
    obtain ⟨⟨a, o, s1⟩, h1, h⟩ := stop_bind h
    obtain ⟨⟨as2, o2, s2⟩, h2, h⟩ := stop_bind h
    cases h
    obtain ⟨as1, b, out1, out2, s3, e1, e2, rfl, rfl⟩ := runQ_snoc c cs h2
    refine ⟨a :: as1, b, o ++ out1, out2, s3, ?_, e2, rfl, by simp⟩
    simp only [runQ, h1, e1, ok_bind, pure_ok]

theorem speech_andThen (p : Prog QCall QAns) : ∀ (cs : List QCall) {s s' : Backend} {as : List QAns} {out : Bytes},
    runQ env fmt cs s = .ok (as, out, s') → speech (step env fmt) (andThen cs p) s =
      match speech (step env fmt) p s' with
      | .error o => .error (out ++ o)
      | .ok (o, s'') => .ok (out ++ o, s'')
  | [], s, s', as, out, h => by
    cases h
    simp only [andThen, List.nil_append]
    cases speech (step env fmt) p s <;> rfl
  | c :: cs, s, s', as, out, h => by
    simp only [runQ] at h
    obtain ⟨⟨a, o, s1⟩, h1, h⟩ := stop_bind h
    obtain ⟨⟨as2, o2, s2⟩, h2, h⟩ := stop_bind h
    cases h
    simp only [andThen, speech, step, h1, speech_andThen p cs h2]
    cases speech (step env fmt) p s2 <;> simp

/-- A half-turn about X, a quarter-turn about Y, a Hadamard gate and a measurement, whose result is recorded. -/
def turnThenRecord : Prog QCall QAns := andThen [.r .X Real.pi 0, .r .Y (Real.pi / 2) 0, .gate .h 0] <|
  .call (.m 0) fun
  | .ptr n => .call (.recordResult n none) fun _ => .done
  | _ => .done

/-- One qubit in use, in a given state. -/
def turned (rng : ℕ → ℝ) (φ : Wave) : Device := ⟨{0}, 1, φ, rng, fun _ => false, false⟩

/-- The full claim of **C49** is false: with every sample the ideal transcript of this program is the result 1, and
that of the backend is the result 0. -/
theorem C49_counterexample (he : env.eps = 0) {rng : ℕ → ℝ} (hr : ∀ n, 0 ≤ rng n ∧ rng n < 1) (os : ℕ → ℕ) :
    Meaningful turnThenRecord (Device.init rng) ∧
    (∃ δ, idealRun turnThenRecord (Device.init rng) = .ok ([.record (.result true none)], δ)) ∧
    ∃ s', speech (step env fmt) turnThenRecord (Backend.new rng os) =
      .ok (lines [.record (.result false none)], s') := by
  obtain ⟨hp, s', h, hres⟩ := C31_counterexample (fmt := fmt) he hr os
  have h0 : ∀ U, (Device.init rng).apply [0] U = turned rng (U (ket zeroBasis)) := by
    intro U
    unfold Device.apply Device.useAll
    simp only [List.foldl_cons, List.foldl_nil, use_zero]
    rfl
  have h1 : ∀ φ U, (turned rng φ).apply [0] U = turned rng (U φ) := by
    intro φ U
    unfold Device.apply Device.useAll Device.use turned
    simp
  have hrun : (Device.init rng).run [.r .X Real.pi 0, .r .Y (Real.pi / 2) 0, .gate .h 0] =
      .ok ([.unit, .unit, .unit], [], turned rng (Spec.ctrl [] matH 0 (ctrlExp [] [(.Y, 0)] (-(Real.pi / 2 / 2))
      (ctrlExp [] [(.X, 0)] (-(Real.pi / 2)) (ket zeroBasis))))) := by
    simp only [Device.run, Device.step, reduceCtorEq, if_false, h0, h1, ok_bind, pure_ok, List.append_nil]
    rfl
  have hlive : ∀ φ, (turned rng φ).Usable 0 := fun φ => .inl (by simp [turned])
  refine ⟨meaningful_andThen _ _ (by simp [QCall.Determined]) ?_ hrun ?_, ?_, ?_⟩
  · refine ⟨.inr (.inr ⟨rfl, le_refl _⟩), fun _ _ _ e => ?_⟩
    simp only [Device.step, reduceCtorEq, if_false, h0, Except.ok.injEq, Prod.mk.injEq] at e
    obtain ⟨_, _, rfl⟩ := e
    refine ⟨.inr (hlive _), fun _ _ _ e => ?_⟩
    simp only [Device.step, reduceCtorEq, if_false, h1, Except.ok.injEq, Prod.mk.injEq] at e
    obtain ⟨_, _, rfl⟩ := e
    exact ⟨hlive _, fun _ _ _ _ => trivial⟩
  · refine ⟨hlive _, trivial, fun a _ _ _ => ?_⟩
    dsimp only
    split
    · exact ⟨trivial, trivial, fun _ _ _ _ => trivial⟩
    · trivial
  · unfold turnThenRecord
    rw [idealRun_andThen _ _ hrun]
    have ho : ∀ φ, prob [0] true φ = 1 → (turned rng φ).outcome [(.Z, 0)] = true := by
      intro φ h
      show decide (rng 0 < pauliProb [(.Z, 0)] true φ) = true
      rw [pauliProb_Z, h]
      exact decide_eq_true (hr 0).2
    simp only [idealRun, Device.step, ho _ hp]
    exact ⟨_, rfl⟩
  · obtain ⟨as1, a, out1, out2, s1, e1, e2, e3, e4⟩ :=
      runQ_snoc (.m 0) [.r .X Real.pi 0, .r .Y (Real.pi / 2) 0, .gate .h 0] h
    obtain ⟨rfl, rfl⟩ := List.append_eq_nil_iff.1 e4.symm
    have ea : a = .ptr 0 := by
      have := congrArg List.getLast? e3
      simpa using this.symm
    subst ea
    unfold turnThenRecord
    rw [speech_andThen _ _ e1]
    simp only [speech, step, e2]
    simp only [qstep, recordedResult, hres, List.isEmpty_nil, if_true, ok_bind, pure_ok]
    refine ⟨s', ?_⟩
    rw [lines_one, show resultRecordOutput (resultEqual 0 (resultPtr true)) none = emit (.result false none) from rfl,
      bytesOf_emit]
    simp [Event.line]

end Qir.Back
