import Verif.Model.Runner
import Verif.Proof.Output
import Mathlib.Data.List.Basic
import Mathlib.Tactic.Common

/-!
# The runner: transcript (C40), entry point (C41), binding (C42)
-/

namespace Qir.Run

open Qir.Out

variable {Q A σ : Type}

/-! ## C40: the transcript -/

/-- Specification: what a program says when it runs from a state, and the state it leaves; if a call panics,
the error value is what has been said by then.  Nothing about recorders or writers. -/
def speech (step : StepFn Q A σ) : Prog Q A → σ → Except Bytes (Bytes × σ)
  | .done, s => .ok ([], s)
  | .call q k, s => match step q s with
    | .error out => .error out
    | .ok (a, out, s) => match speech step (k a) s with
      | .error o => .error (out ++ o)
      | .ok (o, s) => .ok (out ++ o, s)

/-- Specification: the line for one attribute. -/
def metadataLine (a : String × String) : Bytes :=
  utf8 "METADATA\t" ++ utf8 a.1 ++ (if a.2 = "" then [] else utf8 "\t" ++ utf8 a.2) ++ [10]

/-- Specification: the block of one shot. -/
def block (attrs : List (String × String)) (records : Bytes) : Bytes :=
  utf8 "START\n" ++ attrs.flatMap metadataLine ++ records ++ utf8 "END\t0\n"

/-- Specification: the outputs of `n` shots in a row, each on a freshly initialised backend; if a shot panics,
the outputs of the shots before it and what it has said itself. -/
def session (step : StepFn Q A σ) (init : σ → σ) (p : Prog Q A) :
    ℕ → σ → Except (List Bytes × Bytes) (List Bytes × σ)
  | 0, s => .ok ([], s)
  | n + 1, s => match speech step p (init s) with
    | .error o => .error ([], o)
    | .ok (out, s) => match session step init p n s with
      | .error (outs, o) => .error (out :: outs, o)
      | .ok (outs, s) => .ok (out :: outs, s)

/-- The stream the caller of the runner sees: `stdout`, or the bytes handed to its writer. -/
def seen (toStdOut : Bool) (io : Io) : Bytes := if toStdOut then io.stdout else io.sink

/-- The recorder suits the writer: it writes to `stdout` directly only if the runner does, and nothing is pending.
This is so for the command line program, and for the Python module according to `output_fn`. -/
structure Ready (toStdOut : Bool) (io : Io) : Prop where
  mode : io.recorder.useStdOut = true → toStdOut = true
  empty : io.recorder.buffer = []

theorem seen_writeOut (b : Bool) (x : Bytes) (io : Io) :
    seen b (writeOut b x io) = seen b io ++ x ∧ (writeOut b x io).recorder = io.recorder ∧
      seen (!b) (writeOut b x io) = seen (!b) io := by
  cases b <;> simp [seen, writeOut]

theorem seen_w (b : Bool) (x : Bytes) (io : Io) : seen b (writeOut b x io) = seen b io ++ x :=
  (seen_writeOut b x io).1

theorem rec_w (b : Bool) (x : Bytes) (io : Io) : (writeOut b x io).recorder = io.recorder :=
  (seen_writeOut b x io).2.1

theorem other_w (b : Bool) (x : Bytes) (io : Io) : seen (!b) (writeOut b x io) = seen (!b) io :=
  (seen_writeOut b x io).2.2

theorem seen_writeAttr (b : Bool) (io : Io) (a : String × String) :
    seen b (writeAttr b io a) = seen b io ++ metadataLine a ∧ (writeAttr b io a).recorder = io.recorder ∧
      seen (!b) (writeAttr b io a) = seen (!b) io := by
  by_cases h : a.2 = ""
  · have h' : a.2.isEmpty = true := by rw [h]; decide
    have e : writeAttr b io a =
        writeOut b lineEnding (writeOut b (utf8 "METADATA\t" ++ utf8 a.1) io) := by
      simp only [writeAttr, h', if_true]
    rw [e, metadataLine, if_pos h, seen_w, seen_w, rec_w, rec_w, other_w, other_w, lineEnding]
    simp
  · have h' : ¬ a.2.isEmpty = true := by rwa [String.isEmpty_iff]
    have e : writeAttr b io a = writeOut b lineEnding (writeOut b (utf8 "\t" ++ utf8 a.2)
        (writeOut b (utf8 "METADATA\t" ++ utf8 a.1) io)) := by
      simp only [writeAttr, h']; rfl
    rw [e, metadataLine, if_neg h, seen_w, seen_w, seen_w, rec_w, rec_w, rec_w, other_w, other_w, other_w, lineEnding]
    simp

theorem seen_attrs (b : Bool) (as : List (String × String)) (io : Io) :
    seen b (as.foldl (writeAttr b) io) = seen b io ++ as.flatMap metadataLine ∧
      (as.foldl (writeAttr b) io).recorder = io.recorder ∧
      seen (!b) (as.foldl (writeAttr b) io) = seen (!b) io := by
  induction as generalizing io with
  | nil => simp
  | cons a as ih =>
    have h := ih (writeAttr b io a)
    have h' := seen_writeAttr b io a
    simp only [List.foldl_cons, List.flatMap_cons]
    exact ⟨by rw [h.1, h'.1, List.append_assoc], h.2.1.trans h'.2.1, h.2.2.trans h'.2.2⟩

theorem write_parts {m b : Bool} {io : Io} (hm : io.recorder.useStdOut = m) (hb : m = true → b = true) (x : Bytes) :
    seen b (io.write x) = seen b io ++ (if m then x else []) ∧
      (io.write x).recorder.buffer = io.recorder.buffer ++ (if m then [] else x) ∧
      (io.write x).recorder.useStdOut = m ∧ seen (!b) (io.write x) = seen (!b) io := by
  cases m
  · simp [Io.write, hm, seen]
  · have := hb rfl
    subst this
    simp [Io.write, hm, seen]

theorem runProg_says (step : StepFn Q A σ) {m b : Bool} (hb : m = true → b = true) (p : Prog Q A) :
    ∀ (s : σ) (io : Io), io.recorder.useStdOut = m →
    match speech step p s with
    | .error out => ∃ io', runProg step p s io = .error io' ∧ seen b io' = seen b io ++ (if m then out else []) ∧
        io'.recorder.buffer = io.recorder.buffer ++ (if m then [] else out) ∧
        io'.recorder.useStdOut = m ∧ seen (!b) io' = seen (!b) io
    | .ok (out, s') => ∃ io', runProg step p s io = .ok (s', io') ∧
        seen b io' = seen b io ++ (if m then out else []) ∧
        io'.recorder.buffer = io.recorder.buffer ++ (if m then [] else out) ∧
        io'.recorder.useStdOut = m ∧ seen (!b) io' = seen (!b) io := by
  induction p with
  | done => intro s io h; exact ⟨io, rfl, by simp, by simp, h, rfl⟩
  | call q k ih =>
    intro s io h
    simp only [speech, runProg]
    cases hq : step q s with
    | error out => exact ⟨_, rfl, write_parts h hb out⟩
    | ok r =>
      obtain ⟨a, out, s1⟩ := r
      obtain ⟨t1, t2, t3, t4⟩ := write_parts h hb out
      have := ih a s1 (io.write out) t3
      dsimp only
      cases hk : speech step (k a) s1 with
      | error o =>
        simp only [hk] at this
        obtain ⟨io', e1, e2, e3, e4, e5⟩ := this
        refine ⟨io', e1, ?_, ?_, e4, e5.trans t4⟩
        · rw [e2, t1]; cases m <;> simp
        · rw [e3, t2]; cases m <;> simp
      | ok r =>
        obtain ⟨out', s2⟩ := r
        simp only [hk] at this
        obtain ⟨io', e1, e2, e3, e4, e5⟩ := this
        refine ⟨io', e1, ?_, ?_, e4, e5.trans t4⟩
        · rw [e2, t1]; cases m <;> simp
        · rw [e3, t2]; cases m <;> simp

theorem utf8_end : utf8 "END\t0" ++ [10] = utf8 "END\t0\n" := by decide +kernel

theorem runShot_says (step : StepFn Q A σ) (init : σ → σ) (b : Bool) (f : Func) (hf : f.params = 0)
    (p : Prog Q A) (s : σ) (io : Io) (h : Ready b io) :
    match speech step p (init s) with
    | .error out => ∃ io', runShot step init b f p s io = .error (.aborted, io') ∧
        seen b io' = seen b io ++ utf8 "START\n" ++ f.attrs.flatMap metadataLine ++
          (if io.recorder.useStdOut then out else []) ∧
        io'.recorder.buffer = (if io.recorder.useStdOut then [] else out) ∧ seen (!b) io' = seen (!b) io
    | .ok (out, s') => ∃ io', runShot step init b f p s io = .ok (s', io') ∧ Ready b io' ∧
        io'.recorder = io.recorder ∧
        seen b io' = seen b io ++ block f.attrs out ∧ seen (!b) io' = seen (!b) io := by
  have h0 := seen_writeOut b (utf8 "START\n") io
  have h1 := seen_attrs b f.attrs (writeOut b (utf8 "START\n") io)
  set io1 := f.attrs.foldl (writeAttr b) (writeOut b (utf8 "START\n") io) with hio1
  have hrec : io1.recorder = io.recorder := h1.2.1.trans h0.2.1
  have hbuf : io1.recorder.buffer = [] := by rw [hrec]; exact h.empty
  have := runProg_says step (m := io.recorder.useStdOut) h.mode p (init s) io1 (by rw [hrec])
  unfold runShot
  simp only [hf, if_true, ← hio1]
  cases hs : speech step p (init s) with
  | error out =>
    simp only [hs] at this
    obtain ⟨io2, h2, h3, h4, -, h5⟩ := this
    refine ⟨io2, by rw [h2], ?_, ?_, ?_⟩
    · rw [h3, h1.1, h0.1]
    · rw [h4, hbuf, List.nil_append]
    · rw [h5, h1.2.2, h0.2.2]
  | ok r =>
    obtain ⟨out, s'⟩ := r
    simp only [hs] at this
    obtain ⟨io2, h2, h3, h4, h5, h6⟩ := this
    rw [h2]
    have hR : (⟨[], io2.recorder.useStdOut⟩ : Recorder) = io.recorder := by
      rw [h5, ← h.empty]
    refine ⟨_, rfl, ⟨?_, ?_⟩, ?_, ?_, ?_⟩
    · simp only [rec_w, Io.drain]; rw [h5]; exact h.mode
    · simp only [rec_w, Io.drain]
    · simp only [rec_w, Io.drain]; exact hR
    · simp only [seen_w, Io.drain]
      have e : seen b { io2 with recorder := { io2.recorder with buffer := [] } } = seen b io2 := by
        cases b <;> rfl
      rw [e]
      have h3' : seen b io2 ++ io2.recorder.buffer = seen b io1 ++ out := by
        rw [h3, h4, hbuf]
        cases io.recorder.useStdOut <;> simp
      rw [h3', h1.1, h0.1, lineEnding, block, ← utf8_end]
      simp only [List.append_assoc]
    · simp only [other_w, Io.drain]
      have e : seen (!b) { io2 with recorder := { io2.recorder with buffer := [] } } = seen (!b) io2 := by
        cases b <;> rfl
      rw [e, h6, h1.2.2, h0.2.2]

theorem runShots_session (step : StepFn Q A σ) (init : σ → σ) (b : Bool) (f : Func) (hf : f.params = 0)
    (p : Prog Q A) (n : ℕ) : ∀ (s : σ) (io : Io), Ready b io →
    match session step init p n s with
    | .error (outs, out) => ∃ io', runShots step init b f p n s io = .error (.aborted, io') ∧
        seen b io' = seen b io ++ outs.flatMap (block f.attrs) ++ utf8 "START\n" ++
          f.attrs.flatMap metadataLine ++ (if io.recorder.useStdOut then out else []) ∧
        io'.recorder.buffer = (if io.recorder.useStdOut then [] else out) ∧ seen (!b) io' = seen (!b) io
    | .ok (outs, s') => ∃ io', runShots step init b f p n s io = .ok (s', io') ∧ Ready b io' ∧
        io'.recorder = io.recorder ∧
        seen b io' = seen b io ++ outs.flatMap (block f.attrs) ∧ seen (!b) io' = seen (!b) io := by
  induction n with
  | zero => intro s io h; exact ⟨io, rfl, h, rfl, by simp, rfl⟩
  | succ n ih =>
    intro s io h
    have h1 := runShot_says step init b f hf p s io h
    simp only [session, runShots]
    cases hs : speech step p (init s) with
    | error out =>
      simp only [hs] at h1
      obtain ⟨io', h1, h2, h3⟩ := h1
      exact ⟨io', by rw [h1], by simpa using h2, h3⟩
    | ok r =>
      obtain ⟨out, s1⟩ := r
      simp only [hs] at h1
      obtain ⟨io1, h1, hr, h0, h2, h4⟩ := h1
      have h3 := ih s1 io1 hr
      simp only [h1]
      cases hn : session step init p n s1 with
      | error r =>
        obtain ⟨outs, o⟩ := r
        simp only [hn, h2, h0, h4] at h3
        simpa [hn] using h3
      | ok r =>
        obtain ⟨outs, s2⟩ := r
        simp only [hn, h2, h0, h4] at h3
        simpa [hn] using h3

theorem session_length (step : StepFn Q A σ) (init : σ → σ) (p : Prog Q A) : ∀ (n : ℕ) (s : σ) {r},
    session step init p n s = .ok r → r.1.length = n
  | 0, s, r, h => by cases h; rfl
  | n + 1, s, r, h => by
    simp only [session] at h
    cases hs : speech step p (init s) with
    | error o => simp [hs] at h
    | ok o =>
      simp only [hs] at h
      cases hn : session step init p n o.2 with
      | error r' => simp [hn] at h
      | ok r' =>
        simp only [hn, Except.ok.injEq] at h
        rw [← h, List.length_cons, session_length step init p n _ hn]

theorem session_length_error (step : StepFn Q A σ) (init : σ → σ) (p : Prog Q A) : ∀ (n : ℕ) (s : σ) {r},
    session step init p n s = .error r → r.1.length < n
  | 0, s, r, h => by cases h
  | n + 1, s, r, h => by
    simp only [session] at h
    cases hs : speech step p (init s) with
    | error o =>
      simp only [hs, Except.error.injEq] at h
      rw [← h]; exact Nat.succ_pos n
    | ok o =>
      simp only [hs] at h
      cases hn : session step init p n o.2 with
      | ok r' => simp [hn] at h
      | error r' =>
        simp only [hn, Except.error.injEq] at h
        rw [← h, List.length_cons]
        exact Nat.succ_lt_succ (session_length_error step init p n _ hn)

theorem runModule_eq {step : StepFn Q A σ} {init : σ → σ} {toStdOut : Bool} {fs : List Func}
    {code : Func → Prog Q A} {name : Option String} {f : Func} {n : ℕ} {s : σ} {io : Io}
    (hb : ∃ m, bindFunctions fs = .ok m) (hf : chooseEntryPoint fs name = .ok f) :
    runModule step init toStdOut fs code name n s io =
      runShots step init toStdOut f (code f) n s io := by
  obtain ⟨m, hb⟩ := hb
  simp [runModule, hb, hf]

/-- A successful run of a module prints exactly `n` blocks, one for each shot, in order: the start line, the
metadata of the entry point, what the program said in that shot, the end line; nothing else, and nothing to the
other stream.  It succeeds exactly if no shot panics. -/
theorem C40_framing (step : StepFn Q A σ) (init : σ → σ) (toStdOut : Bool) (fs : List Func)
    (code : Func → Prog Q A) (name : Option String) (f : Func) (n : ℕ) (s : σ) (io : Io)
    (hb : ∃ m, bindFunctions fs = .ok m) (hf : chooseEntryPoint fs name = .ok f) (hp : f.params = 0)
    (hr : Ready toStdOut io) :
    (∀ s' io', runModule step init toStdOut fs code name n s io = .ok (s', io') →
      ∃ outs, session step init (code f) n s = .ok (outs, s') ∧ outs.length = n ∧
        seen toStdOut io' = seen toStdOut io ++ outs.flatMap (block f.attrs) ∧
        seen (!toStdOut) io' = seen (!toStdOut) io) ∧
    ((∃ r, session step init (code f) n s = .ok r) ↔
      ∃ r, runModule step init toStdOut fs code name n s io = .ok r) := by
  have h := runShots_session step init toStdOut f hp (code f) n s io hr
  rw [runModule_eq hb hf]
  cases hs : session step init (code f) n s with
  | error r =>
    simp only [hs] at h
    obtain ⟨err, h, -⟩ := h
    refine ⟨fun s' io' h' => ?_, ?_⟩
    · rw [h] at h'; cases h'
    · simp [h]
  | ok r =>
    obtain ⟨outs, s1⟩ := r
    simp only [hs] at h
    obtain ⟨io1, h, -, -, h2⟩ := h
    refine ⟨fun s' io' h' => ?_, ?_⟩
    · rw [h] at h'; cases h'
      exact ⟨outs, rfl, session_length step init (code f) n s hs, h2⟩
    · simp [h]

/-- If a shot panics, the caller has seen the complete blocks of the shots before it and then the start line
and the metadata; when the recorder writes to `stdout`, also what the program had said in the shot that panicked,
and otherwise that is what is pending in the buffer.  There is no end line for the shot. -/
theorem C40_aborted (step : StepFn Q A σ) (init : σ → σ) (toStdOut : Bool) (fs : List Func)
    (code : Func → Prog Q A) (name : Option String) (f : Func) (n : ℕ) (s : σ) (io : Io)
    (hb : ∃ m, bindFunctions fs = .ok m) (hf : chooseEntryPoint fs name = .ok f) (hp : f.params = 0)
    (hr : Ready toStdOut io) (e : RunError) (io' : Io)
    (h : runModule step init toStdOut fs code name n s io = .error (e, io')) :
    e = .aborted ∧ ∃ outs out, session step init (code f) n s = .error (outs, out) ∧ outs.length < n ∧
      seen toStdOut io' = seen toStdOut io ++ outs.flatMap (block f.attrs) ++
        utf8 "START\n" ++ f.attrs.flatMap metadataLine ++ (if io.recorder.useStdOut then out else []) ∧
      io'.recorder.buffer = (if io.recorder.useStdOut then [] else out) ∧
      seen (!toStdOut) io' = seen (!toStdOut) io := by
  have h' := runShots_session step init toStdOut f hp (code f) n s io hr
  rw [runModule_eq hb hf] at h
  cases hs : session step init (code f) n s with
  | error r =>
    obtain ⟨outs, out⟩ := r
    simp only [hs] at h'
    obtain ⟨io1, h1, h2⟩ := h'
    rw [h1] at h
    cases h
    exact ⟨rfl, outs, out, rfl, session_length_error step init (code f) n s hs, h2⟩
  | ok r =>
    obtain ⟨outs, s1⟩ := r
    simp only [hs] at h'
    obtain ⟨io1, h1, -⟩ := h'
    rw [h1] at h
    cases h

/-- No shots, no output. -/
theorem C40_no_shots (step : StepFn Q A σ) (init : σ → σ) (toStdOut : Bool) (fs : List Func)
    (code : Func → Prog Q A) (name : Option String) (s : σ) (io : Io) :
    (∃ e, runModule step init toStdOut fs code name 0 s io = .error (e, io)) ∨
      runModule step init toStdOut fs code name 0 s io = .ok (s, io) := by
  unfold runModule
  cases bindFunctions fs with
  | error e => exact .inl ⟨e, rfl⟩
  | ok m =>
    simp only
    cases chooseEntryPoint fs name with
    | error e => exact .inl ⟨e, rfl⟩
    | ok f => exact .inr rfl

/-- Writing to `stdout` directly and collecting in the buffer give the caller the same bytes, and the backend
ends in the same state; whatever the two destinations are. -/
theorem C40_modes_agree (step : StepFn Q A σ) (init : σ → σ) (fs : List Func)
    (code : Func → Prog Q A) (name : Option String) (n : ℕ) (s : σ) (b b' : Bool) (io io' : Io)
    (hr : Ready b io) (hr' : Ready b' io') {s1 s2 : σ} {io1 io2 : Io}
    (h1 : runModule step init b fs code name n s io = .ok (s1, io1))
    (h2 : runModule step init b' fs code name n s io' = .ok (s2, io2)) :
    s1 = s2 ∧ ∃ out, seen b io1 = seen b io ++ out ∧ seen b' io2 = seen b' io' ++ out := by
  cases hb : bindFunctions fs with
  | error e => simp [runModule, hb] at h1
  | ok m =>
    cases hf : chooseEntryPoint fs name with
    | error e => simp [runModule, hb, hf] at h1
    | ok f =>
      by_cases hp : f.params = 0
      · obtain ⟨o1, a1, -, b1, -⟩ := (C40_framing step init b fs code name f n s io ⟨m, hb⟩ hf hp hr).1 _ _ h1
        obtain ⟨o2, a2, -, b2, -⟩ := (C40_framing step init b' fs code name f n s io' ⟨m, hb⟩ hf hp hr').1 _ _ h2
        rw [a1] at a2
        cases a2
        exact ⟨rfl, _, b1, b2⟩
      · cases n with
        | zero =>
          simp [runModule, hb, hf, runShots] at h1 h2
          exact ⟨h1.1.symm.trans h2.1, [], by rw [← h1.2, List.append_nil], by rw [← h2.2, List.append_nil]⟩
        | succ n => simp [runModule, hb, hf, runShots, runShot, hp] at h1

/-! ## C41: the entry point -/

/-- Specification: a function the request admits. -/
def Eligible (name : Option String) (f : Func) : Prop :=
  (∃ v, ("entry_point", v) ∈ f.attrs ∨ ("EntryPoint", v) ∈ f.attrs) ∧ ∀ n, name = some n → f.name = n

theorem eligible_iff (name : Option String) (f : Func) :
    (isEntryPoint f && name.all (fun n => f.name == n)) = true ↔ Eligible name f := by
  simp only [isEntryPoint, Eligible, Bool.and_eq_true, Bool.or_eq_true, List.any_eq_true, beq_iff_eq,
    Option.all_eq_true]
  refine and_congr ⟨?_, ?_⟩ Iff.rfl
  · rintro (⟨⟨a, v⟩, h, rfl⟩ | ⟨⟨a, v⟩, h, rfl⟩)
    · exact ⟨v, .inl h⟩
    · exact ⟨v, .inr h⟩
  · rintro ⟨v, h | h⟩
    · exact .inl ⟨_, h, rfl⟩
    · exact .inr ⟨_, h, rfl⟩

/-- An entry point is chosen exactly if one position of the module, and no other, holds an eligible
function. -/
theorem C41_choice (fs : List Func) (name : Option String) (f : Func) :
    chooseEntryPoint fs name = .ok f ↔
      ∃ pre post, fs = pre ++ f :: post ∧ Eligible name f ∧
        (∀ g ∈ pre, ¬ Eligible name g) ∧ ∀ g ∈ post, ¬ Eligible name g := by
  have key : ∀ l : List Func, (l.filter (fun f => isEntryPoint f && name.all (fun n => f.name == n)) = []) ↔
      ∀ g ∈ l, ¬ Eligible name g := by
    intro l
    simp only [List.filter_eq_nil_iff, eligible_iff]
  have one : fs.filter (fun f => isEntryPoint f && name.all (fun n => f.name == n)) = [f] ↔
      ∃ pre post, fs = pre ++ f :: post ∧ Eligible name f ∧
        (∀ g ∈ pre, ¬ Eligible name g) ∧ ∀ g ∈ post, ¬ Eligible name g := by
    induction fs with
    | nil => simp
    | cons a fs ih =>
      by_cases ha : Eligible name a
      · rw [List.filter_cons_of_pos (by exact (eligible_iff name a).mpr ha), List.cons.injEq, key]
        constructor
        · rintro ⟨rfl, h⟩
          exact ⟨[], fs, rfl, ha, by simp, h⟩
        · rintro ⟨pre, post, h1, h2, h3, h4⟩
          cases pre with
          | nil => simp only [List.nil_append, List.cons.injEq] at h1; exact ⟨h1.1, h1.2 ▸ h4⟩
          | cons b pre =>
            simp only [List.cons_append, List.cons.injEq] at h1
            exact absurd ha (h1.1 ▸ h3 b List.mem_cons_self)
      · rw [List.filter_cons_of_neg (by rwa [eligible_iff]), ih]
        constructor
        · rintro ⟨pre, post, rfl, h2, h3, h4⟩
          refine ⟨a :: pre, post, rfl, h2, ?_, h4⟩
          intro g hg
          rcases List.mem_cons.mp hg with rfl | hg
          · exact ha
          · exact h3 g hg
        · rintro ⟨pre, post, h1, h2, h3, h4⟩
          cases pre with
          | nil => simp only [List.nil_append, List.cons.injEq] at h1; exact absurd (h1.1 ▸ h2) ha
          | cons b pre =>
            simp only [List.cons_append, List.cons.injEq] at h1
            exact ⟨pre, post, h1.2, h2, fun g hg => h3 g (List.mem_cons_of_mem _ hg), h4⟩
  rw [← one, chooseEntryPoint]
  clear one key
  cases fs.filter (fun f => isEntryPoint f && name.all (fun n => f.name == n)) with
  | nil => simp
  | cons a l => cases l <;> simp

/-- If there is no such position, the run returns an error, has written nothing and has called nothing: the
backend is untouched whatever the program is. -/
theorem C41_nothing_executed (step : StepFn Q A σ) (init : σ → σ) (toStdOut : Bool) (fs : List Func)
    (code : Func → Prog Q A) (name : Option String) (n : ℕ) (s : σ) (io : Io)
    (h : ∀ f, ¬ ∃ pre post, fs = pre ++ f :: post ∧ Eligible name f ∧
        (∀ g ∈ pre, ¬ Eligible name g) ∧ ∀ g ∈ post, ¬ Eligible name g) :
    ∃ e, runModule step init toStdOut fs code name n s io = .error (e, io) := by
  unfold runModule
  cases bindFunctions fs with
  | error e => exact ⟨e, rfl⟩
  | ok m =>
    simp only
    cases hf : chooseEntryPoint fs name with
    | error e => exact ⟨e, rfl⟩
    | ok f => exact absurd ((C41_choice fs name f).mp hf) (h f)

/-- Two marked functions: the name decides. -/
example : chooseEntryPoint [⟨"a", 0, 1, [("entry_point", "")]⟩, ⟨"b", 0, 1, [("EntryPoint", "")]⟩] (some "b") =
    .ok ⟨"b", 0, 1, [("EntryPoint", "")]⟩ := by rfl

end Qir.Run
