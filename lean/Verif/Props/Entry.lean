import Verif.Model.Entry
import Verif.Props.Runner

/-!
# C51: the ways into the runner
-/

namespace Qir.Run

open Qir.Out

variable {Q A σ : Type}

/-! ## Specification -/

/-- The destination of the output of a call: `true` for `stdout`, `false` for the callback. -/
def PyCall.dest : PyCall → Bool
  | .run _ _ _ _ callback | .runBytes _ _ _ _ callback => !callback
  | .main .. => true

/-- Whether the records go to `stdout` directly, given whether the recorder has been doing so before: `main` leaves
that as it is. -/
def PyCall.direct : PyCall → Bool → Bool
  | .run _ _ _ _ callback, _ | .runBytes _ _ _ _ callback, _ => !callback
  | .main .., before => before

/-- The name of the entry point asked for. -/
def PyCall.name : PyCall → Option String
  | .run _ n _ _ _ | .runBytes _ n _ _ _ | .main (.run _ n _ _) _ => n
  | .main .. => none

/-- The number of shots asked for. -/
def PyCall.shots : PyCall → ℕ
  | .run _ _ n _ _ | .runBytes _ _ n _ _ | .main (.run _ _ n _) _ => n.getD 1
  | .main .. => 0

/-- The seed asked for. -/
def PyCall.seed : PyCall → Option ℕ
  | .run _ _ _ n _ | .runBytes _ _ _ n _ | .main (.run _ _ _ n) _ => n
  | .main .. => none

/-- The state after seeding. -/
def Seeded (w : World Q A σ) (seed : Option ℕ) (s s' : σ) : Prop :=
  (seed = none ∧ s' = s) ∨ ∃ n, seed = some n ∧ s' = w.setSeed n s

/-- `bytes` is a program that LLVM understands.  Text is read from memory in which a zero byte follows. -/
def Understood (w : World Q A σ) (bytes : Bytes) (m : Mod Q A) : Prop :=
  4 ≤ bytes.length ∧
  ((∃ rest, bytes = [0xDE, 0xC0, 0x17, 0x0B] ++ rest ∨ bytes = [0x42, 0x43, 0xC0, 0xDE] ++ rest) ∧
      w.parseIr bytes bytes.length = some m ∨
    (∀ rest, bytes ≠ [0xDE, 0xC0, 0x17, 0x0B] ++ rest ∧ bytes ≠ [0x42, 0x43, 0xC0, 0xDE] ++ rest) ∧
      w.parseIr (bytes ++ [0]) bytes.length = some m)

/-- The file is a program that LLVM understands. -/
def FileUnderstood (w : World Q A σ) (path : FilePath) (m : Mod Q A) : Prop :=
  ∃ b, w.readFile path.text = some b ∧
    (path.extension = some "ll" ∧ w.parseIr (b ++ [0]) b.length = some m ∨
      path.extension = some "bc" ∧ w.parseBitcode b = some m)

/-- The program a call asks to run. -/
def PyCall.Program (w : World Q A σ) : PyCall → Mod Q A → Prop
  | .run path .., m => FileUnderstood w path m
  | .runBytes bytes .., m => Understood w bytes m
  | .main (.run (some path) ..) stdin, m =>
    if path.text = "-" then ∃ b, stdin = .data (some b) ∧ Understood w b m else FileUnderstood w path m
  | .main (.run none ..) stdin, m => ∃ b, stdin = .data (some b) ∧ Understood w b m
  | .main .., _ => False

/-- The call only asks for help, which is `text`. -/
def PyCall.Help (w : World Q A σ) : PyCall → Bytes → Prop
  | .main .display _, text => text = []
  | .main (.run file ..) stdin, text =>
    (∀ p, file = some p → p.text = "-") ∧ stdin = .terminal ∧ text = w.help
  | _, _ => False

/-- The program is one that can be run: it passes verification, all external functions exist, and exactly one
entry point is eligible. -/
def Runnable (w : World Q A σ) (c : PyCall) (m : Mod Q A) (f : Func) : Prop :=
  ∃ m₀, c.Program w m₀ ∧ w.prepare m₀ = some m ∧ (∃ b, bindFunctions m.fs = .ok b) ∧
    chooseEntryPoint m.fs c.name = .ok f

/-- What a call that returns has to say, and how it leaves the backend:

* help, if that is what it asks for;
* the blocks of all shots, if there is a program with an entry point without parameters;
* nothing, if there is no such program: then nothing is executed either;
* if the entry point has parameters, start line and metadata of the first shot. -/
inductive Says (w : World Q A σ) (c : PyCall) (s : σ) : Bool → Bytes → σ → Prop
  | help {text : Bytes} (h : c.Help w text) : Says w c s true text s
  | shots {m : Mod Q A} {f : Func} {s₀ s' : σ} {outs : List Bytes} (hm : Runnable w c m f)
      (hp : f.params = 0 ∨ c.shots = 0) (hs : Seeded w c.seed s s₀)
      (h : session w.step w.init (m.code f) c.shots s₀ = .ok (outs, s')) (hl : outs.length = c.shots) :
      Says w c s true (outs.flatMap (block f.attrs)) s'
  | refused {s' : σ} (hm : ∀ m f, ¬ Runnable w c m f) (hs : s' = s ∨ Seeded w c.seed s s') : Says w c s false [] s'
  | parameters {m : Mod Q A} {f : Func} {s₀ : σ} (hm : Runnable w c m f) (hp : f.params ≠ 0) (hn : c.shots ≠ 0)
      (hs : Seeded w c.seed s s₀) :
      Says w c s false (utf8 "START\n" ++ f.attrs.flatMap metadataLine) (w.init s₀)

/-- What has been said when the process ends in the middle of a call, and what is pending: complete blocks, then
start line, metadata and records of the shot that failed. -/
inductive Fails (w : World Q A σ) (c : PyCall) (s : σ) : Bytes → Bytes → Prop
  | intro {m : Mod Q A} {f : Func} {s₀ : σ} {outs : List Bytes} {out : Bytes} (hm : Runnable w c m f)
      (hp : f.params = 0) (hs : Seeded w c.seed s s₀)
      (h : session w.step w.init (m.code f) c.shots s₀ = .error (outs, out)) :
      Fails w c s (outs.flatMap (block f.attrs) ++ utf8 "START\n" ++ f.attrs.flatMap metadataLine) out

/-! ## Proofs -/

theorem seeded_iff (w : World Q A σ) (seed : Option ℕ) (s : σ) : Seeded w seed s (w.seeded seed s) := by
  cases seed with
  | none => exact .inl ⟨rfl, rfl⟩
  | some n => exact .inr ⟨n, rfl, rfl⟩

theorem bindStep_error {b : BindStep} {st : BindState} {e : RunError} (h : bindStep b st = .error e) :
    e ≠ .aborted ∧ e ≠ .entryPointParameters := by
  unfold bindStep at h
  cases b <;> dsimp only at h <;> split at h <;> try split_ifs at h
  all_goals first | (cases h; done) | (cases h; exact ⟨by simp, by simp⟩)

theorem bindAll_error : ∀ {l : List BindStep} {st : BindState} {e : RunError}, bindAll l st = .error e →
    e ≠ .aborted ∧ e ≠ .entryPointParameters
  | [], st, e, h => by cases h
  | b :: l, st, e, h => by
    unfold bindAll at h
    cases hb : bindStep b st with
    | error e' =>
      rw [hb] at h
      cases h
      exact bindStep_error hb
    | ok st' =>
      rw [hb] at h
      exact bindAll_error h

theorem bindFunctions_error {fs : List Func} {e : RunError} (h : bindFunctions fs = .error e) :
    e ≠ .aborted ∧ e ≠ .entryPointParameters := by
  unfold bindFunctions at h
  cases hb : bindAll bindSteps ⟨declarations fs, [], []⟩ with
  | error e' =>
    rw [hb] at h
    cases h
    exact bindAll_error hb
  | ok st =>
    rw [hb] at h
    dsimp only at h
    split_ifs at h <;> cases h <;> exact ⟨by simp, by simp⟩

/-- What `runLoaded` does. -/
theorem runLoaded_says (w : World Q A σ) (m₀ : Mod Q A) (name : Option String) (n : ℕ) (b : Bool) (s : σ) (io : Io)
    (hr : Ready b io) :
    match w.runLoaded m₀ name n b s io with
    | .ok s' io' => io'.recorder = io.recorder ∧ seen (!b) io' = seen (!b) io ∧
        ∃ m f outs, w.prepare m₀ = some m ∧ (∃ x, bindFunctions m.fs = .ok x) ∧ chooseEntryPoint m.fs name = .ok f ∧
          (f.params = 0 ∨ n = 0) ∧ session w.step w.init (m.code f) n s = .ok (outs, s') ∧ outs.length = n ∧
          seen b io' = seen b io ++ outs.flatMap (block f.attrs)
    | .rejected _ s' io' => io'.recorder = io.recorder ∧ seen (!b) io' = seen (!b) io ∧
        ((s' = s ∧ seen b io' = seen b io ∧ ∀ m f, ¬ (w.prepare m₀ = some m ∧ (∃ x, bindFunctions m.fs = .ok x) ∧
            chooseEntryPoint m.fs name = .ok f)) ∨
          ∃ m f, w.prepare m₀ = some m ∧ (∃ x, bindFunctions m.fs = .ok x) ∧ chooseEntryPoint m.fs name = .ok f ∧
            f.params ≠ 0 ∧ n ≠ 0 ∧ s' = w.init s ∧
            seen b io' = seen b io ++ (utf8 "START\n" ++ f.attrs.flatMap metadataLine))
    | .ended io' => seen (!b) io' = seen (!b) io ∧
        ∃ m f outs out, w.prepare m₀ = some m ∧ (∃ x, bindFunctions m.fs = .ok x) ∧
          chooseEntryPoint m.fs name = .ok f ∧ f.params = 0 ∧
          session w.step w.init (m.code f) n s = .error (outs, out) ∧
          seen b io' = seen b io ++ (outs.flatMap (block f.attrs) ++ utf8 "START\n" ++
            f.attrs.flatMap metadataLine) ++ (if io.recorder.useStdOut then out else []) ∧
          io'.recorder.buffer = (if io.recorder.useStdOut then [] else out) := by
  unfold World.runLoaded
  cases hm : w.prepare m₀ with
  | none => exact ⟨rfl, rfl, .inl ⟨rfl, rfl, fun m f h => by cases h.1⟩⟩
  | some m =>
    dsimp only
    cases hb : bindFunctions m.fs with
    | error e =>
      have e1 : runModule w.step w.init b m.fs m.code name n s io = .error (e, io) := by simp [runModule, hb]
      have hne : ∀ m' f, ¬ (some m = some m' ∧ (∃ x, bindFunctions m'.fs = .ok x) ∧
            chooseEntryPoint m'.fs name = .ok f) := by
        rintro m' f ⟨h1, ⟨x, h2⟩, -⟩
        cases h1
        rw [hb] at h2
        cases h2
      have he : e ≠ .aborted ∧ e ≠ .entryPointParameters := bindFunctions_error hb
      rw [e1]
      cases e <;> first | exact absurd rfl he.1 | exact absurd rfl he.2 | exact ⟨rfl, rfl, .inl ⟨rfl, rfl, hne⟩⟩
    | ok x =>
      cases hf : chooseEntryPoint m.fs name with
      | error e =>
        have e1 : runModule w.step w.init b m.fs m.code name n s io = .error (e, io) := by
          simp [runModule, hb, hf]
        have hne : ∀ m' f, ¬ (some m = some m' ∧ (∃ x, bindFunctions m'.fs = .ok x) ∧
              chooseEntryPoint m'.fs name = .ok f) := by
          rintro m' f ⟨h1, -, h2⟩
          cases h1
          rw [hf] at h2
          cases h2
        have he : e ≠ .aborted ∧ e ≠ .entryPointParameters := by
          unfold chooseEntryPoint at hf
          split at hf <;> cases hf <;> exact ⟨by simp, by simp⟩
        rw [e1]
        cases e <;> first | exact absurd rfl he.1 | exact absurd rfl he.2 | exact ⟨rfl, rfl, .inl ⟨rfl, rfl, hne⟩⟩
      | ok f =>
        rw [runModule_eq ⟨x, hb⟩ hf]
        by_cases hp : f.params = 0
        · have h := runShots_session w.step w.init b f hp (m.code f) n s io hr
          cases hs : session w.step w.init (m.code f) n s with
          | ok r =>
            obtain ⟨outs, s'⟩ := r
            simp only [hs] at h
            obtain ⟨io', h1, -, h3, h4, h5⟩ := h
            rw [h1]
            exact ⟨h3, h5, m, f, outs, rfl, ⟨x, hb⟩, hf, .inl hp, hs,
              session_length _ _ _ _ _ hs, h4⟩
          | error r =>
            obtain ⟨outs, out⟩ := r
            simp only [hs] at h
            obtain ⟨io', h1, h2, h3, h4⟩ := h
            rw [h1]
            refine ⟨h4, m, f, outs, out, rfl, ⟨x, hb⟩, hf, hp, hs, ?_, h3⟩
            rw [h2]
            simp only [List.append_assoc]
        · cases n with
          | zero => exact ⟨rfl, rfl, m, f, [], rfl, ⟨x, hb⟩, hf, .inr rfl, rfl, rfl, by simp⟩
          | succ n =>
            have h0 := seen_writeOut b (utf8 "START\n") io
            have h1 := seen_attrs b f.attrs (writeOut b (utf8 "START\n") io)
            simp only [runShots, runShot, hp, if_false]
            refine ⟨h1.2.1.trans h0.2.1, h1.2.2.trans h0.2.2,
              .inr ⟨m, f, rfl, ⟨x, hb⟩, hf, hp, Nat.succ_ne_zero n, trivial, ?_⟩⟩
            rw [h1.1, h0.1, List.append_assoc]

theorem isBitcode_iff (b : Bytes) : World.isBitcode b = true ↔
    ∃ rest, b = [0xDE, 0xC0, 0x17, 0x0B] ++ rest ∨ b = [0x42, 0x43, 0xC0, 0xDE] ++ rest := by
  simp only [World.isBitcode, Bool.or_eq_true, beq_iff_eq]
  constructor
  · rintro (h | h)
    · exact ⟨b.drop 4, .inl (by rw [← h, List.take_append_drop])⟩
    · exact ⟨b.drop 4, .inr (by rw [← h, List.take_append_drop])⟩
  · rintro ⟨rest, rfl | rfl⟩
    · exact .inl rfl
    · exact .inr rfl

theorem understood_iff (w : World Q A σ) (bytes : Bytes) (h1 : ¬ bytes.length < 4) (m : Mod Q A) :
    Understood w bytes m ↔
      w.parseIr (if World.isBitcode bytes then bytes else bytes ++ [0]) bytes.length = some m := by
  have h2 := isBitcode_iff bytes
  unfold Understood
  rw [← h2]
  by_cases h3 : World.isBitcode bytes = true
  · have h4 : ¬ ∀ rest, bytes ≠ [0xDE, 0xC0, 0x17, 0x0B] ++ rest ∧ bytes ≠ [0x42, 0x43, 0xC0, 0xDE] ++ rest := by
      intro h
      obtain ⟨r, h5 | h5⟩ := h2.mp h3
      · exact (h r).1 h5
      · exact (h r).2 h5
    simp only [h3, if_true, true_and, h4, false_and, or_false]
    exact ⟨fun h => h.2, fun h => ⟨by omega, h⟩⟩
  · have h4 : ∀ rest, bytes ≠ [0xDE, 0xC0, 0x17, 0x0B] ++ rest ∧ bytes ≠ [0x42, 0x43, 0xC0, 0xDE] ++ rest :=
      fun rest => ⟨fun h5 => h3 (h2.mpr ⟨rest, .inl h5⟩), fun h5 => h3 (h2.mpr ⟨rest, .inr h5⟩)⟩
    have h5 : (∀ rest, bytes ≠ [0xDE, 0xC0, 0x17, 0x0B] ++ rest ∧
      bytes ≠ [0x42, 0x43, 0xC0, 0xDE] ++ rest) = True := eq_true h4
    rw [h5]
    simp only [h3, Bool.false_eq_true, if_false, false_and, true_and, false_or]
    exact ⟨fun h => h.2, fun h => ⟨by omega, h⟩⟩

/-- `runBytes` refuses, or runs the program it understands. -/
theorem runBytes_cases (w : World Q A σ) (bytes : Bytes) (name : Option String) (n : ℕ) (seed : Option ℕ) (b : Bool)
    (s : σ) (io : Io) :
    (∃ e, (∀ m, ¬ Understood w bytes m) ∧
      w.runBytes bytes name n seed b s io = .rejected e (w.seeded seed s) io) ∨
    ∃ m, Understood w bytes m ∧ (∀ m', Understood w bytes m' → m' = m) ∧
      w.runBytes bytes name n seed b s io = w.runLoaded m name n b (w.seeded seed s) io := by
  unfold World.runBytes
  by_cases h1 : bytes.length < 4
  · refine .inl ⟨_, fun m h => ?_, by simp only [h1, if_true]; rfl⟩
    exact absurd h.1 (by omega)
  · have key := understood_iff w bytes h1
    simp only [h1, if_false]
    cases hp : w.parseIr (if World.isBitcode bytes then bytes else bytes ++ [0]) bytes.length with
    | none =>
      refine .inl ⟨_, fun m h => ?_, rfl⟩
      rw [key, hp] at h
      cases h
    | some m =>
      refine .inr ⟨m, (key m).mpr hp, fun m' h => ?_, rfl⟩
      rw [key, hp] at h
      cases h
      rfl

theorem fileUnderstood_iff (w : World Q A σ) (path : FilePath) (m : Mod Q A) :
    FileUnderstood w path m ↔ w.loadFile path = .ok m := by
  unfold FileUnderstood World.loadFile
  constructor
  · rintro ⟨c, h1, ⟨h2, h3⟩ | ⟨h2, h3⟩⟩
    · simp only [h1, h2, h3]
    · simp only [h1, h2, h3]
  · intro h
    split at h
    · next h2 =>
      cases h1 : w.readFile path.text with
      | none => rw [h1] at h; cases h
      | some c =>
        rw [h1] at h
        dsimp only at h
        cases h3 : w.parseIr (c ++ [0]) c.length with
        | none => rw [h3] at h; cases h
        | some m' => rw [h3] at h; cases h; exact ⟨c, rfl, .inl ⟨h2, h3⟩⟩
    · next h2 =>
      cases h1 : w.readFile path.text with
      | none => rw [h1] at h; cases h
      | some c =>
        rw [h1] at h
        dsimp only at h
        cases h3 : w.parseBitcode c with
        | none => rw [h3] at h; cases h
        | some m' => rw [h3] at h; cases h; exact ⟨c, rfl, .inr ⟨h2, h3⟩⟩
    · cases h

/-- So does `runFile`. -/
theorem runFile_cases (w : World Q A σ) (path : FilePath) (name : Option String) (n : ℕ) (seed : Option ℕ) (b : Bool)
    (s : σ) (io : Io) :
    (∃ e, (∀ m, ¬ FileUnderstood w path m) ∧
      w.runFile path name n seed b s io = .rejected e (w.seeded seed s) io) ∨
    ∃ m, FileUnderstood w path m ∧ (∀ m', FileUnderstood w path m' → m' = m) ∧
      w.runFile path name n seed b s io = w.runLoaded m name n b (w.seeded seed s) io := by
  have key := fileUnderstood_iff w path
  unfold World.runFile
  cases hl : w.loadFile path with
  | error e =>
    refine .inl ⟨e, fun m h => ?_, rfl⟩
    rw [key, hl] at h
    cases h
  | ok m =>
    refine .inr ⟨m, (key m).mpr hl, fun m' h => ?_, rfl⟩
    rw [key, hl] at h
    cases h
    rfl

/-- The state of input and output in which the program of a call starts. -/
def PyCall.start : PyCall → Io → Io
  | .run _ _ _ _ callback, io | .runBytes _ _ _ _ callback, io => io.setStdOut (!callback)
  | .main .., io => io

/-- The ways a call can go. -/
theorem call_cases (w : World Q A σ) (c : PyCall) (s : σ) (io : Io) :
    (∃ text, c.Help w text ∧ (∀ m, ¬ c.Program w m) ∧ w.call c s io = .ok s (writeOut true text io) ∧
      c.dest = true) ∨
    (∃ e s', (∀ m, ¬ c.Program w m) ∧ (∀ t, ¬ c.Help w t) ∧ (s' = s ∨ Seeded w c.seed s s') ∧
      w.call c s io = .rejected e s' (c.start io)) ∨
    ∃ m, c.Program w m ∧ (∀ m', c.Program w m' → m' = m) ∧ (∀ t, ¬ c.Help w t) ∧
      w.call c s io = w.runLoaded m c.name c.shots c.dest (w.seeded c.seed s) (c.start io) := by
  have hw : ∀ io : Io, io = writeOut true [] io := fun io => by simp [writeOut]
  cases c with
  | run path name shots seed callback =>
    rcases runFile_cases w path name (shots.getD 1) seed (!callback) s (io.setStdOut (!callback)) with
      ⟨e, h1, h2⟩ | ⟨m, h1, h2, h3⟩
    · exact .inr (.inl ⟨e, _, h1, fun t h => h.elim, .inr (seeded_iff ..), h2⟩)
    · exact .inr (.inr ⟨m, h1, h2, fun t h => h.elim, h3⟩)
  | runBytes bytes name shots seed callback =>
    rcases runBytes_cases w bytes name (shots.getD 1) seed (!callback) s (io.setStdOut (!callback)) with
      ⟨e, h1, h2⟩ | ⟨m, h1, h2, h3⟩
    · exact .inr (.inl ⟨e, _, h1, fun t h => h.elim, .inr (seeded_iff ..), h2⟩)
    · exact .inr (.inr ⟨m, h1, h2, fun t h => h.elim, h3⟩)
  | main args stdin =>
    cases args with
    | display => exact .inl ⟨[], rfl, fun m h => h.elim, by rw [← hw]; rfl, rfl⟩
    | invalid => exact .inr (.inl ⟨_, s, fun m h => h.elim, fun t h => h.elim, .inl rfl, rfl⟩)
    | run file name shots seed =>
      have input : ∀ stdin, file.bind (fun p => if p.text = "-" then none else some p) = none →
          (∀ m, (PyCall.main (.run file name shots seed) stdin).Program w m ↔
            ∃ b, stdin = .data (some b) ∧ Understood w b m) ∧ ∀ p, file = some p → p.text = "-" := by
        intro stdin h
        cases file with
        | none => exact ⟨fun m => Iff.rfl, fun p h => by cases h⟩
        | some p =>
          by_cases hp : p.text = "-"
          · refine ⟨fun m => by simp only [PyCall.Program, hp, if_true], fun q h => by cases h; exact hp⟩
          · simp [hp] at h
      cases hf : file.bind (fun p => if p.text = "-" then none else some p) with
      | none =>
        obtain ⟨h1, h2⟩ := input stdin hf
        cases stdin with
        | terminal =>
          refine .inl ⟨w.help, ⟨h2, rfl, rfl⟩, fun m h => ?_, ?_, rfl⟩
          · rw [h1] at h
            obtain ⟨b, h, -⟩ := h
            cases h
          · simp only [World.call, World.main, hf]
        | data bytes =>
          have hh : ∀ t, ¬ (PyCall.main (.run file name shots seed) (.data bytes)).Help w t := by
            rintro t ⟨-, h, -⟩
            cases h
          cases bytes with
          | none =>
            refine .inr (.inl ⟨.unreadable, s, fun m h => ?_, hh, .inl rfl, ?_⟩)
            · rw [h1] at h
              obtain ⟨b, h, -⟩ := h
              cases h
            · simp only [World.call, World.main, hf, World.runInput, PyCall.start]
          | some bytes =>
            have e1 : ∀ m, (PyCall.main (.run file name shots seed) (.data (some bytes))).Program w m ↔
                Understood w bytes m := by
              intro m
              rw [h1]
              exact ⟨fun ⟨b, h, h'⟩ => by cases h; exact h', fun h => ⟨bytes, rfl, h⟩⟩
            cases hb : bytes.isEmpty with
            | true =>
              refine .inr (.inl ⟨.empty, s, fun m h => ?_, hh, .inl rfl, ?_⟩)
              · rw [e1] at h
                rw [List.isEmpty_iff] at hb
                rw [hb] at h
                exact absurd h.1 (by simp)
              · simp only [World.call, World.main, hf, World.runInput, PyCall.start, hb, if_true]
            | false =>
              have e2 : w.call (.main (.run file name shots seed) (.data (some bytes))) s io =
                  w.runBytes bytes name (shots.getD 1) seed true s io := by
                simp only [World.call, World.main, hf, World.runInput, hb, Bool.false_eq_true, if_false]
              rcases runBytes_cases w bytes name (shots.getD 1) seed true s io with ⟨e, k1, k2⟩ | ⟨m, k1, k2, k3⟩
              · exact .inr (.inl ⟨e, _, fun m h => k1 m ((e1 m).mp h), hh, .inr (seeded_iff ..), e2.trans k2⟩)
              · exact .inr (.inr ⟨m, (e1 m).mpr k1, fun m' h => k2 m' ((e1 m').mp h), hh, e2.trans k3⟩)
      | some p =>
        have hp : file = some p ∧ p.text ≠ "-" := by
          cases file with
          | none => cases hf
          | some q =>
            by_cases hq : q.text = "-"
            · simp [hq] at hf
            · simp only [Option.bind_some, hq, if_false, Option.some.injEq] at hf
              exact ⟨by rw [hf], hf ▸ hq⟩
        obtain ⟨rfl, hp⟩ := hp
        have e1 : ∀ m, (PyCall.main (.run (some p) name shots seed) stdin).Program w m ↔ FileUnderstood w p m := by
          intro m
          simp only [PyCall.Program, hp, if_false]
        have hh : ∀ t, ¬ (PyCall.main (.run (some p) name shots seed) stdin).Help w t :=
          fun t h => hp (h.1 p rfl)
        have e2 : w.call (.main (.run (some p) name shots seed) stdin) s io =
            w.runFile p name (shots.getD 1) seed true s io := by
          simp only [World.call, World.main, hf]
        rcases runFile_cases w p name (shots.getD 1) seed true s io with ⟨e, k1, k2⟩ | ⟨m, k1, k2, k3⟩
        · exact .inr (.inl ⟨e, _, fun m h => k1 m ((e1 m).mp h), hh, .inr (seeded_iff ..), e2.trans k2⟩)
        · exact .inr (.inr ⟨m, (e1 m).mpr k1, fun m' h => k2 m' ((e1 m').mp h), hh, e2.trans k3⟩)

theorem start_ready {c : PyCall} {io : Io} (he : io.recorder.buffer = []) : Ready c.dest (c.start io) := by
  cases c with
  | main => exact ⟨fun _ => rfl, he⟩
  | _ => exact ⟨fun h => h, he⟩

theorem start_seen (c : PyCall) (b : Bool) (io : Io) : seen b (c.start io) = seen b io := by
  cases c <;> cases b <;> rfl

theorem start_buffer (c : PyCall) (io : Io) : (c.start io).recorder.buffer = io.recorder.buffer := by
  cases c <;> rfl

/-! ## C51 -/

/-- **C51**.  Whatever mode the recorder has been left in, if nothing is pending then a call that returns says to its
own destination exactly what it has to say (`Says`), says nothing to the other destination, and again leaves nothing
pending.  If the process ends during the call, complete blocks have been written and the beginning of the one
that failed; its records have been written too if the recorder does not collect them, and are lost otherwise. -/
theorem C51_call (w : World Q A σ) (c : PyCall) (s : σ) (io : Io) (he : io.recorder.buffer = []) :
    match w.call c s io with
    | .ok s' io' => io'.recorder.buffer = [] ∧ seen (!c.dest) io' = seen (!c.dest) io ∧
        ∃ out, Says w c s true out s' ∧ seen c.dest io' = seen c.dest io ++ out
    | .rejected _ s' io' => io'.recorder.buffer = [] ∧ seen (!c.dest) io' = seen (!c.dest) io ∧
        ∃ out, Says w c s false out s' ∧ seen c.dest io' = seen c.dest io ++ out
    | .ended io' => seen (!c.dest) io' = seen (!c.dest) io ∧
        ∃ said records, Fails w c s said records ∧
          if c.direct io.recorder.useStdOut then
            seen c.dest io' = seen c.dest io ++ said ++ records
          else seen c.dest io' = seen c.dest io ++ said ∧ io'.recorder.buffer = records := by
  rcases call_cases w c s io with ⟨text, h1, -, h2, h3⟩ | ⟨e, s', h1, -, h3, h4⟩ | ⟨m, h1, h2, -, h3⟩
  · rw [h2]
    have := seen_writeOut true text io
    rw [h3]
    exact ⟨by rw [this.2.1]; exact he, this.2.2, text, .help h1, this.1⟩
  · rw [h4]
    refine ⟨by rw [start_buffer]; exact he, start_seen .., [], .refused ?_ h3, by rw [start_seen, List.append_nil]⟩
    rintro m f ⟨m₀, h, -⟩
    exact h1 m₀ h
  · rw [h3]
    have h := runLoaded_says w m c.name c.shots c.dest (w.seeded c.seed s) (c.start io) (start_ready he)
    have hs := seeded_iff w c.seed s
    cases hc : w.runLoaded m c.name c.shots c.dest (w.seeded c.seed s) (c.start io) with
    | ok s' io' =>
      simp only [hc, start_seen] at h
      obtain ⟨k1, k2, m', f, outs, k3, k4, k5, k6, k7, k8, k9⟩ := h
      exact ⟨by rw [k1, start_buffer]; exact he, k2, _, .shots ⟨m, h1, k3, k4, k5⟩ k6 hs k7 k8, k9⟩
    | rejected e s' io' =>
      simp only [hc, start_seen] at h
      obtain ⟨k1, k2, ⟨k3, k4, k5⟩ | ⟨m', f, k3, k4, k5, k6, k7, k8, k9⟩⟩ := h
      · refine ⟨by rw [k1, start_buffer]; exact he, k2, [], .refused ?_ (.inr (k3 ▸ hs)), by rw [k4, List.append_nil]⟩
        rintro m' f ⟨m₀, h, h'⟩
        rw [h2 m₀ h] at h'
        exact k5 m' f h'
      · exact ⟨by rw [k1, start_buffer]; exact he, k2, _, k8 ▸ .parameters ⟨m, h1, k3, k4, k5⟩ k6 k7 hs, k9⟩
    | ended io' =>
      simp only [hc, start_seen] at h
      obtain ⟨k2, m', f, outs, out, k3, k4, k5, k6, k7, k8, k9⟩ := h
      refine ⟨k2, _, out, .intro ⟨m, h1, k3, k4, k5⟩ k6 hs k7, ?_⟩
      have hm : (c.start io).recorder.useStdOut = c.direct io.recorder.useStdOut := by cases c <;> rfl
      rw [hm] at k8 k9
      cases h5 : c.direct io.recorder.useStdOut with
      | true => simpa only [h5, if_true] using k8
      | false =>
        simp only [h5, Bool.false_eq_true, if_false, List.append_nil] at k8 k9 ⊢
        exact ⟨k8, k9⟩

/-- Calls one after the other: what each has said and how it leaves the backend. -/
inductive Chain (w : World Q A σ) : List PyCall → σ → List Bytes → σ → Prop
  | nil {s : σ} : Chain w [] s [] s
  | cons {c : PyCall} {cs : List PyCall} {s s₁ s₂ : σ} {b : Bool} {out : Bytes} {outs : List Bytes}
      (h : Says w c s b out s₁) (ht : Chain w cs s₁ outs s₂) : Chain w (c :: cs) s (out :: outs) s₂

/-- The parts of the output that go to a destination. -/
def parts (b : Bool) (cs : List PyCall) (outs : List Bytes) : Bytes :=
  ((cs.zip outs).filter fun x => x.1.dest == b).flatMap (·.2)

/-- **C51**, sessions.  In any sequence of calls in one process, from its start on, `stdout` receives exactly what the
calls without callback have to say, and the callbacks exactly what the others have to say, in this order. -/
theorem C51_session (w : World Q A σ) : ∀ (cs : List PyCall) (s s' : σ) (io io' : Io), io.recorder.buffer = [] →
    w.calls cs s io = .ok s' io' →
    ∃ outs, Chain w cs s outs s' ∧ outs.length = cs.length ∧ io'.recorder.buffer = [] ∧
      io'.stdout = io.stdout ++ parts true cs outs ∧ io'.sink = io.sink ++ parts false cs outs := by
  intro cs
  induction cs with
  | nil =>
    intro s s' io io' he h
    cases h
    exact ⟨[], .nil, rfl, he, by simp [parts], by simp [parts]⟩
  | cons c cs ih =>
    intro s s' io io' he h
    have h1 := C51_call w c s io he
    have step : ∀ (b : Bool) (s₁ : σ) (io₁ : Io) (out : Bytes), Says w c s b out s₁ → io₁.recorder.buffer = [] →
        seen (!c.dest) io₁ = seen (!c.dest) io → seen c.dest io₁ = seen c.dest io ++ out →
        w.calls cs s₁ io₁ = .ok s' io' →
        ∃ outs, Chain w (c :: cs) s outs s' ∧ outs.length = (c :: cs).length ∧ io'.recorder.buffer = [] ∧
          io'.stdout = io.stdout ++ parts true (c :: cs) outs ∧ io'.sink = io.sink ++ parts false (c :: cs) outs := by
      intro b s₁ io₁ out k1 k2 k3 k4 k5
      obtain ⟨outs, m1, m2, m3, m4, m5⟩ := ih s₁ s' io₁ io' k2 k5
      refine ⟨out :: outs, .cons k1 m1, by simp [m2], m3, ?_, ?_⟩
      · rw [m4]
        cases hd : c.dest
        · rw [hd] at k3
          have : io₁.stdout = io.stdout := k3
          simp [parts, hd, this]
        · rw [hd] at k4
          have : io₁.stdout = io.stdout ++ out := k4
          simp [parts, hd, this]
      · rw [m5]
        cases hd : c.dest
        · rw [hd] at k4
          have : io₁.sink = io.sink ++ out := k4
          simp [parts, hd, this]
        · rw [hd] at k3
          have : io₁.sink = io.sink := k3
          simp [parts, hd, this]
    unfold World.calls at h
    cases hc : w.call c s io with
    | ok s₁ io₁ =>
      simp only [hc] at h h1
      obtain ⟨k1, k2, out, k3, k4⟩ := h1
      exact step _ s₁ io₁ out k3 k1 k2 k4 h
    | rejected e s₁ io₁ =>
      simp only [hc] at h h1
      obtain ⟨k1, k2, out, k3, k4⟩ := h1
      exact step _ s₁ io₁ out k3 k1 k2 k4 h
    | ended io₁ => simp [hc] at h

theorem Seeded.unique {w : World Q A σ} {seed : Option ℕ} {s a b : σ} (ha : Seeded w seed s a)
    (hb : Seeded w seed s b) : a = b := by
  rcases ha with ⟨h1, h2⟩ | ⟨n, h1, h2⟩ <;> rcases hb with ⟨h3, h4⟩ | ⟨k, h3, h4⟩
  · rw [h2, h4]
  · rw [h1] at h3; cases h3
  · rw [h1] at h3; cases h3
  · rw [h1] at h3; cases h3; rw [h2, h4]

/-- There is at most one program. -/
theorem Runnable.unique {w : World Q A σ} {c : PyCall} {m m' : Mod Q A} {f f' : Func} (h : Runnable w c m f)
    (h' : Runnable w c m' f') (s : σ) : m = m' ∧ f = f' := by
  obtain ⟨m₀, h1, h2, -, h3⟩ := h
  obtain ⟨m₁, k1, k2, -, k3⟩ := h'
  have : m₀ = m₁ := by
    rcases call_cases w c s Io.init with ⟨text, -, e, -⟩ | ⟨e, s', e, -⟩ | ⟨m, -, e, -⟩
    · exact absurd h1 (e _)
    · exact absurd h1 (e _)
    · rw [e m₀ h1, e m₁ k1]
  subst this
  rw [h2] at k2
  cases k2
  rw [h3] at k3
  cases k3
  exact ⟨rfl, rfl⟩

/-- A call that asks for help has no program. -/
theorem Runnable.no_help {w : World Q A σ} {c : PyCall} {m : Mod Q A} {f : Func} (h : Runnable w c m f) (s : σ)
    (t : Bytes) : ¬ c.Help w t := by
  obtain ⟨m₀, h1, -⟩ := h
  rcases call_cases w c s Io.init with ⟨text, -, e, -⟩ | ⟨e, s', e, -⟩ | ⟨m, -, -, e, -⟩
  · exact absurd h1 (e _)
  · exact absurd h1 (e _)
  · exact e t

theorem help_unique {w : World Q A σ} {c : PyCall} {t t' : Bytes} (h : c.Help w t) (h' : c.Help w t') : t = t' := by
  cases c with
  | main a i =>
    cases a with
    | display => exact h.trans h'.symm
    | invalid => exact h.elim
    | run => exact h.2.2.trans h'.2.2.symm
  | _ => exact h.elim

theorem help_no_refusal {w : World Q A σ} {c : PyCall} {t : Bytes} (h : c.Help w t) (s : σ) (io : Io) :
    ∃ io', w.call c s io = .ok s io' := by
  rcases call_cases w c s io with ⟨text, -, -, e, -⟩ | ⟨e, s', -, e, -⟩ | ⟨m, -, -, e, -⟩
  · exact ⟨_, e⟩
  · exact absurd h (e t)
  · exact absurd h (e t)

/-- **C51**, the mode left behind by earlier calls does not matter to calls that succeed: they succeed in any case, say
the same and leave the backend in the same state. -/
theorem C51_modes (w : World Q A σ) (c : PyCall) (s s' : σ) (io₁ io₂ io₁' : Io) (h₁ : io₁.recorder.buffer = [])
    (h₂ : io₂.recorder.buffer = []) (h : w.call c s io₁ = .ok s' io₁') :
    ∃ io₂' out, w.call c s io₂ = .ok s' io₂' ∧ seen c.dest io₁' = seen c.dest io₁ ++ out ∧
      seen c.dest io₂' = seen c.dest io₂ ++ out := by
  have a := C51_call w c s io₁ h₁
  have b := C51_call w c s io₂ h₂
  simp only [h] at a
  obtain ⟨-, -, out, a1, a2⟩ := a
  cases hc : w.call c s io₂ with
  | ok s₂ io₂' =>
    simp only [hc] at b
    obtain ⟨-, -, out₂, b1, b2⟩ := b
    have : s' = s₂ ∧ out = out₂ := by
      generalize hT : true = T at a1 b1
      cases a1 with
      | help p =>
        cases b1 with
        | help q => exact ⟨rfl, help_unique p q⟩
        | shots hm => exact absurd p (hm.no_help s _)
      | shots hm hp hs hr hl =>
        cases b1 with
        | help q => exact absurd q (hm.no_help s _)
        | shots hm' hp' hs' hr' hl' =>
          obtain ⟨rfl, rfl⟩ := hm.unique hm' s
          obtain rfl := hs.unique hs'
          rw [hr] at hr'
          cases hr'
          exact ⟨rfl, rfl⟩
      | refused => cases hT
      | parameters => cases hT
    obtain ⟨rfl, rfl⟩ := this
    exact ⟨io₂', out, rfl, a2, b2⟩
  | rejected e s₂ io₂' =>
    exfalso
    simp only [hc] at b
    obtain ⟨-, -, out₂, b1, -⟩ := b
    generalize hT : true = T at a1
    generalize hF : false = F at b1
    cases a1 with
    | help p =>
      obtain ⟨io', h'⟩ := help_no_refusal p s io₂
      rw [hc] at h'
      cases h'
    | shots hm hp hs hr hl =>
      cases b1 with
      | help => cases hF
      | shots => cases hF
      | refused hm' => exact hm' _ _ hm
      | parameters hm' hp' hn =>
        obtain ⟨rfl, rfl⟩ := hm.unique hm' s
        exact hp.elim hp' hn
    | refused => cases hT
    | parameters => cases hT
  | ended io₂' =>
    exfalso
    simp only [hc] at b
    obtain ⟨-, said, records, b1, -⟩ := b
    obtain ⟨hm', hp', hs', hr'⟩ := b1
    generalize hT : true = T at a1
    cases a1 with
    | help p => exact absurd p (hm'.no_help s _)
    | shots hm hp hs hr hl =>
      obtain ⟨rfl, rfl⟩ := hm.unique hm' s
      obtain rfl := hs.unique hs'
      rw [hr] at hr'
      cases hr'
    | refused => cases hT
    | parameters => cases hT

/-! ### Examples and counterexamples -/

/-- A small world: a program is one byte for each call it makes.  Byte 1 makes the program say `A` and a newline, any
other byte makes it panic; file `a.ll` is the program that says it once, `bad.ll` says it and then panics. -/
def toy : World Bool Unit ℕ where
  step q s := if q then .ok ((), [65, 10], s + 1) else .error []
  init s := s
  setSeed n _ := n
  parseIr mem n := some ⟨[⟨"main", 0, 1, [("entry_point", "")]⟩],
    fun _ => ((mem.take n).foldr (fun b p => .call (b == 1) fun _ => p) .done)⟩
  parseBitcode _ := none
  prepare m := some m
  readFile p := if p = "a.ll" then some [1] else if p = "bad.ll" then some [1, 0] else none
  help := []

/-- The result of a call, for comparison: whether it returned, and what was written where. -/
def summary : Outcome ℕ → Bool × Bytes × Bytes
  | .ok _ io => (true, io.stdout, io.sink)
  | .rejected _ _ io => (true, io.stdout, io.sink)
  | .ended io => (false, io.stdout, io.sink)

/-- `run("a.ll", shots=2, output_fn=f)`, a refused call and then `main(["-f", "a.ll"])`: two blocks for the callback,
then one for `stdout`. -/
example : summary (toy.calls [.run ⟨"a.ll", some "ll"⟩ none (some 2) none true, .runBytes [1, 1] none none none false,
      .main (.run (some ⟨"a.ll", some "ll"⟩) none none none) .terminal] 0 Io.init) =
    (true, block [("entry_point", "")] [65, 10],
      block [("entry_point", "")] [65, 10] ++ block [("entry_point", "")] [65, 10]) := by decide +kernel

/-- The mode does matter to calls that fail: in a fresh process `main` on a program that panics shows what the program
had recorded, but after a call with a callback the same records are lost. -/
theorem C51_lost_records :
    ∃ (c d : PyCall), c.dest = true ∧ d.dest = false ∧
      (summary (toy.calls [c] 0 Io.init)).2.1 =
        utf8 "START\n" ++ metadataLine ("entry_point", "") ++ [65, 10] ∧
      (summary (toy.calls [d, c] 0 Io.init)).2.1 = utf8 "START\n" ++ metadataLine ("entry_point", "") :=
  ⟨.main (.run (some ⟨"bad.ll", some "ll"⟩) none none none) .terminal,
    .run ⟨"a.ll", some "ll"⟩ none none none true, rfl, rfl, by decide +kernel, by decide +kernel⟩

/-- Not so for other users of the library (F14): with a writer of their own and the recorder as it is at the start,
the framing goes to the writer and the records to `stdout`. -/
theorem C51_library_counterexample :
    summary (toy.runFile ⟨"a.ll", some "ll"⟩ none 1 none false 0 Io.init) =
      (true, [65, 10], block [("entry_point", "")] []) := by decide +kernel

end Qir.Run
