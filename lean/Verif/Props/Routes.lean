import Verif.Props.Entry

/-!
# C78: it does not matter how a program gets into the runner

As a file, from the standard input, as bytes from Python or Rust.
-/

namespace Qir.Run
open Qir.Out

variable {Q A σ : Type}

/-- What the parser is expected to do with bitcode: not to look beyond it, and to agree with the one for files. -/
structure Coherent (w : World Q A σ) : Prop where
  within : ∀ b, World.isBitcode b = true → w.parseIr (b ++ [0]) b.length = w.parseIr b b.length
  same : ∀ b, World.isBitcode b = true → w.parseBitcode b = w.parseIr b b.length

theorem short_not_bitcode {b : Bytes} (h : b.length < 4) : World.isBitcode b = false := by
  unfold World.isBitcode
  rw [List.take_of_length_le (by omega)]
  rw [Bool.or_eq_false_iff]
  constructor
  · rw [beq_eq_false_iff_ne]; rintro rfl; simp at h
  · rw [beq_eq_false_iff_ne]; rintro rfl; simp at h

/-- **C78**.  A program of at least four bytes, text or bitcode: as a file with the right extension, from the standard input
and as bytes it gets the same end, the same state and the same output; so does `run_bitcode`, which takes no seed. -/
theorem C78_routes {w : World Q A σ} (hw : Coherent w) (b : Bytes) (h4 : 4 ≤ b.length) (path : FilePath)
    (hp : w.readFile path.text = some b)
    (he : path.extension = some "ll" ∨ (path.extension = some "bc" ∧ World.isBitcode b = true))
    (name : Option String) (shots : ℕ) (seed : Option ℕ) (toStdOut : Bool) (s : σ) (io : Io) :
    w.runFile path name shots seed toStdOut s io = w.runBytes b name shots seed toStdOut s io ∧
    w.runInput (some b) name shots seed toStdOut s io = w.runBytes b name shots seed toStdOut s io ∧
    w.runBitcode b name shots toStdOut s io = w.runBytes b name shots none toStdOut s io := by
  refine ⟨?_, ?_, rfl⟩
  · have hl : w.loadFile path = match w.parseIr (if World.isBitcode b then b else b ++ [0]) b.length with
        | none => .error .parse
        | some m => .ok m := by
      unfold World.loadFile
      rcases he with he | ⟨he, hb⟩
      · rw [he]
        simp only [hp]
        cases hb : World.isBitcode b
        · rfl
        · rw [hw.within b hb]; rfl
      · rw [he]
        simp only [hp, hb, if_true]
        rw [hw.same b hb]
        cases w.parseIr b b.length <;> rfl
    unfold World.runFile World.runBytes
    rw [hl]
    simp only [if_neg (show ¬ b.length < 4 by omega)]
    cases w.parseIr (if World.isBitcode b then b else b ++ [0]) b.length <;> rfl
  · have hne : b.isEmpty = false := by
      cases b with
      | nil => simp at h4
      | cons => rfl
    simp only [World.runInput, hne, Bool.false_eq_true, if_false]

/-- So on the command line and in Python: `-f file`, `-f -` with the program on the standard input, `run` and `run_bytes`. -/
theorem C78_commands {w : World Q A σ} (hw : Coherent w) (b : Bytes) (h4 : 4 ≤ b.length) (path : FilePath)
    (hp : w.readFile path.text = some b) (hd : path.text ≠ "-")
    (he : path.extension = some "ll" ∨ (path.extension = some "bc" ∧ World.isBitcode b = true))
    (name : Option String) (shots seed : Option ℕ) (stdin : Stdin) (s : σ) (io : Io) (hio : io.recorder.useStdOut = true) :
    let end' := w.call (.runBytes b name shots seed false) s io
    w.call (.main (.run (some path) name shots seed) stdin) s io = end' ∧
    w.call (.main (.run (some ⟨"-", none⟩) name shots seed) (.data (some b))) s io = end' ∧
    w.call (.main (.run none name shots seed) (.data (some b))) s io = end' ∧
    w.call (.run path name shots seed false) s io = end' ∧
    ∀ callback, w.call (.run path name shots seed callback) s io = w.call (.runBytes b name shots seed callback) s io := by
  have hset : io.setStdOut true = io := by
    obtain ⟨_, ⟨_, _⟩, _⟩ := io
    simp only at hio
    rw [hio]
    rfl
  have hr := fun seed toStdOut s io => C78_routes hw b h4 path hp he name (shots.getD 1) seed toStdOut s io
  have h5 : ∀ callback, w.call (.run path name shots seed callback) s io =
      w.call (.runBytes b name shots seed callback) s io := fun callback => by
    simp only [World.call]
    exact (hr _ _ _ _).1
  refine ⟨?_, ?_, ?_, h5 false, h5⟩
  · simp only [World.call, World.main, Option.bind_some, if_neg hd, Bool.not_false, hset]
    exact (hr _ _ _ _).1
  · simp only [World.call, World.main, Option.bind_some, if_true, Bool.not_false, hset]
    exact (hr _ _ _ _).2.1
  · simp only [World.call, World.main, Option.bind_none, Bool.not_false, hset]
    exact (hr _ _ _ _).2.1

/-- Below four bytes nothing is run from memory; a file is handed to the parser nevertheless. -/
theorem C78_short (w : World Q A σ) (b : Bytes) (h4 : b.length < 4) (name : Option String) (shots : ℕ) (seed : Option ℕ)
    (toStdOut : Bool) (s : σ) (io : Io) :
    w.runBytes b name shots seed toStdOut s io = .rejected .tooShort (w.seeded seed s) io ∧
    (b ≠ [] → w.runInput (some b) name shots seed toStdOut s io = .rejected .tooShort (w.seeded seed s) io) ∧
    (b = [] → w.runInput (some b) name shots seed toStdOut s io = .rejected .empty s io) := by
  have h1 : w.runBytes b name shots seed toStdOut s io = .rejected .tooShort (w.seeded seed s) io := by
    simp only [World.runBytes, if_pos h4]
  refine ⟨h1, fun hb => ?_, fun hb => ?_⟩
  · simp only [World.runInput, List.isEmpty_iff, if_neg hb, h1]
  · subst hb; rfl

theorem runLoaded_refuses {w : World Q A σ} {m : Mod Q A} {name : Option String} {shots : ℕ} {toStdOut : Bool} {s s' : σ}
    {io io' : Io} {e : EntryError} (h : w.runLoaded m name shots toStdOut s io = .rejected e s' io') :
    e = .prepare ∨ ∃ x, e = .run x := by
  unfold World.runLoaded at h
  split at h
  · cases h; exact .inl rfl
  · split at h <;> cases h <;> exact .inr ⟨_, rfl⟩

/-- **C78**, files that are refused: exactly those with another extension than `ll` and `bc` (or none), whether they can be
read or not; those of the two kinds that cannot be read; and those that the parser for their kind does not accept.  The seed
is applied in all three cases and nothing is written. -/
theorem C78_refused (w : World Q A σ) (path : FilePath) (name : Option String) (shots : ℕ) (seed : Option ℕ)
    (toStdOut : Bool) (s : σ) (io : Io) :
    (w.runFile path name shots seed toStdOut s io = .rejected .extension (w.seeded seed s) io ↔
      path.extension ≠ some "ll" ∧ path.extension ≠ some "bc") ∧
    (w.runFile path name shots seed toStdOut s io = .rejected .unreadable (w.seeded seed s) io ↔
      (path.extension = some "ll" ∨ path.extension = some "bc") ∧ w.readFile path.text = none) ∧
    (w.runFile path name shots seed toStdOut s io = .rejected .parse (w.seeded seed s) io ↔
      ∃ b, w.readFile path.text = some b ∧ (path.extension = some "ll" ∧ w.parseIr (b ++ [0]) b.length = none ∨
        path.extension = some "bc" ∧ w.parseBitcode b = none)) := by
  have hrun : ∀ (m : Mod Q A) (e : EntryError), e = .extension ∨ e = .unreadable ∨ e = .parse →
      w.runLoaded m name shots toStdOut (w.seeded seed s) io ≠ .rejected e (w.seeded seed s) io := by
    intro m e he h
    rcases runLoaded_refuses h with rfl | ⟨x, rfl⟩ <;> simp at he
  unfold World.runFile World.loadFile
  split
  · next e1 he =>
    split at he
    · next hx =>
      split at he
      · next hr => cases he; simp [hx, hr]
      · next b hr =>
        split at he <;> cases he
        next hq => simp [hx, hr, hq]
    · next hx =>
      split at he
      · next hr => cases he; simp [hx, hr]
      · next b hr =>
        split at he <;> cases he
        next hq => simp [hx, hr, hq]
    · next h1 h2 =>
      cases he
      have h1 : path.extension ≠ some "ll" := h1
      have h2 : path.extension ≠ some "bc" := h2
      simp [h1, h2]
  · next m he =>
    have h1 := hrun m .extension (by simp)
    have h2 := hrun m .unreadable (by simp)
    have h3 := hrun m .parse (by simp)
    split at he
    · next hx =>
      split at he
      · cases he
      · next b hr =>
        split at he <;> cases he
        next hq => simp [hx, hr, hq, h1, h2, h3]
    · next hx =>
      split at he
      · cases he
      · next b hr =>
        split at he <;> cases he
        next hq => simp [hx, hr, hq, h1, h2, h3]
    · cases he

/-! ### Examples and a counterexample -/

/-- A world like `toy` in which file `t.ll` is a text of four calls, and `t.bc` is bitcode. -/
def toyFiles : World Bool Unit ℕ :=
  { toy with
    readFile := fun p => if p = "t.ll" then some [1, 1, 1, 1] else if p = "t.bc" then some [0x42, 0x43, 0xC0, 0xDE, 1] else none
    parseIr := fun mem n => toy.parseIr (if World.isBitcode mem then (mem.take n).drop 4 else mem) n
    parseBitcode := fun b => toy.parseIr (b.drop 4) b.length }

theorem isBitcode_append {b c : Bytes} (h : World.isBitcode b = true) : World.isBitcode (b ++ c) = true := by
  have h4 : 4 ≤ b.length := by
    by_contra hc
    rw [short_not_bitcode (by omega)] at h
    cases h
  unfold World.isBitcode at h ⊢
  rwa [List.take_append_of_le_length h4]

theorem toyFiles_coherent : Coherent toyFiles where
  within b hb := by
    simp only [toyFiles, hb, isBitcode_append hb, if_true, List.take_left', List.take_length]
  same b hb := by simp only [toyFiles, hb, if_true, List.take_length]

example : summary (toyFiles.call (.main (.run (some ⟨"t.ll", some "ll"⟩) none none none) .terminal) 0 Io.init) =
    (true, block [("entry_point", "")] [65, 10, 65, 10, 65, 10, 65, 10], []) := by decide +kernel

example : toyFiles.call (.main (.run (some ⟨"t.bc", some "bc"⟩) none none none) .terminal) 0 Io.init =
    toyFiles.call (.runBytes [0x42, 0x43, 0xC0, 0xDE, 1] none none none false) 0 Io.init :=
  (C78_commands toyFiles_coherent [0x42, 0x43, 0xC0, 0xDE, 1] (by decide) ⟨"t.bc", some "bc"⟩ (by decide +kernel) (by decide)
    (.inr ⟨rfl, by decide⟩) none none none .terminal 0 Io.init rfl).1

/-- A file that does not exist, and one with the wrong extension. -/
example : toyFiles.runFile ⟨"u.bc", some "bc"⟩ none 1 none true 0 Io.init = .rejected .unreadable 0 Io.init ∧
    toyFiles.runFile ⟨"t.txt", some "txt"⟩ none 1 none true 0 Io.init = .rejected .extension 0 Io.init :=
  ⟨(C78_refused toyFiles ⟨"u.bc", some "bc"⟩ none 1 none true 0 Io.init).2.1.2 ⟨.inr rfl, by decide +kernel⟩,
    (C78_refused toyFiles ⟨"t.txt", some "txt"⟩ none 1 none true 0 Io.init).1.2 ⟨by decide, by decide⟩⟩

/-- The documentation of `run_bitcode` says that it fails unless the bytes are bitcode; it runs text as well (F25). -/
theorem C78_text_as_bitcode : World.isBitcode [1, 1, 1, 1] = false ∧
    summary (toyFiles.runBitcode [1, 1, 1, 1] none 1 true 0 Io.init) =
      (true, block [("entry_point", "")] [65, 10, 65, 10, 65, 10, 65, 10], []) := by decide +kernel

end Qir.Run
