import Verif.Props.ThreadDefs
import Verif.Props.Entry

/-! # Threads: the steps of a thread and its calls -/

namespace Qir.Run

open Qir.Out

variable {Q A σ ι : Type}

/-- How a thread ends. -/
inductive End (σ : Type) where
  | ret (answers : List (Option EntryError)) (l : Local σ)
  | abort (r : Recorder) (sink : Bytes)

/-- All a thread writes to `stdout`, and its end. -/
def Task.whole : Task σ → Local σ → Bytes × End σ
  | .ret r, l => ([], .ret r l)
  | .abort, l => ([], .abort l.recorder l.sink)
  | .act f k, l => (k l).whole (f l)
  | .put b k, l => (b ++ (k.whole l).1, (k.whole l).2)

/-- The number of steps to the end. -/
def Task.size : Task σ → Local σ → ℕ
  | .ret _, _ => 0
  | .abort, _ => 1
  | .act f k, l => (k l).size (f l) + 1
  | .put b k, l => b.length + k.size l + 1

theorem advance_whole (t : Task σ) (l : Local σ) :
    t.whole l = ((t.advance l).2 ++ ((t.advance l).1.1.whole (t.advance l).1.2).1,
      ((t.advance l).1.1.whole (t.advance l).1.2).2) := by
  cases t with
  | ret r => rfl
  | abort => rfl
  | act f k => rfl
  | put b k => cases b <;> rfl

theorem advance_size (t : Task σ) (l : Local σ) (h : t ≠ .abort) : (t.advance l).1.1.size (t.advance l).1.2 = t.size l - 1 := by
  cases t with
  | ret r => rfl
  | abort => exact absurd rfl h
  | act f k => rfl
  | put b k =>
    cases b with
    | nil => simp [Task.advance, Task.size]
    | cons x b => simp [Task.advance, Task.size]; omega

theorem size_zero {t : Task σ} {l : Local σ} (h : t.size l = 0) : ∃ r, t = .ret r := by
  cases t with
  | ret r => exact ⟨r, rfl⟩
  | abort => simp [Task.size] at h
  | act f k => simp [Task.size] at h
  | put b k => simp [Task.size] at h

/-! ## The calls -/

/-- All a thread writes, behind what is on `stdout` already. -/
def behind (t : Task σ) (s : σ) (io : Io) : Bytes × End σ :=
  (io.stdout ++ (t.whole ⟨s, io.recorder, io.sink⟩).1, (t.whole ⟨s, io.recorder, io.sink⟩).2)

theorem behind_put (b : Bytes) (k : Task σ) (s : σ) (io : Io) :
    behind (.put b k) s io = behind k s { io with stdout := io.stdout ++ b } := by
  simp [behind, Task.whole]

theorem behind_write (o : Bool) (b : Bytes) (k : Task σ) (s : σ) (io : Io) :
    behind (writeT o b k) s io = behind k s (writeOut o b io) := by
  cases o with
  | true => simp only [writeT, writeOut, if_true]; exact behind_put b k s io
  | false => simp [writeT, writeOut, behind, Task.whole]

theorem behind_record (out : Bytes) (k : Task σ) (s : σ) (io : Io) :
    behind (recordT out k) s io = behind k s (io.write out) := by
  cases h : io.recorder.useStdOut with
  | true => simp [recordT, Io.write, behind, Task.whole, h]
  | false => simp [recordT, Io.write, behind, Task.whole, h]

theorem behind_attrs (o : Bool) (as : List (String × String)) (k : Task σ) (s : σ) (io : Io) :
    behind (attrsT o as k) s io = behind k s (as.foldl (writeAttr o) io) := by
  induction as generalizing io with
  | nil => rfl
  | cons a as ih =>
    rw [attrsT, behind_write, List.foldl_cons, writeAttr]
    cases h : a.2.isEmpty with
    | true => simp only [if_true, id]; rw [behind_write, ih]
    | false => simp only [Bool.false_eq_true, if_false]; rw [behind_write, behind_write, ih]

theorem behind_prog (step : StepFn Q A σ) (p : Prog Q A) (k : Task σ) (s : σ) (io : Io) :
    behind (progT step p k) s io = match runProg step p s io with
      | .error io' => (io'.stdout, .abort io'.recorder io'.sink)
      | .ok (s', io') => behind k s' io' := by
  induction p generalizing s io with
  | done => rfl
  | call q p ih =>
    have h1 : behind (progT step (.call q p) k) s io = match step q s with
        | .error out => behind (recordT out .abort) s io
        | .ok (a, out, s') => behind (recordT out (progT step (p a) k)) s' io := by
      simp only [progT, behind, Task.whole]
      cases h : step q s with
      | error out => rfl
      | ok x => rfl
    rw [h1, runProg]
    cases h : step q s with
    | error out =>
      simp only []
      rw [behind_record]
      simp [behind, Task.whole]
    | ok x =>
      obtain ⟨a, out, s'⟩ := x
      simp only []
      rw [behind_record, ih]

theorem behind_shot (w : World Q A σ) (o : Bool) (f : Func) (p : Prog Q A) (k : Option EntryError → Task σ) (s : σ)
    (io : Io) : behind (shotT w o f p k) s io = match runShot w.step w.init o f p s io with
      | .ok (s', io') => behind (k none) s' io'
      | .error (.aborted, io') => (io'.stdout, .abort io'.recorder io'.sink)
      | .error (e, io') => behind (k (some (.run e))) (w.init s) io' := by
  rw [shotT, behind_write, behind_attrs, runShot]
  generalize f.attrs.foldl (writeAttr o) (writeOut o (utf8 "START\n") io) = io₁
  have h1 : ∀ t : Task σ, behind (.act (fun l => { l with s := w.init l.s }) fun _ => t) s io₁ =
      behind t (w.init s) io₁ := fun t => rfl
  rw [h1]
  by_cases hp : f.params = 0
  · rw [if_pos hp, behind_prog]
    simp only [hp, if_true]
    cases h : runProg w.step p (w.init s) io₁ with
    | error io' => rfl
    | ok x =>
      obtain ⟨s', io'⟩ := x
      simp only []
      have h2 : ∀ t : Bytes → Task σ, behind (.act (fun l => { l with recorder := { l.recorder with buffer := [] } })
          fun l => t l.recorder.buffer) s' io' = behind (t io'.drain.1) s' io'.drain.2 := fun t => rfl
      rw [h2 fun b => writeT o b (writeT o (utf8 "END\t0") (writeT o lineEnding (k none))), behind_write, behind_write,
        behind_write]
  · rw [if_neg hp]
    simp only [hp, if_false]

theorem runShots_error {w : World Q A σ} {o : Bool} {f : Func} {p : Prog Q A} {n : ℕ} {s : σ} {io : Io} {e : RunError}
    {io' : Io} (h : runShots w.step w.init o f p n s io = .error (e, io')) :
    e = .aborted ∨ e = .entryPointParameters := by
  induction n generalizing s io with
  | zero => simp [runShots] at h
  | succ n ih =>
    rw [runShots] at h
    cases h' : runShot w.step w.init o f p s io with
    | ok y => rw [h'] at h; exact ih h
    | error y =>
      rw [h'] at h
      cases h
      rw [runShot] at h'
      dsimp only at h'
      split at h'
      · split at h'
        · cases h'; exact .inl rfl
        · cases h'
      · cases h'; exact .inr rfl

theorem behind_shots (w : World Q A σ) (o : Bool) (f : Func) (p : Prog Q A) (k : Option EntryError → Task σ) (n : ℕ) (s : σ)
    (io : Io) : behind (shotsT w o f p k n) s io = match runShots w.step w.init o f p n s io with
      | .ok (s', io') => behind (k none) s' io'
      | .error (.aborted, io') => (io'.stdout, .abort io'.recorder io'.sink)
      | .error (e, io') => behind (k (some (.run e))) (w.init s) io' := by
  by_cases hp : f.params = 0
  · -- no error about parameters
    induction n generalizing s io with
    | zero => rfl
    | succ n ih =>
      rw [shotsT, behind_shot, runShots]
      cases h : runShot w.step w.init o f p s io with
      | ok x =>
        obtain ⟨s', io'⟩ := x
        simp only []
        rw [ih]
        cases h' : runShots w.step w.init o f p n s' io' with
        | ok x => rfl
        | error x =>
          have ab : ∀ (n : ℕ) (s : σ) (io : Io) (x : RunError × Io),
              runShots w.step w.init o f p n s io = .error x → x.1 = .aborted := by
            intro n
            induction n with
            | zero => intro s io x h; simp [runShots] at h
            | succ n ih =>
              intro s io x h
              rw [runShots] at h
              cases h' : runShot w.step w.init o f p s io with
              | ok y => rw [h'] at h; exact ih _ _ _ h
              | error y =>
                rw [h'] at h
                cases h
                rw [runShot] at h'
                simp only [hp, if_true] at h'
                split at h'
                · cases h'; rfl
                · cases h'
          obtain ⟨e, io''⟩ := x
          cases (ab _ _ _ _ h' : e = .aborted)
          rfl
      | error x =>
        obtain ⟨e, io'⟩ := x
        cases e <;> rfl
  · cases n with
    | zero => rfl
    | succ n =>
      rw [shotsT, behind_shot, runShots]
      have : ∃ io', runShot w.step w.init o f p s io = .error (.entryPointParameters, io') := by
        rw [runShot]
        simp only [hp, if_false]
        exact ⟨_, rfl⟩
      obtain ⟨io', h⟩ := this
      rw [h]

/-- What comes behind a call. -/
def goesOn (k : Option EntryError → Task σ) : Outcome σ → Bytes × End σ
  | .ok s io => behind (k none) s io
  | .rejected e s io => behind (k (some e)) s io
  | .ended io => (io.stdout, .abort io.recorder io.sink)

theorem chooseEntryPoint_ne {fs : List Func} {name : Option String} {e : RunError}
    (h : chooseEntryPoint fs name = .error e) : e ≠ .aborted ∧ e ≠ .entryPointParameters := by
  rw [chooseEntryPoint] at h
  split at h <;> cases h <;> exact ⟨nofun, nofun⟩

theorem behind_module (w : World Q A σ) (m : Mod Q A) (name : Option String) (shots : ℕ) (o : Bool)
    (k : Option EntryError → Task σ) (s : σ) (io : Io) :
    behind (moduleT w m name shots o k) s io = goesOn k (w.runLoaded m name shots o s io) := by
  rw [moduleT, World.runLoaded]
  cases hp : w.prepare m with
  | none => rfl
  | some m =>
    simp only [runModule]
    cases hb : bindFunctions m.fs with
    | error e =>
      have := bindFunctions_error hb
      cases e <;> first | rfl | exact absurd rfl this.1 | exact absurd rfl this.2
    | ok x =>
      simp only []
      cases hc : chooseEntryPoint m.fs name with
      | error e =>
        have := chooseEntryPoint_ne hc
        cases e <;> first | rfl | exact absurd rfl this.1 | exact absurd rfl this.2
      | ok f =>
        simp only []
        rw [behind_shots]
        cases h : runShots w.step w.init o f (m.code f) shots s io with
        | ok x => rfl
        | error x =>
          obtain ⟨e, io'⟩ := x
          have := runShots_error h
          cases e <;> first | rfl | (rcases this with h | h <;> cases h)

theorem behind_bytes (w : World Q A σ) (bytes : Bytes) (name : Option String) (shots : ℕ) (seed : Option ℕ) (o : Bool)
    (k : Option EntryError → Task σ) (s : σ) (io : Io) :
    behind (bytesT w bytes name shots seed o k) s io = goesOn k (w.runBytes bytes name shots seed o s io) := by
  have h1 : ∀ t : Task σ, behind (.act (fun l => { l with s := w.seeded seed l.s }) fun _ => t) s io =
      behind t (w.seeded seed s) io := fun t => rfl
  rw [bytesT, h1, World.runBytes]
  dsimp only
  by_cases hl : bytes.length < 4
  · rw [if_pos hl, if_pos hl]; rfl
  · rw [if_neg hl, if_neg hl]
    cases h : w.parseIr (if World.isBitcode bytes then bytes else bytes ++ [0]) bytes.length with
    | none => rfl
    | some m => exact behind_module ..

theorem behind_file (w : World Q A σ) (path : FilePath) (name : Option String) (shots : ℕ) (seed : Option ℕ) (o : Bool)
    (k : Option EntryError → Task σ) (s : σ) (io : Io) :
    behind (fileT w path name shots seed o k) s io = goesOn k (w.runFile path name shots seed o s io) := by
  have h1 : ∀ t : Task σ, behind (.act (fun l => { l with s := w.seeded seed l.s }) fun _ => t) s io =
      behind t (w.seeded seed s) io := fun t => rfl
  rw [fileT, h1, World.runFile]
  cases w.loadFile path with
  | error e => rfl
  | ok m => exact behind_module ..

theorem behind_call (w : World Q A σ) (c : PyCall) (k : Option EntryError → Task σ) (s : σ) (io : Io) :
    behind (callT w c k) s io = goesOn k (w.call c s io) := by
  have h1 : ∀ (b : Bool) (t : Task σ), behind (modeT b t) s io = behind t s (io.setStdOut b) := fun b t => rfl
  cases c with
  | run path name shots seed callback => rw [callT, h1, behind_file]; rfl
  | runBytes bytes name shots seed callback => rw [callT, h1, behind_bytes]; rfl
  | main args stdin =>
    rw [callT, World.call, mainT.eq_def, World.main.eq_def]
    cases args with
    | display => rfl
    | invalid => rfl
    | run file name shots seed =>
      dsimp only
      cases file.bind fun p => if p.text = "-" then none else some p with
      | some p => exact behind_file ..
      | none =>
        cases stdin with
        | terminal => exact behind_write ..
        | data input =>
          cases input with
          | none => rfl
          | some bytes =>
            dsimp only [World.runInput]
            by_cases hb : bytes.isEmpty = true
            · rw [if_pos hb, if_pos hb]; rfl
            · rw [if_neg hb, if_neg hb]; exact behind_bytes ..

/-- The end of a thread with the given answers so far. -/
def finale (answers : List (Option EntryError)) : Outcome σ → Bytes × End σ
  | .ok s io => (io.stdout, .ret answers ⟨s, io.recorder, io.sink⟩)
  | .rejected _ s io => (io.stdout, .ret answers ⟨s, io.recorder, io.sink⟩)
  | .ended io => (io.stdout, .abort io.recorder io.sink)

theorem behind_calls (w : World Q A σ) (cs : List PyCall) (answers : List (Option EntryError)) (s : σ) (io : Io) :
    behind (callsT w cs answers) s io = finale (answers ++ (alone w cs s io).1) (alone w cs s io).2 := by
  induction cs generalizing answers s io with
  | nil => simp [callsT, behind, Task.whole, alone, finale]
  | cons c cs ih =>
    rw [callsT, behind_call, alone]
    cases h : w.call c s io with
    | ok s' io' => simp only [goesOn]; rw [ih]; simp
    | rejected e s' io' => simp only [goesOn]; rw [ih]; simp
    | ended io' => rfl

theorem whole_calls (w : World Q A σ) (cs : List PyCall) (l : Local σ) :
    (callsT w cs []).whole l = finale (own w cs l).1 (own w cs l).2 := by
  have := behind_calls w cs [] l.s ⟨[], l.recorder, l.sink⟩
  simpa [behind, own] using this

theorem alone_not_rejected (w : World Q A σ) (cs : List PyCall) (s : σ) (io : Io) (e : EntryError) (s' : σ) (io' : Io) :
    (alone w cs s io).2 ≠ .rejected e s' io' := by
  induction cs generalizing s io with
  | nil => rintro ⟨⟩
  | cons c cs ih =>
    rw [alone]
    cases w.call c s io with
    | ok => exact ih _ _
    | rejected => exact ih _ _
    | ended => rintro ⟨⟩

/-! ## The process -/

theorem part_append (i : ι) (a b : List (ι × UInt8)) : part i (a ++ b) = part i a ++ part i b := by
  simp [part]

theorem part_own (i : ι) (b : Bytes) : part i (b.map fun x => (i, x)) = b := by
  induction b with
  | nil => rfl
  | cons x b ih => simpa [part] using ih

theorem part_other {i j : ι} (h : j ≠ i) (b : Bytes) : part i (b.map fun x => (j, x)) = [] := by
  induction b with
  | nil => rfl
  | cons x b ih => simp [part, h]

/-- What holds in a process whose `stdout` was written as in `text`. -/
structure Fine (g₀ g : Threads ι σ) (text : List (ι × UInt8)) : Prop where
  all : text.map Prod.snd = g.stdout
  whole : ∀ i, (g₀.thread i).1.whole (g₀.thread i).2 =
    (part i text ++ ((g.thread i).1.whole (g.thread i).2).1, ((g.thread i).1.whole (g.thread i).2).2)
  dead : g.ended = true → ∃ i l, g.thread i = (.abort, l)

theorem step_abort {g : Threads ι σ} {i : ι} {l : Local σ} (he : g.ended = false) (h : g.thread i = (.abort, l)) :
    g.step i = { g with ended := true } := by
  simp [Threads.step, he, h]

open Classical in
theorem step_advance {g : Threads ι σ} {i : ι} (he : g.ended = false) (h : (g.thread i).1 ≠ .abort) :
    g.step i = { g with
      thread := Function.update g.thread i ((g.thread i).1.advance (g.thread i).2).1
      stdout := g.stdout ++ ((g.thread i).1.advance (g.thread i).2).2 } := by
  rw [Threads.step, if_neg (by simp [he])]
  generalize hg : g.thread i = x at h ⊢
  obtain ⟨t, l⟩ := x
  cases t with
  | ret r => rfl
  | abort => exact absurd rfl h
  | act f k => rfl
  | put b k => rfl

theorem step_self {g : Threads ι σ} {i : ι} (he : g.ended = false) (h : (g.thread i).1 ≠ .abort) :
    (g.step i).thread i = ((g.thread i).1.advance (g.thread i).2).1 := by
  rw [step_advance he h]; simp

theorem step_other {g : Threads ι σ} {i j : ι} (hj : j ≠ i) : (g.step i).thread j = g.thread j := by
  classical
  cases he : g.ended with
  | true => simp [Threads.step, he]
  | false =>
    by_cases h : (g.thread i).1 = .abort
    · rw [step_abort he (l := (g.thread i).2) (by rw [← h])]
    · rw [step_advance he h]; simp [Function.update_of_ne hj]

theorem step_ended {g : Threads ι σ} (he : g.ended = true) (i : ι) : g.step i = g := by
  simp [Threads.step, he]

theorem Fine.step {g₀ g : Threads ι σ} {text : List (ι × UInt8)} (h : Fine g₀ g text) (i : ι) :
    ∃ more, Fine g₀ (g.step i) (text ++ more) := by
  classical
  cases he : g.ended with
  | true => exact ⟨[], by rw [step_ended he, List.append_nil]; exact h⟩
  | false =>
    by_cases hi : (g.thread i).1 = .abort
    · have hg : g.thread i = (.abort, (g.thread i).2) := by rw [← hi]
      refine ⟨[], ?_⟩
      rw [step_abort he hg, List.append_nil]
      exact ⟨h.all, h.whole, fun _ => ⟨i, _, hg⟩⟩
    · refine ⟨((g.thread i).1.advance (g.thread i).2).2.map fun x => (i, x), ?_⟩
      rw [step_advance he hi]
      refine ⟨?_, fun j => ?_, fun hd => by simp [he] at hd⟩
      · simp [h.all, Function.comp_def]
      · by_cases hj : j = i
        · subst hj
          rw [h.whole, part_append, part_own]
          simp only [Function.update_self]
          rw [advance_whole]
          simp
        · rw [h.whole, part_append, part_other fun e => hj e.symm]
          simp [Function.update_of_ne hj]

theorem Fine.steps {g₀ g : Threads ι σ} {text : List (ι × UInt8)} (h : Fine g₀ g text) (sched : List ι) :
    ∃ more, Fine g₀ (g.steps sched) (text ++ more) := by
  induction sched generalizing g text with
  | nil => exact ⟨[], by rw [List.append_nil]; exact h⟩
  | cons i sched ih =>
    obtain ⟨m1, h1⟩ := h.step i
    obtain ⟨m2, h2⟩ := ih h1
    exact ⟨m1 ++ m2, by rw [← List.append_assoc]; exact h2⟩

theorem Fine.refl {g : Threads ι σ} (h : g.stdout = []) (he : g.ended = false) : Fine g g [] :=
  ⟨by simp [h], fun i => by simp [part], fun hd => by simp [he] at hd⟩

theorem fine_start (w : World Q A σ) (calls : ι → List PyCall) (l : ι → Local σ) (sched : List ι) :
    ∃ text, Fine (.start w calls l) ((Threads.start w calls l).steps sched) text := by
  obtain ⟨m, h⟩ := (Fine.refl (g := Threads.start w calls l) rfl rfl).steps sched
  exact ⟨_, h⟩

/-! ### Progress -/

theorem step_size {g : Threads ι σ} (i j : ι) (he : (g.step i).ended = false) [DecidableEq ι] :
    ((g.step i).thread j).1.size ((g.step i).thread j).2 = (g.thread j).1.size (g.thread j).2 - if i = j then 1 else 0 := by
  have hg : g.ended = false := by
    cases h : g.ended with
    | true => rw [step_ended h] at he; rw [h] at he; cases he
    | false => rfl
  by_cases hi : (g.thread i).1 = .abort
  · rw [step_abort hg (l := (g.thread i).2) (by rw [← hi])] at he
    cases he
  · by_cases hj : i = j
    · subst hj
      rw [step_self hg hi, advance_size _ _ hi, if_pos rfl]
    · rw [step_other (Ne.symm hj), if_neg hj]; rfl

theorem steps_ended {g : Threads ι σ} (he : g.ended = true) (sched : List ι) : g.steps sched = g := by
  induction sched with
  | nil => rfl
  | cons i sched ih => exact (congrArg (Threads.steps · sched) (step_ended he i)).trans ih

theorem steps_size [DecidableEq ι] {g : Threads ι σ} (sched : List ι) (j : ι) (he : (g.steps sched).ended = false) :
    ((g.steps sched).thread j).1.size ((g.steps sched).thread j).2 = (g.thread j).1.size (g.thread j).2 - sched.count j := by
  induction sched generalizing g with
  | nil => rfl
  | cons i sched ih =>
    have h1 : (g.step i).ended = false := by
      cases h : (g.step i).ended with
      | true =>
        have : g.steps (i :: sched) = g.step i := steps_ended h sched
        rw [this, h] at he; cases he
      | false => rfl
    have h2 := ih (g := g.step i) he
    have h3 : g.steps (i :: sched) = (g.step i).steps sched := rfl
    rw [h3, h2, step_size i j h1, List.count_cons]
    by_cases hj : i = j
    · simp [hj]; omega
    · simp [hj]

/-! ### What a callback has been given -/

/-- What the callback has been given only grows. -/
def Task.Grows : Task σ → Local σ → Prop
  | .ret _, _ => True
  | .abort, _ => True
  | .act f k, l => l.sink <+: (f l).sink ∧ (k l).Grows (f l)
  | .put _ k, l => k.Grows l

/-- The callback at the end. -/
def End.sink : End σ → Bytes
  | .ret _ l => l.sink
  | .abort _ b => b

theorem Task.Grows.advance {t : Task σ} {l : Local σ} (h : t.Grows l) :
    (t.advance l).1.1.Grows (t.advance l).1.2 := by
  cases t with
  | ret r => exact h
  | abort => exact h
  | act f k => exact h.2
  | put b k => cases b <;> exact h

theorem Task.Grows.sink {t : Task σ} {l : Local σ} (h : t.Grows l) : l.sink <+: (t.whole l).2.sink := by
  induction t generalizing l with
  | ret r => exact List.prefix_rfl
  | abort => exact List.prefix_rfl
  | act f k ih => exact h.1.trans (ih l h.2)
  | put b k ih => exact ih (l := l) h

theorem grows_same {f : Local σ → Local σ} {k : Local σ → Task σ} (hf : ∀ l, (f l).sink = l.sink)
    (hk : ∀ l l', (k l).Grows l') (l : Local σ) : (Task.act f k).Grows l :=
  ⟨by rw [hf]; exact List.prefix_rfl, hk _ _⟩

theorem grows_write (o : Bool) (b : Bytes) {k : Task σ} (hk : ∀ l, k.Grows l) (l : Local σ) : (writeT o b k).Grows l := by
  cases o with
  | true => exact hk l
  | false => exact ⟨List.prefix_append _ _, hk _⟩

theorem grows_record (b : Bytes) {k : Task σ} (hk : ∀ l, k.Grows l) (l : Local σ) : (recordT b k).Grows l := by
  refine grows_same (fun l => ?_) (fun l l' => ?_) l
  · split_ifs <;> rfl
  · split_ifs <;> exact hk l'

theorem grows_attrs (o : Bool) (as : List (String × String)) {k : Task σ} (hk : ∀ l, k.Grows l) (l : Local σ) :
    (attrsT o as k).Grows l := by
  induction as generalizing l with
  | nil => exact hk l
  | cons a as ih =>
    refine grows_write _ _ (fun l => ?_) l
    split_ifs
    · exact grows_write _ _ ih l
    · exact grows_write _ _ (fun l => grows_write _ _ ih l) l

theorem grows_prog (step : StepFn Q A σ) (p : Prog Q A) {k : Task σ} (hk : ∀ l, k.Grows l) (l : Local σ) :
    (progT step p k).Grows l := by
  induction p generalizing l with
  | done => exact hk l
  | call q p ih =>
    rw [progT]
    refine grows_same (fun l => ?_) (fun l l' => ?_) l
    · split <;> rfl
    · split
      · exact grows_record _ (k := .abort) (fun _ => trivial) l'
      · exact grows_record _ (ih _) l'

theorem grows_shot (w : World Q A σ) (o : Bool) (f : Func) (p : Prog Q A) {k : Option EntryError → Task σ}
    (hk : ∀ e l, (k e).Grows l) (l : Local σ) : (shotT w o f p k).Grows l := by
  refine grows_write _ _ (fun l => grows_attrs _ _ (fun l => grows_same (fun _ => by rfl) (fun l l' => ?_) l) l) l
  split_ifs
  · exact grows_prog _ _ (fun l => grows_same (fun _ => by rfl) (fun l l' => grows_write _ _ (fun l => grows_write _ _
      (fun l => grows_write _ _ (hk none) l) l) l') l) l'
  · exact hk _ _

theorem grows_shots (w : World Q A σ) (o : Bool) (f : Func) (p : Prog Q A) {k : Option EntryError → Task σ}
    (hk : ∀ e l, (k e).Grows l) (n : ℕ) (l : Local σ) : (shotsT w o f p k n).Grows l := by
  induction n generalizing l with
  | zero => exact hk _ _
  | succ n ih =>
    refine grows_shot w o f p (fun e l => ?_) l
    cases e with
    | none => exact ih l
    | some e => exact hk _ _

theorem grows_module (w : World Q A σ) (m : Mod Q A) (name : Option String) (shots : ℕ) (o : Bool)
    {k : Option EntryError → Task σ} (hk : ∀ e l, (k e).Grows l) (l : Local σ) : (moduleT w m name shots o k).Grows l := by
  rw [moduleT]
  split
  · exact hk _ _
  · split
    · exact hk _ _
    · split
      · exact hk _ _
      · exact grows_shots w o _ _ hk _ l

theorem grows_bytes (w : World Q A σ) (bytes : Bytes) (name : Option String) (shots : ℕ) (seed : Option ℕ) (o : Bool)
    {k : Option EntryError → Task σ} (hk : ∀ e l, (k e).Grows l) (l : Local σ) :
    (bytesT w bytes name shots seed o k).Grows l := by
  refine grows_same (fun _ => by rfl) (fun l l' => ?_) l
  by_cases h : bytes.length < 4
  · rw [if_pos h]; exact hk _ _
  · rw [if_neg h]
    dsimp only
    cases w.parseIr (if World.isBitcode bytes then bytes else bytes ++ [0]) bytes.length with
    | none => exact hk _ _
    | some m => exact grows_module w _ _ _ _ hk _

theorem grows_file (w : World Q A σ) (path : FilePath) (name : Option String) (shots : ℕ) (seed : Option ℕ) (o : Bool)
    {k : Option EntryError → Task σ} (hk : ∀ e l, (k e).Grows l) (l : Local σ) :
    (fileT w path name shots seed o k).Grows l := by
  refine grows_same (fun _ => by rfl) (fun l l' => ?_) l
  split
  · exact hk _ _
  · exact grows_module w _ _ _ _ hk _

theorem grows_call (w : World Q A σ) (c : PyCall) {k : Option EntryError → Task σ} (hk : ∀ e l, (k e).Grows l)
    (l : Local σ) : (callT w c k).Grows l := by
  cases c with
  | run path name shots seed callback => exact grows_same (fun _ => by rfl) (fun l l' => grows_file w _ _ _ _ _ hk l') l
  | runBytes bytes name shots seed callback =>
    exact grows_same (fun _ => by rfl) (fun l l' => grows_bytes w _ _ _ _ _ hk l') l
  | main args stdin =>
    rw [callT, mainT.eq_def]
    cases args with
    | display => exact hk _ _
    | invalid => exact hk _ _
    | run file name shots seed =>
      dsimp only
      split
      · exact grows_file w _ _ _ _ _ hk l
      · split
        · exact grows_write _ _ (hk none) l
        · exact hk _ _
        · split_ifs
          · exact hk _ _
          · exact grows_bytes w _ _ _ _ _ hk l

theorem grows_calls (w : World Q A σ) (cs : List PyCall) (answers : List (Option EntryError)) (l : Local σ) :
    (callsT w cs answers).Grows l := by
  induction cs generalizing answers l with
  | nil => trivial
  | cons c cs ih => exact grows_call w c (fun e l => ih _ l) l

theorem step_grows {g : Threads ι σ} (h : ∀ i, (g.thread i).1.Grows (g.thread i).2) (i j : ι) :
    ((g.step i).thread j).1.Grows ((g.step i).thread j).2 := by
  by_cases hj : j = i
  · subst hj
    cases he : g.ended with
    | true => rw [step_ended he]; exact h j
    | false =>
      by_cases ha : (g.thread j).1 = .abort
      · rw [step_abort he (l := (g.thread j).2) (by rw [← ha])]; exact h j
      · rw [step_self he ha]; exact (h j).advance
  · rw [step_other hj]; exact h j

theorem steps_grow {g : Threads ι σ} (h : ∀ i, (g.thread i).1.Grows (g.thread i).2) (sched : List ι) (j : ι) :
    ((g.steps sched).thread j).1.Grows ((g.steps sched).thread j).2 := by
  induction sched generalizing g with
  | nil => exact h j
  | cons i sched ih => exact ih (g := g.step i) fun j => step_grows h i j

/-! ### Every mixture is possible -/

theorem steps_append (g : Threads ι σ) (a b : List ι) : g.steps (a ++ b) = (g.steps a).steps b := List.foldl_append

/-- A thread that has something to say can be brought to say its next byte, and nothing else happens. -/
theorem say_one {i : ι} (t : Task σ) : ∀ (g : Threads ι σ) (l : Local σ) (x : UInt8) (b : Bytes), g.ended = false →
    g.thread i = (t, l) → (t.whole l).1 = x :: b →
    ∃ n, ((g.steps (List.replicate n i)).ended = false ∧ (g.steps (List.replicate n i)).stdout = g.stdout ++ [x]) ∧
      (((g.steps (List.replicate n i)).thread i).1.whole ((g.steps (List.replicate n i)).thread i).2 = (b, (t.whole l).2)) ∧
      ∀ j, j ≠ i → (g.steps (List.replicate n i)).thread j = g.thread j := by
  induction t with
  | ret r => intro g l x b _ _ h; cases h
  | abort => intro g l x b _ _ h; cases h
  | act f k ih =>
    intro g l x b he hg h
    have hn : (g.thread i).1 ≠ .abort := by rw [hg]; nofun
    have h1 := step_self he hn
    have h2 : (g.step i).ended = false := by rw [step_advance he hn]; exact he
    have h3 : (g.step i).stdout = g.stdout := by rw [step_advance he hn, hg]; simp [Task.advance]
    rw [hg] at h1
    obtain ⟨n, ⟨k1, k2⟩, k3, k4⟩ := ih l (g.step i) (f l) x b h2 h1 h
    refine ⟨n + 1, ⟨k1, ?_⟩, k3, fun j hj => (k4 j hj).trans (step_other hj)⟩
    rw [← h3]; exact k2
  | put c k ih =>
    intro g l x b he hg h
    have hn : (g.thread i).1 ≠ .abort := by rw [hg]; nofun
    have h1 := step_self he hn
    have h2 : (g.step i).ended = false := by rw [step_advance he hn]; exact he
    rw [hg] at h1
    cases c with
    | nil =>
      have h3 : (g.step i).stdout = g.stdout := by rw [step_advance he hn, hg]; simp [Task.advance]
      obtain ⟨n, ⟨k1, k2⟩, k3, k4⟩ := ih (g.step i) l x b h2 h1 h
      refine ⟨n + 1, ⟨k1, ?_⟩, k3, fun j hj => (k4 j hj).trans (step_other hj)⟩
      rw [← h3]; exact k2
    | cons y c =>
      have h3 : (g.step i).stdout = g.stdout ++ [y] := by rw [step_advance he hn, hg]; simp [Task.advance]
      simp only [Task.whole, List.cons_append, List.cons.injEq] at h
      refine ⟨1, ⟨h2, by rw [← h.1]; exact h3⟩, ?_, fun j hj => step_other hj⟩
      have h4 : (g.steps (List.replicate 1 i)).thread i = (.put c k, l) := h1
      rw [h4, Task.whole, Task.whole, h.2]

theorem say_all (text : List (ι × UInt8)) : ∀ (g : Threads ι σ), g.ended = false →
    (∀ i, part i text <+: ((g.thread i).1.whole (g.thread i).2).1) →
    ∃ sched, (g.steps sched).ended = false ∧ (g.steps sched).stdout = g.stdout ++ text.map Prod.snd ∧
      ∀ i, (g.thread i).1.whole (g.thread i).2 = (part i text ++ (((g.steps sched).thread i).1.whole
        ((g.steps sched).thread i).2).1, (((g.steps sched).thread i).1.whole ((g.steps sched).thread i).2).2) := by
  induction text with
  | nil => intro g he _; exact ⟨[], he, (List.append_nil _).symm, fun i => rfl⟩
  | cons x text ih =>
    obtain ⟨i, x⟩ := x
    intro g he h
    have hself : part i ((i, x) :: text) = x :: part i text := by simp [part]
    have hoth : ∀ j, j ≠ i → part j ((i, x) :: text) = part j text := fun j hj => by simp [part, Ne.symm hj]
    obtain ⟨b, hb⟩ := h i
    rw [hself, List.cons_append] at hb
    obtain ⟨n, ⟨k1, k2⟩, k3, k4⟩ := say_one (i := i) (g.thread i).1 g (g.thread i).2 x _ he rfl hb.symm
    obtain ⟨sched, m1, m2, m3⟩ := ih (g.steps (List.replicate n i)) k1 fun j => by
      by_cases hj : j = i
      · subst hj; rw [k3]; exact ⟨b, rfl⟩
      · rw [k4 j hj, ← hoth j hj]; exact h j
    refine ⟨List.replicate n i ++ sched, ?_⟩
    rw [steps_append]
    refine ⟨m1, by rw [m2, k2]; simp, fun j => ?_⟩
    by_cases hj : j = i
    · subst hj
      have := m3 j
      rw [k3] at this
      have e1 := congrArg Prod.fst this
      have e2 := congrArg Prod.snd this
      dsimp only at e1 e2
      rw [hself, List.cons_append, ← e1, hb, ← e2]
    · rw [hoth j hj, ← m3 j, k4 j hj]

end Qir.Run
