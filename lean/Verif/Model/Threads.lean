import Verif.Model.Entry

/-!
# Calls made in several threads

The state of the backend and the output recorder are thread-local (`backend/src/lib.rs:43-49`,
`stdlib/src/output_recording.rs:75-77`), `stdout` belongs to the process.  Here the calls of `Model/Entry` are taken apart
into the steps between which another thread may go on; a schedule says which thread makes the next step.

Simplifications.  Those of `Model/Entry`.  A write to `stdout` may be interrupted between any two bytes, so that every way
the lock of `stdout` and the pieces of `write_fmt` may cut it is covered.  Everything else a thread does between two writes
concerns only itself, and may be interrupted between the calls a program makes.  LLVM, whose contexts belong to one call, is a
parameter as in `Model/Entry`; its set-up for the whole process (`Target::initialize_native`, lib.rs:152,
`load_library_permanently`, lib.rs:166) has no effect when repeated.  In Python the interpreter lock rules out most schedules
(it is held during a call and may be given away only while a callback runs); the others do no harm.
-/

namespace Qir.Run

open Qir.Out

variable {Q A σ ι : Type}

/-- What belongs to a thread: `SIM_STATE`, backend/src/lib.rs:43-49, `OUTPUT`, output_recording.rs:75-77, and what its
callback or writer has been given. -/
structure Local (σ : Type) where
  s : σ
  recorder : Recorder
  sink : Bytes

/-- What a thread has still to do: nothing, its calls having been answered; end the process; change what belongs to
it; write
to `stdout`. A call of pip/src/python.rs:75 or 105 in progress. -/
inductive Task (σ : Type) where
  | ret (answers : List (Option EntryError))
  | abort
  | act (f : Local σ → Local σ) (k : Local σ → Task σ)
  | put (b : Bytes) (k : Task σ)

/-- `write_all` through `OutputRecorder::write`, output_recording.rs:25-31: it finds out about the destination first. -/
def recordT (out : Bytes) (k : Task σ) : Task σ :=
  .act (fun l => if l.recorder.useStdOut then l
      else { l with recorder := { l.recorder with buffer := l.recorder.buffer ++ out } })
    fun l => if l.recorder.useStdOut then .put out k else k

/-- `execution_engine.run_function`, lib.rs:250, as `runProg`. -/
def progT (step : StepFn Q A σ) : Prog Q A → Task σ → Task σ
  | .done, k => k
  | .call q p, k =>
    .act (fun l => match step q l.s with
        | .error _ => l
        | .ok (_, _, s) => { l with s := s })
      fun l => match step q l.s with
        | .error out => recordT out .abort
        | .ok (a, out, _) => recordT out (progT step (p a) k)

/-- `output_writer.write_all`, as `writeOut`. runner/src/lib.rs:192-226. -/
def writeT (toStdOut : Bool) (b : Bytes) (k : Task σ) : Task σ :=
  if toStdOut then .put b k else .act (fun l => { l with sink := l.sink ++ b }) fun _ => k

/-- The writes for the attributes, lib.rs:195-207. -/
def attrsT (toStdOut : Bool) : List (String × String) → Task σ → Task σ
  | [], k => k
  | a :: as, k =>
    writeT toStdOut (utf8 "METADATA\t" ++ utf8 a.1) <|
    (if a.2.isEmpty then id else writeT toStdOut (utf8 "\t" ++ utf8 a.2)) <|
    writeT toStdOut lineEnding <|
    attrsT toStdOut as k

/-- One shot, lib.rs:191-227. -/
def shotT (w : World Q A σ) (toStdOut : Bool) (f : Func) (p : Prog Q A) (k : Option EntryError → Task σ) : Task σ :=
  writeT toStdOut (utf8 "START\n") <|
  attrsT toStdOut f.attrs <|
  .act (fun l => { l with s := w.init l.s }) fun _ =>
  if f.params = 0 then
    progT w.step p <|
    .act (fun l => { l with recorder := { l.recorder with buffer := [] } }) fun l =>
    writeT toStdOut l.recorder.buffer <|
    writeT toStdOut (utf8 "END\t0") <|
    writeT toStdOut lineEnding <|
    k none
  else k (some (.run .entryPointParameters))

/-- The loop over the shots, lib.rs:191. -/
def shotsT (w : World Q A σ) (toStdOut : Bool) (f : Func) (p : Prog Q A) (k : Option EntryError → Task σ) : ℕ → Task σ
  | 0 => k none
  | n + 1 => shotT w toStdOut f p fun
    | none => shotsT w toStdOut f p k n
    | some e => k (some e)

/-- `run_module`, lib.rs:142-229. -/
def moduleT (w : World Q A σ) (m : Mod Q A) (name : Option String) (shots : ℕ) (toStdOut : Bool)
    (k : Option EntryError → Task σ) : Task σ :=
  match w.prepare m with
  | none => k (some .prepare)
  | some m =>
    match bindFunctions m.fs with
    | .error e => k (some (.run e))
    | .ok _ =>
      match chooseEntryPoint m.fs name with
      | .error e => k (some (.run e))
      | .ok f => shotsT w toStdOut f (m.code f) k shots

/-- `run_bytes`, lib.rs:105-140. -/
def bytesT (w : World Q A σ) (bytes : Bytes) (name : Option String) (shots : ℕ) (seed : Option ℕ) (toStdOut : Bool)
    (k : Option EntryError → Task σ) : Task σ :=
  .act (fun l => { l with s := w.seeded seed l.s }) fun _ =>
  let len := bytes.length
  if len < 4 then k (some .tooShort)
  else
    let memory := if World.isBitcode bytes then bytes else bytes ++ [0]
    match w.parseIr memory len with
    | none => k (some .parse)
    | some m => moduleT w m name shots toStdOut k

/-- `run_file`, lib.rs:44-57. -/
def fileT (w : World Q A σ) (path : FilePath) (name : Option String) (shots : ℕ) (seed : Option ℕ) (toStdOut : Bool)
    (k : Option EntryError → Task σ) : Task σ :=
  .act (fun l => { l with s := w.seeded seed l.s }) fun _ =>
  match w.loadFile path with
  | .error e => k (some e)
  | .ok m => moduleT w m name shots toStdOut k

/-- `runner::main`, cli.rs:15-81, with `run_input`, lib.rs:67-82. -/
def mainT (w : World Q A σ) (args : Arguments) (stdin : Stdin) (k : Option EntryError → Task σ) : Task σ :=
  match args with
  | .display => k none
  | .invalid => k (some .arguments)
  | .run file name shots seed =>
    match file.bind fun p => if p.text = "-" then none else some p with
    | some p => fileT w p name (shots.getD 1) seed true k
    | none => match stdin with
      | .terminal => writeT true w.help (k none)
      | .data none => k (some .unreadable)
      | .data (some bytes) =>
        if bytes.isEmpty then k (some .empty) else bytesT w bytes name (shots.getD 1) seed true k

/-- `OUTPUT.with(|output| output.borrow_mut().use_std_out(…))`, python.rs:79-82 and 108-111. -/
def modeT (b : Bool) (k : Task σ) : Task σ :=
  .act (fun l => { l with recorder := { l.recorder with useStdOut := b } }) fun _ => k

/-- A call of the Python module, python.rs:71-153. -/
def callT (w : World Q A σ) (c : PyCall) (k : Option EntryError → Task σ) : Task σ :=
  match c with
  | .run path name shots seed callback => modeT (!callback) (fileT w path name (shots.getD 1) seed (!callback) k)
  | .runBytes bytes name shots seed callback => modeT (!callback) (bytesT w bytes name (shots.getD 1) seed (!callback) k)
  | .main args stdin => mainT w args stdin k

/-- The calls a thread makes, one after the other. pip/src/python.rs:72-130. -/
def callsT (w : World Q A σ) : List PyCall → List (Option EntryError) → Task σ
  | [], answers => .ret answers
  | c :: cs, answers => callT w c fun e => callsT w cs (answers ++ [e])

/-- One step of a thread, and the byte it writes to `stdout`, if any. No counterpart in /repo: one step of a call of
pip/src/python.rs:75 or 105. -/
def Task.advance : Task σ → Local σ → (Task σ × Local σ) × Bytes
  | .ret r, l => ((.ret r, l), [])
  | .abort, l => ((.abort, l), [])
  | .act f k, l => ((k l, f l), [])
  | .put [] k, l => ((k, l), [])
  | .put (x :: b) k, l => ((.put b k, l), [x])

/-- A process with threads. The thread locals are backend/src/lib.rs:43-49 and stdlib/src/output_recording.rs:75-77. -/
structure Threads (ι σ : Type) where
  thread : ι → Task σ × Local σ
  stdout : Bytes
  ended : Bool

open Classical in
/-- One step of the process: a thread goes on, unless the process has ended.  A thread that aborts ends the process.
No counterpart in /repo: the scheduler. -/
noncomputable def Threads.step (g : Threads ι σ) (i : ι) : Threads ι σ :=
  if g.ended then g
  else match g.thread i with
    | (.abort, _) => { g with ended := true }
    | (t, l) =>
      let r := t.advance l
      { g with thread := Function.update g.thread i r.1, stdout := g.stdout ++ r.2 }

/-- The steps of a schedule. No counterpart in /repo: the scheduler. -/
noncomputable def Threads.steps (g : Threads ι σ) (schedule : List ι) : Threads ι σ := schedule.foldl Threads.step g

/-- A process at its start: threads with the calls they are going to make.  What belongs to a thread is there from
the start,
although the program makes it when the thread uses it for the first time. The initial values of the thread locals are
backend/src/lib.rs:44-48 and stdlib/src/output_recording.rs:76. -/
def Threads.start (w : World Q A σ) (calls : ι → List PyCall) (l : ι → Local σ) : Threads ι σ :=
  ⟨fun i => (callsT w (calls i) [], l i), [], false⟩

end Qir.Run
