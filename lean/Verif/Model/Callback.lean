import Verif.Model.Entry

/-!
# Callbacks of Python code

Model of `OptionalCallbackReceiver` (`pip/src/python.rs`) and of what its writes can do to a run: the callback is Python
code, which may raise an exception and may call the module again.  `Model/Entry` is the special case of a callback that
does neither (`Props/Callback`).

Simplifications.  Those of `Model/Entry`, except that callbacks and texts that are not UTF-8 are modelled.  A callback is
what it does to the process: any function of the text and the process, so in particular one that makes calls of the module.
A panic that leaves a Python function is the exception `PanicException`.  While `OUTPUT` is borrowed (only inside the
callback that is given the records), a library function that records something panics and ends the process; one that
records nothing does not look at `OUTPUT`.
-/

noncomputable section
namespace Qir.Run
open Qir.Out

variable {Q A σ μ : Type}

/-- The process: the backend, its output, whether `OUTPUT` is borrowed, and the memory of the Python code.
backend/src/lib.rs:43-49, stdlib/src/output_recording.rs:75-77, pip/src/python.rs:11-14. -/
structure Proc (σ μ : Type) where
  s : σ
  io : Io
  busy : Bool
  mem : μ

/-- How something ends: well, with an `Err` (an exception for Python), with a panic (the exception `PanicException`
for
Python), or with the process. pip/src/python.rs:98-99 for `err`, pip/src/python.rs:39 and runner/src/lib.rs:192-226
for `panicked`. -/
inductive Ran (σ μ : Type) where
  | ok (p : Proc σ μ)
  | err (e : EntryError) (p : Proc σ μ)
  | panicked (p : Proc σ μ)
  | gone (p : Proc σ μ)

/-- One thing after the other. No counterpart in /repo: the `?` and the sequence of statements of
pip/src/python.rs:83-99. -/
def Ran.andThen (r : Ran σ μ) (k : Proc σ μ → Ran σ μ) : Ran σ μ :=
  match r with
  | .ok p => k p
  | r => r

/-- A Python function that is given a text. pip/src/python.rs:12 and 41-49. -/
abbrev Callback (σ μ : Type) := Bytes → Proc σ μ → Ran σ μ

/-- The bytes are the text of a string: `std::str::from_utf8` succeeds. pip/src/python.rs:39. -/
def IsText (b : Bytes) : Prop := ∃ t : String, utf8 t = b

open Classical in
/-- `OptionalCallbackReceiver::write`, python.rs:37-55, and the `expect("Failed to write output")` that follows each use of
it, called by `write_all`, which does not call it for no bytes.  An exception in the callback becomes an error that is no
interruption, so `write_all` does not try again. -/
def writeAll (receiver : Option (Callback σ μ)) (b : Bytes) (p : Proc σ μ) : Ran σ μ :=
  if b = [] then .ok p
  else match receiver with
    | none => .ok { p with io := { p.io with stdout := p.io.stdout ++ b } }
    | some f =>
      if IsText b then
        match f b p with
        | .ok p => .ok p
        | .err _ p => .panicked p
        | .panicked p => .panicked p
        | .gone p => .gone p
      else .panicked p

/-- `execution_engine.run_function`, lib.rs:250, as `runProg`, for a process in which `OUTPUT` may be borrowed. -/
def runProgIn (step : StepFn Q A σ) : Prog Q A → Proc σ μ → Ran σ μ
  | .done, p => .ok p
  | .call q k, p =>
    match step q p.s with
    | .error out => .gone { p with io := if p.busy then p.io else p.io.write out }
    | .ok (a, out, s) =>
      if p.busy = true ∧ out ≠ [] then .gone p
      else runProgIn step (k a) { p with s := s, io := p.io.write out }

/-- The writes for the attributes, lib.rs:195-207. -/
def writeAttrs (receiver : Option (Callback σ μ)) : List (String × String) → Proc σ μ → Ran σ μ
  | [], p => .ok p
  | a :: as, p =>
    (writeAll receiver (utf8 "METADATA\t" ++ utf8 a.1) p).andThen fun p =>
    (if a.2.isEmpty then .ok p else writeAll receiver (utf8 "\t" ++ utf8 a.2) p).andThen fun p =>
    (writeAll receiver lineEnding p).andThen fun p =>
    writeAttrs receiver as p

/-- The records are handed over, lib.rs:213-218: `borrow_mut` panics if `OUTPUT` is borrowed; the buffer is empty and
`OUTPUT` is free again afterwards, also if the writer panics (`Drain` and `RefMut` are dropped). -/
def handRecords (receiver : Option (Callback σ μ)) (p : Proc σ μ) : Ran σ μ :=
  if p.busy then .panicked p
  else
    match writeAll receiver p.io.drain.1 { p with io := p.io.drain.2, busy := true } with
    | .ok p => .ok { p with busy := false }
    | .err e p => .err e { p with busy := false }
    | .panicked p => .panicked { p with busy := false }
    | .gone p => .gone p

/-- One shot, lib.rs:191-227. -/
def runShotIn (w : World Q A σ) (receiver : Option (Callback σ μ)) (f : Func) (code : Prog Q A) (p : Proc σ μ) : Ran σ μ :=
  (writeAll receiver (utf8 "START\n") p).andThen fun p =>
  (writeAttrs receiver f.attrs p).andThen fun p =>
  let p := { p with s := w.init p.s }
  if f.params = 0 then
    (runProgIn w.step code p).andThen fun p =>
    (handRecords receiver p).andThen fun p =>
    (writeAll receiver (utf8 "END\t0") p).andThen fun p =>
    writeAll receiver lineEnding p
  else .err (.run .entryPointParameters) p

/-- The loop over the shots, lib.rs:191. -/
def runShotsIn (w : World Q A σ) (receiver : Option (Callback σ μ)) (f : Func) (code : Prog Q A) : ℕ → Proc σ μ → Ran σ μ
  | 0, p => .ok p
  | n + 1, p => (runShotIn w receiver f code p).andThen fun p => runShotsIn w receiver f code n p

/-- `run_module`, lib.rs:142-229. -/
def runModuleIn (w : World Q A σ) (receiver : Option (Callback σ μ)) (m : Mod Q A) (name : Option String) (shots : ℕ)
    (p : Proc σ μ) : Ran σ μ :=
  match w.prepare m with
  | none => .err .prepare p
  | some m =>
    match bindFunctions m.fs with
    | .error e => .err (.run e) p
    | .ok _ =>
      match chooseEntryPoint m.fs name with
      | .error e => .err (.run e) p
      | .ok f => runShotsIn w receiver f (m.code f) shots p

/-- The module given as bytes, lib.rs:120-139. -/
def World.loadBytes (w : World Q A σ) (bytes : Bytes) : Except EntryError (Mod Q A) :=
  if bytes.length < 4 then .error .tooShort
  else match w.parseIr (if World.isBitcode bytes then bytes else bytes ++ [0]) bytes.length with
    | none => .error .parse
    | some m => .ok m

/-- `run_file`, lib.rs:44-57, and `run_bytes`, lib.rs:105-140, for a given result of loading. -/
def runIn (w : World Q A σ) (receiver : Option (Callback σ μ)) (loaded : Except EntryError (Mod Q A)) (name : Option String)
    (shots : ℕ) (seed : Option ℕ) (p : Proc σ μ) : Ran σ μ :=
  let p := { p with s := w.seeded seed p.s }
  match loaded with
  | .error e => .err e p
  | .ok m => runModuleIn w receiver m name shots p

/-- `OUTPUT.with(|output| output.borrow_mut().use_std_out(…))`, python.rs:79-82 and 108-111, then the rest of the Python
functions `run` and `run_bytes`. -/
def enter (callback : Bool) (k : Proc σ μ → Ran σ μ) (p : Proc σ μ) : Ran σ μ :=
  if p.busy then .panicked p else k { p with io := p.io.setStdOut (!callback) }

/-- A call of the Python module, python.rs:71-153, and cli.rs:15-81 for `main`.  The callback is used if the call has one. -/
def callIn (w : World Q A σ) (f : Callback σ μ) (c : PyCall) (p : Proc σ μ) : Ran σ μ :=
  match c with
  | .run path name shots seed callback =>
    enter callback (runIn w (if callback then some f else none) (w.loadFile path) name (shots.getD 1) seed) p
  | .runBytes bytes name shots seed callback =>
    enter callback (runIn w (if callback then some f else none) (w.loadBytes bytes) name (shots.getD 1) seed) p
  | .main .display _ => .ok p
  | .main .invalid _ => .err .arguments p
  | .main (.run file name shots seed) stdin =>
    match file.bind fun p => if p.text = "-" then none else some p with
    | some path => runIn w none (w.loadFile path) name (shots.getD 1) seed p
    | none => match stdin with
      | .terminal => writeAll none w.help p
      | .data none => .err .unreadable p
      | .data (some bytes) =>
        if bytes.isEmpty then .err .empty p else runIn w none (w.loadBytes bytes) name (shots.getD 1) seed p

end Qir.Run
