import Verif.Model.Backend

/-!
# Line ends

The line ending depends on the platform (`LINE_ENDING`, stdlib/src/output_recording.rs 12-15, and the constant of the same
name in sparsesim/src/lib.rs 248-251).  The models of the output take the one of non-Windows targets.  Here it is an
argument `eol`; everything that writes line ends is written down again, function by function, and the rest is shared.

Simplifications.  As in the models of the output, of the runner and of the backend.
-/

noncomputable section
namespace Qir.Eol
open Spec Qir.Std Qir.Out Qir.Run

/-- `LINE_ENDING` on Windows, stdlib/src/output_recording.rs 12-13, sparsesim/src/lib.rs 248-249. -/
def windows : Bytes := [13, 10]

/-- `LINE_ENDING` elsewhere, stdlib/src/output_recording.rs 14-15, sparsesim/src/lib.rs 250-251. -/
def unix : Bytes := [10]

/-- `write_newline`, stdlib/src/output_recording.rs 65-67. -/
def newline (eol : Bytes) (io : Io) : Io := io.write eol

/-- `record_output_str`, output_recording.rs 82-91. -/
def recordOutputStr (eol val : Bytes) (io : Io) : Io := newline eol (io.write val)

/-- `record_output`, output_recording.rs 96-113. -/
def recordOutput (eol : Bytes) (ty val : List Char) (tag : Option Bytes) (io : Io) : Io :=
  let io := io.write (ascii ("OUTPUT\t".toList ++ ty ++ "\t".toList ++ val))
  let io := match tag with
    | none => io
    | some t => (io.write (ascii "\t".toList)).write t
  newline eol io

/-- `__quantum__rt__message`, stdlib/src/lib.rs 94-105, and `__quantum__rt__message_record_output`,
output_recording.rs 162-171. -/
def message (eol : Bytes) (s : List Char) : Io → Io := recordOutputStr eol (ascii ("INFO\t".toList ++ escape s))

/-- The functions of output_recording.rs 119-171 and backend/src/lib.rs 927-928. -/
def emit (eol : Bytes) : Record → Io → Io
  | .array n tag => recordOutput eol "ARRAY".toList (intText n) tag
  | .tuple n tag => recordOutput eol "TUPLE".toList (intText n) tag
  | .int n tag => recordOutput eol "INT".toList (intText n) tag
  | .double d tag => recordOutput eol "DOUBLE".toList (doubleText d) tag
  | .bool b tag => recordOutput eol "BOOL".toList (boolText b) tag
  | .result b tag => recordOutput eol "RESULT".toList (resultText b) tag
  | .message s => message eol s

/-- The functions of `output_recording::legacy`, output_recording.rs 180-228, and backend/src/lib.rs 881-902. -/
def emitLegacy (eol : Bytes) (r : Legacy) : Io → Io := recordOutputStr eol (ascii ("RESULT\t".toList ++ r.text))

/-- The text of `dump_impl(false)`, sparsesim/src/lib.rs 247-274. -/
def dumpText (eol : Bytes) (fmt : ℂ → String) (l : List (ℕ × ℂ)) : Bytes :=
  let output := "STATE: [ "
  let output := l.foldl
    (fun output e => output ++ ("|" ++ toString e.1 ++ "⟩: " ++ fmt e.2 ++ ", ")) output
  let output := output ++ "]"
  utf8 output ++ eol

/-- `dump`, sparsesim/src/lib.rs 216-242. -/
def dump (eol : Bytes) (env : Env) (fmt : ℂ → String) (s : Sim) : Except Panic (Bytes × Sim) := do
  let sortedKeys := s.idMap.iter.map Prod.fst
  let s ← Sim.flushQueue env sortedKeys .HRxRy s
  let s ← Sim.relocate env 0 sortedKeys s
  let s := { s with state := Sim.sortState s.state }
  return (dumpText eol fmt s.state, s)

/-- `__quantum__qis__dumpmachine__body`, backend/src/lib.rs 1024-1047. -/
def dumpMachine (eol : Bytes) (env : Env) (fmt : Back.Fmt) (location : Bool) (s : Back.Backend) :
    Except Back.Stop (Bytes × Back.Backend) :=
  if location then .error .unimplemented
  else do
    let results := if s.res.isEmpty then [] else Run.utf8 "Global Results: " ++ fmt.bits s.res ++ eol
    let (t, s) ← Back.ask (dump eol env fmt.amplitude) s
    return (results ++ t, s)

/-- One call: the functions that write, backend/src/lib.rs 881-929, 1024-1047 and stdlib/src/output_recording.rs 119-229;
the others write nothing. -/
def qstep (eol : Bytes) (env : Env) (fmt : Back.Fmt) (c : QCall) (s : Back.Backend) :
    Except Back.Stop (QAns × Bytes × Back.Backend) :=
  match c with
  | .recordResult r tag => do
    let (b, s) ← Back.recordedResult r s
    return (.unit, Back.bytesOf (recordOutput eol "RESULT".toList (resultText b) tag), s)
  | .legacyResult r => do
    let (b, s) ← Back.recordedResult r s
    return (.unit, Back.bytesOf (emitLegacy eol (.result b)), s)
  | .record e _ => .ok (.unit, Back.bytesOf (emit eol e), s)
  | .legacy e _ => .ok (.unit, Back.bytesOf (emitLegacy eol e), s)
  | .dump location => do
    let (out, s) ← dumpMachine eol env fmt location s
    return (.unit, out, s)
  | c => Back.qstep env fmt c s

/-- `__quantum__rt__fail` first records its message, stdlib/src/lib.rs 85-90. -/
def stopOutput (eol : Bytes) : Back.Stop → Bytes
  | .fail msg => Back.bytesOf (message eol msg)
  | _ => []

/-- The library behind the runner. runner/src/lib.rs:332-605. -/
def step (eol : Bytes) (env : Env) (fmt : Back.Fmt) : Run.StepFn QCall QAns Back.Backend := fun c s =>
  match qstep eol env fmt c s with
  | .ok r => .ok r
  | .error e => .error (stopOutput eol e)

variable {Q A σ : Type}

/-- The writes of one turn of the loop over the attributes, runner/src/lib.rs 195-207. -/
def writeAttr (eol : Bytes) (toStdOut : Bool) (io : Io) (a : String × String) : Io :=
  let io := writeOut toStdOut (utf8 "METADATA\t" ++ utf8 a.1) io
  let io := if a.2.isEmpty then io else writeOut toStdOut (utf8 "\t" ++ utf8 a.2) io
  writeOut toStdOut eol io

/-- One shot, runner/src/lib.rs 191-227; the line ending of the first line is fixed, line 193. -/
def runShot (eol : Bytes) (step : StepFn Q A σ) (init : σ → σ) (toStdOut : Bool) (f : Func) (p : Prog Q A) (s : σ)
    (io : Io) : Except (RunError × Io) (σ × Io) :=
  let io := writeOut toStdOut (utf8 "START\n") io
  let io := f.attrs.foldl (writeAttr eol toStdOut) io
  let s := init s
  if f.params = 0 then
    match runProg step p s io with
    | .error io => .error (.aborted, io)
    | .ok (s, io) =>
      let (out, io) := io.drain
      let io := writeOut toStdOut out io
      let io := writeOut toStdOut (utf8 "END\t0") io
      .ok (s, writeOut toStdOut eol io)
  else .error (.entryPointParameters, io)

/-- The loop over the shots, runner/src/lib.rs 191. -/
def runShots (eol : Bytes) (step : StepFn Q A σ) (init : σ → σ) (toStdOut : Bool) (f : Func) (p : Prog Q A) :
    ℕ → σ → Io → Except (RunError × Io) (σ × Io)
  | 0, s, io => .ok (s, io)
  | n + 1, s, io =>
    match runShot eol step init toStdOut f p s io with
    | .error e => .error e
    | .ok (s, io) => runShots eol step init toStdOut f p n s io

/-- `run_module`, runner/src/lib.rs 142-229, from `bind_functions` on, with the library. -/
def runModule (eol : Bytes) (env : Env) (fmt : Back.Fmt) (toStdOut : Bool) (fs : List Func)
    (code : Func → Prog QCall QAns) (name : Option String) (shots : ℕ) (s : Back.Backend) (io : Io) :
    Except (RunError × Io) (Back.Backend × Io) :=
  match bindFunctions fs with
  | .error e => .error (e, io)
  | .ok _ =>
    match chooseEntryPoint fs name with
    | .error e => .error (e, io)
    | .ok f => runShots eol (step eol env fmt) Back.reinit toStdOut f (code f) shots s io

end Qir.Eol
