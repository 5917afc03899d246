import Verif.Model.Runner

/-!
# The ways into the runner

Model of `run_file`, `run_bytes`, `run_input`, `load_file` (`runner/src/lib.rs`), of the command line
(`runner/src/cli.rs`) and of the Python functions `run`, `run_bytes`, `main` (`pip/src/python.rs`).

Simplifications.  LLVM's parsers, verification and passes are parameters, and so is the file system.  A path is
its text together with what `Path::extension` makes of it.  Arguments of the command line are those `clap` has
recognised.  The callback given to the Python functions does not raise, and is given text: that the bytes are
UTF-8 (python.rs:42) is not modelled.  A panic inside a library function ends the process.
-/

namespace Qir.Run

open Qir.Out

variable {Q A σ : Type}

/-- A module: its functions and what they do. `Module` of inkwell, runner/src/lib.rs:142-147. -/
structure Mod (Q A : Type) where
  fs : List Func
  code : Func → Prog Q A

/-- A path, with the result of `path.extension().and_then(OsStr::to_str)`. runner/src/lib.rs:232-233. -/
structure FilePath where
  text : String
  extension : Option String

/-- Everything the front ends depend on. What runner/src/lib.rs:44-256, runner/src/cli.rs:15-81 and
pip/src/python.rs:72-150 call. -/
structure World (Q A σ : Type) where
  step : StepFn Q A σ
  /-- `__quantum__rt__initialize` -/
  init : σ → σ
  /-- `qir_backend::set_rng_seed` -/
  setSeed : ℕ → σ → σ
  /-- `create_module_from_ir`, given memory and the length of the buffer in it: both text and bitcode -/
  parseIr : Bytes → ℕ → Option (Mod Q A)
  /-- `Module::parse_bitcode_from_path` for a file with the given contents -/
  parseBitcode : Bytes → Option (Mod Q A)
  /-- `verify`, the target and `run_basic_passes_on`, lib.rs:148-164 -/
  prepare : Mod Q A → Option (Mod Q A)
  /-- the contents of a file, if it can be read -/
  readFile : String → Option Bytes
  /-- the text of `print_help` -/
  help : Bytes

/-- The reasons for an `Err`. runner/src/lib.rs:74-79, 123, 138, 150-159, 240, 253, 267-270; runner/src/cli.rs:43. -/
inductive EntryError where
  | unreadable
  | empty
  | tooShort
  | extension
  | parse
  | prepare
  | arguments
  | run (e : RunError)

/-- How a call ends: `Ok`, `Err`, or not at all because the process has ended. `Result<(), String>` of
runner/src/lib.rs:67-73, or a panic in a function called by runner/src/lib.rs:250. -/
inductive Outcome (σ : Type) where
  | ok (s : σ) (io : Io)
  | rejected (e : EntryError) (s : σ) (io : Io)
  | ended (io : Io)

namespace World

/-- `run_module`, lib.rs:142-229.  `runModule` does not say in which state it leaves the backend with an error:
untouched, except that parameters of the entry point are noticed after `__quantum__rt__initialize` of the first
shot, lib.rs:209-210. -/
def runLoaded (w : World Q A σ) (m : Mod Q A) (name : Option String) (shots : ℕ) (toStdOut : Bool) (s : σ) (io : Io) :
    Outcome σ :=
  match w.prepare m with
  | none => .rejected .prepare s io
  | some m =>
    match runModule w.step w.init toStdOut m.fs m.code name shots s io with
    | .ok (s, io) => .ok s io
    | .error (.aborted, io) => .ended io
    | .error (.entryPointParameters, io) => .rejected (.run .entryPointParameters) (w.init s) io
    | .error (e, io) => .rejected (.run e) s io

/-- `if let Some(seed) = rng_seed { set_rng_seed(seed) }`, lib.rs:51-53 and 112-114. -/
def seeded (w : World Q A σ) (seed : Option ℕ) (s : σ) : σ :=
  match seed with
  | some n => w.setSeed n s
  | none => s

/-- The magic bytes, lib.rs:125-126. -/
def isBitcode (bytes : Bytes) : Bool :=
  bytes.take 4 == [0xDE, 0xC0, 0x17, 0x0B] || bytes.take 4 == [0x42, 0x43, 0xC0, 0xDE]

/-- `run_bytes`, lib.rs:105-140. -/
def runBytes (w : World Q A σ) (bytes : Bytes) (name : Option String) (shots : ℕ) (seed : Option ℕ)
    (toStdOut : Bool) (s : σ) (io : Io) : Outcome σ :=
  let s := w.seeded seed s
  let len := bytes.length
  if len < 4 then .rejected .tooShort s io
  else
    let memory := if isBitcode bytes then bytes else bytes ++ [0]
    match w.parseIr memory len with
    | none => .rejected .parse s io
    | some m => w.runLoaded m name shots toStdOut s io

/-- `run_bitcode`, lib.rs:90-97. -/
def runBitcode (w : World Q A σ) (bytes : Bytes) (name : Option String) (shots : ℕ) (toStdOut : Bool) (s : σ) (io : Io) :
    Outcome σ := w.runBytes bytes name shots none toStdOut s io

/-- `load_file`, lib.rs:231-242; a `MemoryBuffer` made from a file is followed by a zero byte. -/
def loadFile (w : World Q A σ) (path : FilePath) : Except EntryError (Mod Q A) :=
  match path.extension with
  | some "ll" =>
    match w.readFile path.text with
    | none => .error .unreadable
    | some b => match w.parseIr (b ++ [0]) b.length with
      | none => .error .parse
      | some m => .ok m
  | some "bc" =>
    match w.readFile path.text with
    | none => .error .unreadable
    | some b => match w.parseBitcode b with
      | none => .error .parse
      | some m => .ok m
  | _ => .error .extension

/-- `run_file`, lib.rs:44-57. -/
def runFile (w : World Q A σ) (path : FilePath) (name : Option String) (shots : ℕ) (seed : Option ℕ)
    (toStdOut : Bool) (s : σ) (io : Io) : Outcome σ :=
  let s := w.seeded seed s
  match w.loadFile path with
  | .error e => .rejected e s io
  | .ok m => w.runLoaded m name shots toStdOut s io

/-- `run_input`, lib.rs:67-82; `none` stands for a failure to read. -/
def runInput (w : World Q A σ) (input : Option Bytes) (name : Option String) (shots : ℕ) (seed : Option ℕ)
    (toStdOut : Bool) (s : σ) (io : Io) : Outcome σ :=
  match input with
  | none => .rejected .unreadable s io
  | some bytes =>
    if bytes.isEmpty then .rejected .empty s io
    else w.runBytes bytes name shots seed toStdOut s io

end World

/-- The standard input of the process: a terminal, or what can be read from it. runner/src/cli.rs:68-73. -/
inductive Stdin where
  | terminal
  | data (bytes : Option Bytes)

/-- What `clap` makes of the arguments, cli.rs:31-62. -/
inductive Arguments where
  /-- `--help`, `--version` -/
  | display
  | invalid
  | run (file : Option FilePath) (name : Option String) (shots : Option ℕ) (seed : Option ℕ)

/-- The calls of the Python module. pip/src/python.rs:72-150. -/
inductive PyCall where
  | run (path : FilePath) (name : Option String) (shots seed : Option ℕ) (callback : Bool)
  | runBytes (bytes : Bytes) (name : Option String) (shots seed : Option ℕ) (callback : Bool)
  | main (args : Arguments) (stdin : Stdin)

namespace World

/-- `runner::main`, cli.rs:15-81. -/
def main (w : World Q A σ) (args : Arguments) (stdin : Stdin) (s : σ) (io : Io) : Outcome σ :=
  match args with
  | .display => .ok s io
  | .invalid => .rejected .arguments s io
  | .run file name shots seed =>
    let file := file.bind fun p => if p.text = "-" then none else some p
    let shots := shots.getD 1
    match file with
    | some p => w.runFile p name shots seed true s io
    | none => match stdin with
      | .terminal => .ok s (writeOut true w.help io)
      | .data input => w.runInput input name shots seed true s io

/-- A call of the Python module, python.rs:71-153. -/
def call (w : World Q A σ) (c : PyCall) (s : σ) (io : Io) : Outcome σ :=
  match c with
  | .run path name shots seed callback =>
    w.runFile path name (shots.getD 1) seed (!callback) s (io.setStdOut (!callback))
  | .runBytes bytes name shots seed callback =>
    w.runBytes bytes name (shots.getD 1) seed (!callback) s (io.setStdOut (!callback))
  | .main args stdin => w.main args stdin s io

/-- A Python session: calls one after the other until the process ends; an `Err` is an exception which the caller
may catch. pip/src/python.rs:72-150, one call after the other. -/
def calls (w : World Q A σ) : List PyCall → σ → Io → Outcome σ
  | [], s, io => .ok s io
  | c :: cs, s, io =>
    match w.call c s io with
    | .ok s io => w.calls cs s io
    | .rejected _ s io => w.calls cs s io
    | .ended io => .ended io

end World
end Qir.Run
