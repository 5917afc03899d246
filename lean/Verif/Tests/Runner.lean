import Verif.Model.Entry
import Verif.Tests.FloatBackend

/-!
# The model of the runner run on the programs of its tests

runner/tests/tests.rs.  As in `Tests/Float`, these are tests of the transcription, not proofs.  The program of
`teleportation.ll` is written out below; of the programs in bitcode, only what the tests say about them is used.
-/

namespace Qir
namespace Gen
namespace RunTests
open Tests (float floatRev samples)
open BackTests (lib)
open Run Out

abbrev P := Prog (GQCall Float) (GAns Float)

/-- Calls whose answer does not matter. -/
def block (l : List (GQCall Float)) (rest : P) : P := l.foldr (fun c p => .call c fun _ => p) rest

/-- `read_result` and a branch around one call. -/
def onResult (r : ℕ) (c : GQCall Float) (rest : P) : P :=
  .call (.readResult r) fun
    | .bit true => .call c fun _ => rest
    | _ => rest

/-- One of the four teleportations, e.g. teleportation.ll:13-33: `prep` on qubit 0, measurement into `r`. -/
def teleport (prep basis : List (GGate Float)) (a b r : ℕ) (rest : P) : P :=
  block (prep.map (.gate · 0) ++ [.gate .h 2, .ctl .x [2] 1, .ctl .x [0] 2, .gate .h 0, .mz 2 a]) <|
  onResult a (.gate .x 1) <|
  block [.mz 0 b] <|
  onResult b (.gate .z 1) <|
  block ([.reset 2] ++ basis.map (.gate · 1) ++ [.mz 1 r] ++ basis.map (.gate · 1) ++ [.reset 0, .reset 1]) rest

def tag (s : String) : Option Bytes := some (utf8 s)

/-- runner/tests/resources/teleportation.ll:10-106. -/
def teleportation : P :=
  block [.reinit] <|
  teleport [] [] 0 1 2 <|
  teleport [.x] [] 3 4 5 <|
  teleport [.h] [.h] 6 7 8 <|
  teleport [.x, .h] [.h] 9 10 11 <|
  block [.record (.array 4 (tag "0_a")) (by simp), .recordResult 2 (tag "1_a0r"), .recordResult 5 (tag "2_a1r"),
    .recordResult 8 (tag "3_a2r"), .recordResult 11 (tag "4_a3r")] .done

/-- The functions of the module, teleportation.ll:10-138. -/
def functions : List Func :=
  [⟨"ENTRYPOINT__main", 0, 17, [("entry_point", ""), ("output_labeling_schema", ""), ("qir_profiles", "adaptive_profile"),
      ("required_num_qubits", "3"), ("required_num_results", "12")]⟩,
    ⟨"__quantum__rt__initialize", 1, 0, []⟩, ⟨"__quantum__qis__h__body", 1, 0, []⟩, ⟨"__quantum__qis__cx__body", 2, 0, []⟩,
    ⟨"__quantum__qis__m__body", 2, 0, [("irreversible", "")]⟩, ⟨"__quantum__rt__read_result", 1, 0, []⟩,
    ⟨"__quantum__qis__x__body", 1, 0, []⟩, ⟨"__quantum__qis__z__body", 1, 0, []⟩,
    ⟨"__quantum__qis__reset__body", 1, 0, [("irreversible", "")]⟩, ⟨"__quantum__rt__array_record_output", 2, 0, []⟩,
    ⟨"__quantum__rt__result_record_output", 2, 0, []⟩]

/-- Run a module for some shots into a writer, with the recorder set as the tests do. -/
def output (N : Num Float) (fs : List Func) (p : P) (name : Option String) (shots seed : ℕ) : Except RunError String :=
  match runModule (step N lib) (reinit N) false fs (fun _ => p) name shots
      (GBackend.new N (fun n => samples (n + seed)) id) (Io.init.setStdOut false) with
  | .ok (_, io) => .ok (String.ofList (io.sink.map fun b => Char.ofNat b.toNat))
  | .error (e, _) => .error e

def isOk (r : Except RunError String) (text : String) : Bool := match r with
  | .ok t => t == text
  | .error _ => false

def isError (r : Except RunError String) (e : RunError) : Bool := match r with
  | .ok _ => false
  | .error e' => e' == e

def transcript : String :=
  "START\nMETADATA\tentry_point\nMETADATA\toutput_labeling_schema\nMETADATA\tqir_profiles\tadaptive_profile\n" ++
  "METADATA\trequired_num_qubits\t3\nMETADATA\trequired_num_results\t12\n" ++
  "OUTPUT\tARRAY\t4\t0_a\nOUTPUT\tRESULT\t0\t1_a0r\nOUTPUT\tRESULT\t1\t2_a1r\nOUTPUT\tRESULT\t0\t3_a2r\n" ++
  "OUTPUT\tRESULT\t1\t4_a3r\nEND\t0\n"

-- `test_teleportation_bytes`, `run_input_matches_run_file`, tests.rs: the four states arrive, whatever is measured
#guard [float, floatRev].all fun N => (List.range 40).all fun seed =>
  isOk (output N functions teleportation none 3 seed) (transcript ++ transcript ++ transcript)

-- without the corrections they do not
#guard !((List.range 40).all fun seed => isOk (output float functions
  (block [.gate .x 0, .gate .h 2, .ctl .x [2] 1, .ctl .x [0] 2, .gate .h 0, .mz 2 0, .mz 0 1, .mz 1 2, .recordResult 2 none] .done)
  none 1 seed) ("START\nMETADATA\tentry_point\nMETADATA\toutput_labeling_schema\nMETADATA\tqir_profiles\tadaptive_profile\n" ++
  "METADATA\trequired_num_qubits\t3\nMETADATA\trequired_num_results\t12\nOUTPUT\tRESULT\t1\nEND\t0\n"))

/-- The attributes of `barrier.bc`, tests.rs. -/
def barrierMain : Func :=
  ⟨"ENTRYPOINT__main", 0, 1, [("entry_point", ""), ("output_labeling_schema", ""), ("qir_profiles", "base_profile"),
    ("required_num_qubits", "1"), ("required_num_results", "1")]⟩

-- `barrier_is_noop`
#guard isOk (output float [barrierMain] (block [.gate .x 0, .barrier, .gate .x 0, .barrier, .mz 0 0, .recordResult 0 none] .done)
    none 1 0)
  ("START\nMETADATA\tentry_point\nMETADATA\toutput_labeling_schema\nMETADATA\tqir_profiles\tbase_profile\n" ++
   "METADATA\trequired_num_qubits\t1\nMETADATA\trequired_num_results\t1\nOUTPUT\tRESULT\t0\nEND\t0\n")

-- `run_file_errors_on_missing_binding`
#guard isError (output float [barrierMain, ⟨"__quantum__qis__mycustomintrinsic__body", 1, 0, []⟩] .done none 1 0) .unlinked

-- `mixed_output_recording_calls_fail`
#guard isError (output float [barrierMain, ⟨"__quantum__rt__array_record_output", 1, 0, []⟩,
    ⟨"__quantum__rt__result_record_output", 1, 0, []⟩] .done none 1 0) (.mismatched "__quantum__rt__array_record_output")

-- `test_full_qir_simple`, `test_full_qir_other`: with two entry points a name is needed
#guard isError (output float [{ barrierMain with name := "QIR_App_Test__Simple" }, { barrierMain with name := "QIR_App_Test__Other" }]
  .done none 1 0) .multipleEntryPoints
#guard isOk (output float [{ barrierMain with name := "QIR_App_Test__Simple", attrs := [("EntryPoint", "")] },
    { barrierMain with name := "QIR_App_Test__Other" }] .done (some "QIR_App_Test__Simple") 1 0)
  "START\nMETADATA\tEntryPoint\nEND\t0\n"

/-- `random-bit.bc` records a random bit. -/
def randomBit : P := block [.gate .h 0, .mz 0 0, .recordResult 0 none] .done

-- `run_file_random_seed_is_applied_and_persists_across_shots`: both results occur in 100 shots
#guard match output float [barrierMain] randomBit none 100 0 with
  | .ok t => (t.splitOn "OUTPUT\tRESULT\t1").length > 20 && (t.splitOn "OUTPUT\tRESULT\t0").length > 20
  | .error _ => false

/-- A world with no files, for the errors of `run_file` and `run_input`. -/
def noFiles : World (GQCall Float) (GAns Float) (GBackend Float) where
  step := step float lib
  init := reinit float
  setSeed _ s := s
  parseIr _ _ := none
  parseBitcode _ := none
  prepare m := some m
  readFile _ := none
  help := []

def refusal (o : Outcome (GBackend Float)) : String := match o with
  | .rejected .extension _ _ => "extension"
  | .rejected .unreadable _ _ => "unreadable"
  | .rejected .empty _ _ => "empty"
  | _ => "other"

-- `run_file_errors_on_invalid_ext`, `run_file_errors_on_missing_file`, `run_input_errors_on_empty_input`
#guard refusal (noFiles.runFile ⟨"/some/bad/path", none⟩ none 1 none false (GBackend.new float samples id) Io.init) == "extension"
#guard refusal (noFiles.runFile ⟨"/some/bad/path.ll", some "ll"⟩ none 1 none false (GBackend.new float samples id) Io.init) ==
  "unreadable"
#guard refusal (noFiles.runInput (some []) none 1 none false (GBackend.new float samples id) Io.init) == "empty"

end RunTests
end Gen
end Qir
