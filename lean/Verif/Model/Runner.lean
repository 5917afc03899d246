import Verif.Model.Output

/-!
# The runner

Model of `runner/src/lib.rs`: choosing the entry point, binding the external functions and running the
shots.

Simplifications.  A module is the list of its functions as they are after verification and the passes of
`run_basic_passes_on` (lib.rs 301-330), which LLVM performs.  What the entry point does is a program tree
(`Prog`): the calls it makes, each depending on the answers so far; it is supplied together with the module.
What a call does is supplied as a step function; the bytes it gives are those it writes to the recorder.  A
panic in a library function ends the process.  Only string attributes are present.
-/

namespace Qir.Run

open Qir.Out

/-- A function of the module: name, number of parameters, number of basic blocks, string attributes. What
runner/src/lib.rs:249, 263, 293-298, 336-341 and 174-189 ask of a `FunctionValue`. -/
structure Func where
  name : String
  params : ℕ
  blocks : ℕ
  attrs : List (String × String)
  deriving DecidableEq

/-- The reasons for which a run can fail. runner/src/lib.rs:253, 267-270, 356-361, 607-626. -/
inductive RunError where
  | mismatched (name : String)
  | mixedOutput
  | unlinked
  | noEntryPoint
  | multipleEntryPoints
  | entryPointParameters
  | aborted
  deriving DecidableEq

/-! ## Binding the external functions -/

/-- An implementation: the Rust function, whether it is the legacy variant, its number of parameters. The second
argument of `add_global_mapping`, runner/src/lib.rs:363, 374, 390, 395. -/
structure Impl where
  name : String
  legacy : Bool
  params : ℕ
  deriving DecidableEq

/-- The statements of `bind_functions`. runner/src/lib.rs:352-605. -/
inductive BindStep where
  /-- `bind!(name, count)`, lib.rs 352-367; `arity` is the parameter count of the Rust function. -/
  | bind (name : String) (count arity : ℕ)
  /-- `legacy_output!(name)`, lib.rs 369-382; the Rust functions take no parameter. -/
  | legacyOutput (name : String)
  /-- `bind_output_record!(name)`, lib.rs 384-404, and the case of results, lib.rs 494-516; the legacy
  functions take one parameter, the current ones two. -/
  | outputRecord (name : String)
  /-- `__quantum__qis__m__body`, lib.rs 518-538. -/
  | measure

/-- The hash map of declarations not yet bound, the global mappings made, and the collected values of
`uses_legacy` without the `None`s. runner/src/lib.rs:333-350. -/
structure BindState where
  decls : List (String × Func)
  mapped : List (Func × Impl)
  legacy : List Bool

/-- `HashMap::get`. runner/src/lib.rs:354, 371, 386. -/
def get (name : String) (d : List (String × Func)) : Option Func :=
  match d with
  | [] => none
  | (k, f) :: d => if k = name then some f else get name d

/-- `HashMap::remove`. runner/src/lib.rs:364, 376, 392, 396. -/
def remove (name : String) (d : List (String × Func)) : List (String × Func) :=
  d.filter fun e => e.1 ≠ name

/-- `HashMap::insert`. runner/src/lib.rs:343-349. -/
def insert (name : String) (f : Func) (d : List (String × Func)) : List (String × Func) :=
  (name, f) :: remove name d

/-- A function that needs an implementation from outside, lib.rs 335-342. -/
def external (f : Func) : Bool := f.blocks == 0 && !f.name.startsWith "llvm."

/-- The declarations, lib.rs 334-350. -/
def declarations (fs : List Func) : List (String × Func) :=
  (fs.filter external).foldl (fun d f => insert f.name f d) []

/-- `execution_engine.add_global_mapping` followed by `declarations.remove`. runner/src/lib.rs:363-364. -/
def BindState.map (st : BindState) (name : String) (f : Func) (impl : Impl) : BindState :=
  { st with decls := remove name st.decls, mapped := (f, impl) :: st.mapped }

/-- One statement of `bind_functions`. runner/src/lib.rs:352-403. -/
def bindStep (s : BindStep) (st : BindState) : Except RunError BindState :=
  match s with
  | .bind name count arity =>
    match get name st.decls with
    | none => .ok st
    | some f =>
      if f.params ≠ count then .error (.mismatched name)
      else .ok (st.map name f ⟨name, false, arity⟩)
  | .legacyOutput name =>
    match get name st.decls with
    | none => .ok st
    | some f => .ok { st.map name f ⟨name, true, 0⟩ with legacy := true :: st.legacy }
  | .outputRecord name =>
    match get name st.decls with
    | none => .ok st
    | some f =>
      if f.params = 1 then .ok { st.map name f ⟨name, true, 1⟩ with legacy := true :: st.legacy }
      else .ok { st.map name f ⟨name, false, 2⟩ with legacy := false :: st.legacy }
  | .measure =>
    match get "__quantum__qis__m__body" st.decls with
    | none => .ok st
    | some f =>
      if f.params = 2 then
        .ok (st.map "__quantum__qis__m__body" f ⟨"__quantum__qis__mz__body", false, 2⟩)
      else if f.params = 1 then
        .ok (st.map "__quantum__qis__m__body" f ⟨"__quantum__qis__m__body", false, 1⟩)
      else .error (.mismatched "__quantum__qis__m__body")

/-- All the statements, lib.rs 406-605, in order.  The parameter counts of the Rust functions are those of
their definitions in `backend/src` and `stdlib/src`. -/
def bindSteps : List BindStep := [
  .legacyOutput "__quantum__rt__array_end_record_output",
  .legacyOutput "__quantum__rt__array_start_record_output",
  .legacyOutput "__quantum__rt__tuple_end_record_output",
  .legacyOutput "__quantum__rt__tuple_start_record_output",
  .bind "__quantum__rt__initialize" 1 1,
  .bind "__quantum__qis__arccos__body" 1 1,
  .bind "__quantum__qis__arcsin__body" 1 1,
  .bind "__quantum__qis__arctan__body" 1 1,
  .bind "__quantum__qis__arctan2__body" 2 2,
  .bind "__quantum__qis__assertmeasurementprobability__body" 6 6,
  .bind "__quantum__qis__assertmeasurementprobability__ctl" 6 2,
  .bind "__quantum__qis__barrier__body" 0 0,
  .bind "__quantum__qis__ccx__body" 3 3,
  .bind "__quantum__qis__cnot__body" 2 2,
  .bind "__quantum__qis__cos__body" 1 1,
  .bind "__quantum__qis__cosh__body" 1 1,
  .bind "__quantum__qis__cx__body" 2 2,
  .bind "__quantum__qis__cy__body" 2 2,
  .bind "__quantum__qis__cz__body" 2 2,
  .bind "__quantum__qis__drawrandomdouble__body" 2 2,
  .bind "__quantum__qis__drawrandomint__body" 2 2,
  .bind "__quantum__qis__dumpmachine__body" 1 1,
  .bind "__quantum__qis__exp__body" 3 3,
  .bind "__quantum__qis__exp__adj" 3 3,
  .bind "__quantum__qis__exp__ctl" 2 2,
  .bind "__quantum__qis__exp__ctladj" 2 2,
  .bind "__quantum__qis__h__body" 1 1,
  .bind "__quantum__qis__h__ctl" 2 2,
  .bind "__quantum__qis__ieeeremainder__body" 2 2,
  .bind "__quantum__qis__infinity__body" 0 0,
  .bind "__quantum__qis__isinf__body" 1 1,
  .bind "__quantum__qis__isnan__body" 1 1,
  .bind "__quantum__qis__isnegativeinfinity__body" 1 1,
  .bind "__quantum__qis__log__body" 1 1,
  .bind "__quantum__qis__measure__body" 2 2,
  .bind "__quantum__qis__mresetz__body" 2 2,
  .bind "__quantum__qis__mz__body" 2 2,
  .bind "__quantum__qis__nan__body" 0 0,
  .bind "__quantum__qis__r__adj" 3 3,
  .bind "__quantum__qis__r__body" 3 3,
  .bind "__quantum__qis__r__ctl" 2 2,
  .bind "__quantum__qis__r__ctladj" 2 2,
  .bind "__quantum__qis__read_result__body" 1 1,
  .bind "__quantum__qis__reset__body" 1 1,
  .bind "__quantum__qis__rx__body" 2 2,
  .bind "__quantum__qis__rx__ctl" 2 2,
  .bind "__quantum__qis__rxx__body" 3 3,
  .bind "__quantum__qis__ry__body" 2 2,
  .bind "__quantum__qis__ry__ctl" 2 2,
  .bind "__quantum__qis__ryy__body" 3 3,
  .bind "__quantum__qis__rz__body" 2 2,
  .bind "__quantum__qis__rz__ctl" 2 2,
  .bind "__quantum__qis__rzz__body" 3 3,
  .bind "__quantum__qis__s__adj" 1 1,
  .bind "__quantum__qis__s__body" 1 1,
  .bind "__quantum__qis__s__ctl" 2 2,
  .bind "__quantum__qis__s__ctladj" 2 2,
  .bind "__quantum__qis__sx__body" 1 1,
  .bind "__quantum__qis__sin__body" 1 1,
  .bind "__quantum__qis__sinh__body" 1 1,
  .bind "__quantum__qis__sqrt__body" 1 1,
  .bind "__quantum__qis__swap__body" 2 2,
  .bind "__quantum__qis__t__adj" 1 1,
  .bind "__quantum__qis__t__body" 1 1,
  .bind "__quantum__qis__t__ctl" 2 2,
  .bind "__quantum__qis__t__ctladj" 2 2,
  .bind "__quantum__qis__tan__body" 1 1,
  .bind "__quantum__qis__tanh__body" 1 1,
  .bind "__quantum__qis__x__body" 1 1,
  .bind "__quantum__qis__x__ctl" 2 2,
  .bind "__quantum__qis__y__body" 1 1,
  .bind "__quantum__qis__y__ctl" 2 2,
  .bind "__quantum__qis__z__body" 1 1,
  .bind "__quantum__qis__z__ctl" 2 2,
  .bind "__quantum__rt__array_concatenate" 2 2,
  .bind "__quantum__rt__array_copy" 2 2,
  .bind "__quantum__rt__array_create_1d" 2 2,
  .bind "__quantum__rt__array_record_output" 2 2,
  .bind "__quantum__rt__tuple_record_output" 2 2,
  .outputRecord "__quantum__rt__bool_record_output",
  .outputRecord "__quantum__rt__double_record_output",
  .outputRecord "__quantum__rt__int_record_output",
  .outputRecord "__quantum__rt__result_record_output",
  .measure,
  .bind "__quantum__rt__array_get_element_ptr_1d" 2 2,
  .bind "__quantum__rt__array_get_size_1d" 1 1,
  .bind "quantum__rt__array_slice_1d" 3 2,
  .bind "__quantum__rt__array_update_alias_count" 2 2,
  .bind "__quantum__rt__array_update_reference_count" 2 2,
  .bind "__quantum__rt__bigint_add" 2 2,
  .bind "__quantum__rt__bigint_bitand" 2 2,
  .bind "__quantum__rt__bigint_bitnot" 1 1,
  .bind "__quantum__rt__bigint_bitor" 2 2,
  .bind "__quantum__rt__bigint_bitxor" 2 2,
  .bind "__quantum__rt__bigint_create_array" 2 2,
  .bind "__quantum__rt__bigint_create_i64" 1 1,
  .bind "__quantum__rt__bigint_divide" 2 2,
  .bind "__quantum__rt__bigint_equal" 2 2,
  .bind "__quantum__rt__bigint_get_data" 1 1,
  .bind "__quantum__rt__bigint_get_length" 1 1,
  .bind "__quantum__rt__bigint_greater" 2 2,
  .bind "__quantum__rt__bigint_greater_eq" 2 2,
  .bind "__quantum__rt__bigint_modulus" 2 2,
  .bind "__quantum__rt__bigint_multiply" 2 2,
  .bind "__quantum__rt__bigint_negate" 1 1,
  .bind "__quantum__rt__bigint_power" 2 2,
  .bind "__quantum__rt__bigint_shiftleft" 2 2,
  .bind "__quantum__rt__bigint_shiftright" 2 2,
  .bind "__quantum__rt__bigint_subtract" 2 2,
  .bind "__quantum__rt__bigint_to_string" 1 1,
  .bind "__quantum__rt__bigint_update_reference_count" 2 2,
  .bind "__quantum__rt__bool_to_string" 1 1,
  .bind "__quantum__rt__callable_copy" 2 2,
  .bind "__quantum__rt__callable_create" 3 3,
  .bind "__quantum__rt__callable_invoke" 3 3,
  .bind "__quantum__rt__callable_make_adjoint" 1 1,
  .bind "__quantum__rt__callable_make_controlled" 1 1,
  .bind "__quantum__rt__callable_update_alias_count" 2 2,
  .bind "__quantum__rt__callable_update_reference_count" 2 2,
  .bind "__quantum__rt__capture_update_alias_count" 2 2,
  .bind "__quantum__rt__capture_update_reference_count" 2 2,
  .bind "__quantum__rt__double_to_string" 1 1,
  .bind "__quantum__rt__fail" 1 1,
  .bind "__quantum__rt__int_to_string" 1 1,
  .bind "__quantum__rt__memory_allocate" 1 1,
  .bind "__quantum__rt__message" 1 1,
  .bind "__quantum__rt__pauli_to_string" 1 1,
  .bind "__quantum__rt__qubit_allocate" 0 0,
  .bind "__quantum__rt__qubit_allocate_array" 1 1,
  .bind "__quantum__rt__qubit_release" 1 1,
  .bind "__quantum__rt__qubit_release_array" 1 1,
  .bind "__quantum__rt__qubit_to_string" 1 1,
  .bind "__quantum__rt__read_result" 1 1,
  .bind "__quantum__rt__result_equal" 2 2,
  .bind "quantum__rt__range_to_string" 1 1,
  .bind "__quantum__rt__result_get_one" 0 0,
  .bind "__quantum__rt__result_get_zero" 0 0,
  .bind "__quantum__rt__result_to_string" 1 1,
  .bind "__quantum__rt__result_update_reference_count" 2 2,
  .bind "__quantum__rt__string_concatenate" 2 2,
  .bind "__quantum__rt__string_create" 1 1,
  .bind "__quantum__rt__string_equal" 2 2,
  .bind "__quantum__rt__string_get_data" 1 1,
  .bind "__quantum__rt__string_get_length" 1 1,
  .bind "__quantum__rt__string_update_reference_count" 2 2,
  .bind "__quantum__rt__tuple_copy" 2 2,
  .bind "__quantum__rt__tuple_create" 1 1,
  .bind "__quantum__rt__tuple_update_alias_count" 2 2,
  .bind "__quantum__rt__tuple_update_reference_count" 2 2,
  .bind "__quantum__rt__write_result" 2 2]

/-- The statements in sequence; the first error returns. runner/src/lib.rs:405-605. -/
def bindAll : List BindStep → BindState → Except RunError BindState
  | [], st => .ok st
  | s :: ss, st => match bindStep s st with
    | .error e => .error e
    | .ok st => bindAll ss st

/-- `bind_functions`, lib.rs 332-627; the result is the list of global mappings. -/
def bindFunctions (fs : List Func) : Except RunError (List (Func × Impl)) :=
  match bindAll bindSteps ⟨declarations fs, [], []⟩ with
  | .error e => .error e
  | .ok st =>
    if !(st.legacy.all (fun b => b) || st.legacy.all (fun b => !b)) then .error .mixedOutput
    else if st.decls.isEmpty then .ok st.mapped
    else .error .unlinked

/-! ## The entry point -/

/-- `is_entry_point`, lib.rs 292-299. -/
def isEntryPoint (f : Func) : Bool :=
  f.attrs.any (fun a => a.1 == "entry_point") || f.attrs.any (fun a => a.1 == "EntryPoint")

/-- `choose_entry_point`, lib.rs 258-274, on the functions of `module_functions`, lib.rs 276-290, which is the list of the
module. -/
def chooseEntryPoint (fs : List Func) (name : Option String) : Except RunError Func :=
  match fs.filter (fun f => isEntryPoint f && name.all (fun n => f.name == n)) with
  | [] => .error .noEntryPoint
  | [f] => .ok f
  | _ :: _ :: _ => .error .multipleEntryPoints

/-! ## Shots -/

/-- What an entry point does: it ends, or makes a call and goes on depending on the answer. No counterpart in /repo:
the compiled function run at runner/src/lib.rs:250. -/
inductive Prog (Q A : Type) where
  | done
  | call (q : Q) (k : A → Prog Q A)

/-- The effect of a library call on the state of the backend: the answer, the bytes written to the recorder and
the new state; if the call panics, the error value is what it has written to the recorder before. The functions bound
at runner/src/lib.rs:405-605. -/
abbrev StepFn (Q A σ : Type) := Q → σ → Except Bytes (A × Bytes × σ)

variable {Q A σ : Type}

/-- `execution_engine.run_function`, lib.rs 250: the program runs, its output going through the recorder.
If the process ends early, what it has written by then is the error value. -/
def runProg (step : StepFn Q A σ) : Prog Q A → σ → Io → Except Io (σ × Io)
  | .done, s, io => .ok (s, io)
  | .call q k, s, io =>
    match step q s with
    | .error out => .error (io.write out)
    | .ok (a, out, s) => runProg step (k a) s (io.write out)

/-- `output_writer.write_all`: `toStdOut` says whether the writer given to the runner is `stdout`.
runner/src/lib.rs:192-226. -/
def writeOut (toStdOut : Bool) (b : Bytes) (io : Io) : Io :=
  if toStdOut then { io with stdout := io.stdout ++ b } else { io with sink := io.sink ++ b }

/-- `str::as_bytes`. stdlib/src/output_recording.rs:86, runner/src/lib.rs:197. -/
def utf8 (s : String) : Bytes := s.toUTF8.data.toList

/-- The writes of one turn of the loop over the attributes, lib.rs 195-207. -/
def writeAttr (toStdOut : Bool) (io : Io) (a : String × String) : Io :=
  let io := writeOut toStdOut (utf8 "METADATA\t" ++ utf8 a.1) io
  let io := if a.2.isEmpty then io else writeOut toStdOut (utf8 "\t" ++ utf8 a.2) io
  writeOut toStdOut lineEnding io

/-- One shot, lib.rs 191-227: `init` is `__quantum__rt__initialize`, and lines 244-256 are
`run_entry_point`. -/
def runShot (step : StepFn Q A σ) (init : σ → σ) (toStdOut : Bool) (f : Func) (p : Prog Q A) (s : σ)
    (io : Io) : Except (RunError × Io) (σ × Io) :=
  let io := writeOut toStdOut (utf8 "START\n") io
  let io := f.attrs.foldl (writeAttr toStdOut) io
  let s := init s
  if f.params = 0 then
    match runProg step p s io with
    | .error io => .error (.aborted, io)
    | .ok (s, io) =>
      let (out, io) := io.drain
      let io := writeOut toStdOut out io
      let io := writeOut toStdOut (utf8 "END\t0") io
      .ok (s, writeOut toStdOut lineEnding io)
  else .error (.entryPointParameters, io)

/-- The loop over the shots, lib.rs 191. -/
def runShots (step : StepFn Q A σ) (init : σ → σ) (toStdOut : Bool) (f : Func) (p : Prog Q A) :
    ℕ → σ → Io → Except (RunError × Io) (σ × Io)
  | 0, s, io => .ok (s, io)
  | n + 1, s, io =>
    match runShot step init toStdOut f p s io with
    | .error e => .error e
    | .ok (s, io) => runShots step init toStdOut f p n s io

/-- `run_module`, lib.rs 142-229, from `bind_functions` on.  `code` gives the program of a function. -/
def runModule (step : StepFn Q A σ) (init : σ → σ) (toStdOut : Bool) (fs : List Func)
    (code : Func → Prog Q A) (name : Option String) (shots : ℕ) (s : σ) (io : Io) :
    Except (RunError × Io) (σ × Io) :=
  match bindFunctions fs with
  | .error e => .error (e, io)
  | .ok _ =>
    match chooseEntryPoint fs name with
    | .error e => .error (e, io)
    | .ok f => runShots step init toStdOut f (code f) shots s io

end Qir.Run
