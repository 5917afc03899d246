# Formal model of qir-runner: design

## 1. Aim and layout

`properties.jsonl` lists what users of the QIR runner rely on. `lean/Verif` holds a Lean 4 model of the Rust
code in `/repo` (read as text, never built or run) and machine-checked proofs of these properties.
`MANIFEST.json` maps each property to its theorems.

| directory | contents |
|---|---|
| `Verif/Model` | the code, function by function; every definition cites file and lines |
| `Verif/Spec` | specifications; no file here imports the model, except for shared data types of calls |
| `Verif/Proof` | helper facts, invariants, simulation relations |
| `Verif/Tests` | the model run in double precision on the unit tests of the repository; no proofs |
| `Verif/Props` | the property theorems, named after the property (`C07_history`), with concrete cases beside them |

The specifications are:

* `Spec/Quantum`: wave functions `(ℕ → Bool) → ℂ` over qubit *identifiers*; controlled 2×2 matrices, Pauli
  strings, Born probabilities, projection.
* `Spec/Machine`: the ideal quantum machine (allocated identifiers, wave function, samples) and the calls.
* `Spec/Device`: the ideal QIR device (machine, result registers, records), what a call means on it, and when
  a program makes sense on it.
* `Spec/Store`: an abstract store of reference-counted objects.
* `Spec/Lines`: lines and their decoding.
* Smaller specifications (finite maps, entry-point choice, nearest integers, …) stand beside their theorems.

## 2. Trusted base

* The Lean 4.33.0 kernel; Mathlib only as checked by that kernel. `decide +kernel` is used in a few places to
  evaluate closed terms (characters of long string constants) in the kernel; it adds no axiom.
* Axioms: at most `propext`, `Classical.choice`, `Quot.sound` (checked with `#print axioms` for every theorem of
  the manifest). No axiom is added, no `sorry`, `admit`, `native_decide`, `bv_decide`.
* The correspondence between the Rust text and the model definitions, made by reading.
* Modelling decisions:
  * `f64`/`Complex64` are `ℝ`/`ℂ` (exact arithmetic), except in `Model/Rounded` and `Model/RoundedBackend` (C62, C63, C68, C70), where every operation on
    amplitudes, angles and probabilities is followed by a rounding, and except in `Model/Generic` and `Model/GenericBackend` (C73, C74), where the arithmetic is
    arbitrary, with NaN and infinities. The last is the only model of the simulator with NaN.
  * The zero test `is_nearly_zero` (|x| ≤ 1e-10 on both components) has a parameter `eps`. Statements about
    the represented quantum state are proved for `eps = 0`; structural statements for every `eps`.
  * `BigUint` is `ℕ`; `usize`, `u32`, `i64` are unbounded unless overflow is modelled explicitly.
  * The hash maps of `apply_mch`, `mcrotation`, `mcexp`, `apply` are association lists whose iteration order is
    an arbitrary permutation oracle (`shuffle`): results hold for every hash function.
  * A panic is an explicit error value; a panic inside an `extern "C"` function aborts the process, so nothing
    runs after it.
  * The random generator is the stream of its future samples in [0,1); a seed picks a stream. The quality of the
    generator is not modelled. Where probabilities are stated (C57, C58, C63, C65, C68, C70, C95), the samples are independent and
    uniform on [0,1), the words behind draws independent and uniform and independent of the samples.
  * A real is drawn as `min + w/(2^64-1)·(max-min)` from one word; `rand` uses 52 bits of the word, a coarser grid.
  * `Rc`'s strong and weak counters (including the implicit weak reference) are modelled from the standard
    library's published implementation; likewise the byte algorithms of `num-bigint` and the inclusive range
    sampling of `rand`, which are dependencies and not part of `/repo`.
  * The text forms of floating-point amplitudes (`num-complex`) and of bit vectors (`bitvec`) are parameters.
  * A QIR program is an arbitrary decision tree of calls, each depending on the answers to the earlier ones.
    LLVM executes the program; that the JIT calls the bound functions is assumed.

### Modelled

* `sparsesim/src/lib.rs`, `exp.rs`, `index_map.rs`, `nearly_zero.rs`: `Model/IMap`, `Iterators`, `Sim`, `Exp`, `Apply`, `Api`.
* `stdlib/src`: `lib.rs`, `arrays.rs`, `tuples.rs`, `callables.rs` (`Model/Heap`), `range_support.rs`
  (`Model/Range`), `math.rs` (`Model/Math`: remainder, draws; `Model/Elementary`: the functions of real numbers;
  `Model/Values`: NaN and infinities), `bigints.rs` (`Model/Math`, `Model/Values`), `strings.rs` (`Model/Values`),
  `output_recording.rs`,
  escaping of messages, text of doubles' special form (`Model/Output`).
* `stdlib/src/lib.rs`: `__quantum__rt__memory_allocate` (`Model/Memory`), with the addresses left to the allocator.
* `backend/src/lib.rs`, `exp.rs`, `result_bool.rs` (`Model/Backend`, `Model/QubitArray`).
* `runner/src/lib.rs`: `choose_entry_point`, `bind_functions` and its whole table, `run_module`'s shots,
  `run_entry_point`, framing (`Model/Runner`); `run_file`, `run_bytes`, `run_input`, `load_file`, `runner/src/cli.rs`
  after argument parsing, and the three functions of `pip/src/python.rs` (`Model/Entry`); callbacks of Python code
  that raise exceptions or call the module again, and texts that are not UTF-8 (`Model/Callback`); the classes
  `Output` and `OutputHandler` (`Model/Handler`); calls in several threads (`Model/Threads`); everything that writes line ends
  once more with the line ending as an argument (`Model/LineEnds`); all other models have the line ending LF.

### Not modelled

LLVM (parsing, verification, passes, JIT), clap's parsing, pyo3 (a panic is taken to be an exception for Python),
memory exhaustion (except in `__quantum__rt__memory_allocate`), count overflow of `Rc`.

## 3. Simulator

`Sim` has the fields of `QuantumSim`: sparse state `List (ℕ × ℂ)`, `IMap` for `id_map`, `rx_queue`, `ry_queue`,
bit mask `hFlag`, `opQ`, samples. Every method becomes a function into `Except Panic`.

*Refinement.* `abs s` is the wave function obtained by applying the pending operations (queue, then H, Rx, Ry of
each qubit) to the stored amplitudes read through `id_map`. The invariant `WF s`: injective id map, distinct keys,
bits only on allocated locations, pending entries only on allocated ids, never H and Rx pending on the same qubit,
queued operations valid, norm one. Each operation preserves `WF` and changes `abs` as the specification says, up to
a global phase. Histories by induction (`Reachable`).

*Two runs.* `Twin s s'`: equal but for the order of the stored amplitudes. Every method, from twin states with any
operands, any tolerance and any two iteration orders, gives the same panic or the same answer and twin states.

| property | how it is proved |
|---|---|
| C01 | step refinement of each gate, induction over histories. FALSE in general (F1): exact description for all valid histories (`C01_exact`), witness, and the positive theorems under "no uncontrolled Ry while a half-turn about X is pending" |
| C02, C13, C14, C20 | probability of the sparse list = Born probability of `abs`; collapse = projection |
| C03 | after a measurement the probability is 0 or 1, samples lie in [0,1); arbitrary observations between |
| C04, C05 | part of the invariant |
| C06 | observations leave `abs` unchanged; later answers by refinement. FALSE through F1: witness; `C06_exact` for every case |
| C07 | two-run relation over every method, every backend call and the shot loop |
| C08, C11, C23 | list lemmas on `IMap`; C11 for all histories, valid or not, from `Twin` |
| C67 | the state of an iterator (slots passed, slots left) refines a list taken apart from both ends; induction over the slots and over the requests |
| C09 | release = measure + clear bit + forget id |
| C10 | FALSE (F2): witness; `C10_exactly`: panics iff the number of qubits is not one; `C10_resets`: what happens otherwise |
| C12 | `swap_qubit_ids` = renaming of the basis |
| C15 | invariant of the relocation loop: the first i ids sit at locations 0..i-1; `C15_exact` for every valid history |
| C16 | `take_ops` fails if a queued operation is invalid; all observations reach it. FALSE in two situations: witnesses |
| C17 | FALSE for h/rx/ry (F3): witness; holds for the operations that are queued; `C17_inherited`: the request equals one made after the allocation |
| C18 | Pauli string action on kets, pairing argument; special branches shown dead |
| C19 | FALSE after releases (F4, `C19_counterexample`). `C19_apply_partial`: exact multiplication by the (controlled) matrix in every reachable state without a gap below the number of operands; `C19_panics`: a gap is exactly what makes a valid call panic; `C19_only_gap`, `C19_no_release`, `C19_after_dump`: which histories have none; `C19_rejects`: bad operands panic. Spec: `Spec/Unitary` (matrices on lists of qubits, row numbers) |
| C21 | invariant `opQ.length ≤ 10000` over every call |
| C22 | FALSE as stated (F15, `C22_counterexample`: dropped queue angles cost no visited amplitude). `C22_bound_partial`: for 0 ≤ eps ≤ 1/2 and every history of gates, allocations and queries outside F1, every answer is within 4√2·eps·√(2^n)·work of the ideal one (work = operands + 1 per call). `Proof/Tol*`: each pass over the state costs at most one unit √2·eps·√(2^n) in l2 distance, unitaries transport distances, triangle inequality along the history. Measurement is left out here (an outcome near its threshold may flip), see C53 |
| C53 | as C22, with measurements: `Proof/TolMeasure` bounds the distance after an observation by 3·d/p (p the ideal probability of what was observed; `post_near`), the outcomes agree when the sample is more than 2d from the threshold; Y rotations that meet a near-half-turn are covered through `Tol.carriedOut`. `Ideal.reach`/`after` spell out the distance call by call, `Decided` the margin; `bell_measured` is a concrete run at 1e-10 |
| C62 | `Model/Rounded`: the simulator again with a rounding after every operation and approximate sine and cosine (`Arith`: relative error u, absolute error η); `Proof/RoundedExact`: with exact arithmetic it is `Model/Sim`. `Proof/RndNoise`…`RndTrack`: each pass over the state costs at most one unit (rounding at most a thousandth of eps per operation), the rest as C22/C53; norms drift, so probabilities are computed from states of norm within the slack of one. `RndAngles`: a bound on the angles of the history bounds the pending sums. `Model/Binary64`: round to nearest with 53 bits is such an arithmetic. Not covered: `apply`; `r__ctl` with Pauli I, which hands `mcphase` a rounded phase, is not among the calls of the history (`Proof/RndGates.mcphase_near` covers it for one call); sines and cosines are assumed within u+η of the true ones (true of the libm in use for arguments of moderate size), cosine is assumed even |
| C63 | `Model/RoundedBackend`: the backend functions again on top of `Model/Rounded` (`Proof/RoundedBackExact`: with exact arithmetic it is `Model/Backend`). By induction over the program (`Proof/TV.close`): the ideal probability of a set of outputs, as a function of the state vector, is a `Weight` (homogeneous of degree two, between 0 and the squared norm, Lipschitz: `Proof/Weigh*`), so that an error in the state costs at most its length times the norms; a measurement whose rounded probability is off by a little moves the distribution by as much (`Close.splits`), so no margin between samples and thresholds is assumed, unlike in C53/C62. Every backend call either moves the state by a unitary up to the noise of its passes (`Goes`), fails (`Stops`), drops the last qubit (`Drops`) or splits into two outcomes (`Splits`): `Proof/RndBack*`. `Proof/TVShots`: sessions, exact independence of the shots. `Props/TVDefs`: `Within` (N, W, M, T of a program), `gap`. `C63_coin`: a concrete program in double precision, each line has probability 1/2 within 1e-6. Not covered: `isZero`, `assertProb`, dump in the program; draws are in C68 |
| C68 | `Proof/TVDraw`: the induction of C63 with two sources, samples and words, instead of one: a draw turns the ideal probability into a mixture of `Weight`s, which is a `Weight` (`Weight.mix`), and the probability of the code into the same mixture (`CloseD.draws`), so draws cost nothing. `Proof/TVDrawShots`: a shot is a `Lawful` experiment (`Proof/Iterate`), which gives independence of the shots and convergence of the frequencies. `Props/TVDrawDefs`: `WithinD`, `TurnlessD`. `C68_sometimes`: a concrete program in double precision |

## 4. Backend

`Backend` = simulator, result bits, `max_qubit_id`, unseeded random words. Every `extern "C"` function becomes a
model function; a call also gives the bytes it records.

`QRef` relates it to the ideal QIR device; `qref_step` shows that a call that makes sense on the device gives the
device's answer and bytes and related states (up to a global phase, outside F1). Programs by induction on the tree.

| property | how it is proved |
|---|---|
| C24, C25 | invariants of `ensure_sufficient_qubits` and of the bit vector |
| C26 | FALSE when the result store is empty (F5): witness; `C26_exact` describes every state |
| C27 | reinitialisation forgets everything but the random sources; relational over all programs |
| C28–C31 | decompositions proved on wave functions, transported through the refinement; C31 FALSE through F1, `C31_r_exact` describes every case |
| C37 | device and heap side by side; release of the qubits proved for all sizes and states; the memory half is FALSE in every count state (F6): `C37_counterexample`, `C37_never_drops`, `C37_beyond_repair` |
| C47 | from C29 and the refinement |
| C48 | runs are functions of the seed for programs without draws; FALSE with draws (F11): witness |
| C49 | refinement of whole runs, shot by shot; FALSE through F1: witness; `C49_settled` covers F1 with the program carried out |

## 5. Standard library

Heap of reference-counted boxes (strong, weak, payload alive, memory allocated), refined to the abstract store.
Strings are lists of bytes.

| property | how it is proved |
|---|---|
| C32, C33 | refinement of the counters to the abstract store, every sequence of client steps |
| C34, C43 | range arithmetic by induction; text decoding |
| C35 | byte-list lemmas |
| C36 | induction over the nesting of controlled; counts of every box compared before and after |
| C50 | the compiled capture functions are the specification's; they amount to a sequence of client steps of the store |
| C38, C39 | left inverse of the writers, `escape_default` per character |
| C44 | FALSE on ties (F7): witness; right exactly when proved |
| C45 | two's-complement lemmas on byte lists |
| C46 | interval arithmetic of the sampler for all words |
| C54 | expressions of any shape, evaluated by a program that releases every intermediate result (`Spec/Values`); the meaning of each operation is an equation (bits, floor, truncated division). Induction over the expression with the frame `Grown`: which objects were created, which are gone |
| C55 | decimal notation characterised without the printing algorithm (`Digits`, `Point`, `RangeReads`); the kind of a text read off the text |
| C56 | each function by the equation and interval that determine it (real numbers) |

## 6. Runner

| property | how it is proved |
|---|---|
| C40 | induction over shots; also what has been written when a shot panics |
| C41 | case analysis against an independent description of the choice |
| C42 | FALSE (F8, F12): witnesses; proved for all functions but those named |
| C51 | invariant "nothing pending" over all sequences of calls; every call compared with what it has to say (`Says`), which mentions no recorder |
| C52 | every call of the backend against what the ideal device may do (`May`, `Ends`; draws and dumps nondeterministic), for the call carried out (`carriedOut`); induction over programs and shots; no side condition about F1 |
| C57 | the probability of an outcome is computed by recursion over the program from the Born rule alone (`chance`, no samples); product measure on streams (`streams`); induction over the program splits the first sample off (`law`), induction over the shots gives independence.  Programs that meet F1: which gates are pending does not depend on measured values (`Alike`, preserved by every call in lock step), so one resigned program (`settled`) describes all shots |
| C58 | strong law of large numbers (Mathlib) for the indicator of an output, whose pairwise independence and identical distribution come from C57 |
| C59 | the value drawn is the position of the pair of words in the square of the number of words, scaled to the range (the carry of the second word computed exactly); counting of the pairs in the preimage of a value; divisors of a power of two |
| C60 | potential: number of stored amplitudes times two to the number of pending Hadamard gates and rotations; no call but the superposing ones increases it, by induction over all histories; the bound by qubits from the distinct locations (C11); attained by Hadamard gates on all qubits, through C15 |
| C61 | the transcript as a list of lines (none contains a line feed); the first byte of a line tells metadata, events and ends apart, so the list of lines falls into shots in one way; bodies of events and attributes are injective (C38); every run writes the transcript of an account of it, by induction over program and shots (C40) |
| C64 | a callback is any function on the process, so nested calls are expressed by using the call in it. Foreign callbacks: the call is a fold over its list of texts (`hand`), by induction over shots. Nested calls: Python code as an inductively built class (`Code`); "no records pending, OUTPUT as free as before" and "stdout unchanged, records collected" are invariants of every step of a call if they are of the callback, so induction over the code gives them for every depth |
| C65 | as C57 with a second product measure for the words (`sources`): a deterministic dealer (`deal`) consumes samples and words; induction over the program splits one sample, two words or one word off the front (`sources_measured`, `sources_twice`, `sources_worded`). A generic lemma on iterated lawful experiments (`Lawful`) gives independence and frequencies. Fairness: total variation of one draw ≤ 2^-64, added up along the program |
| C66 | the handlers are the memory of the Python code in C64, their callback is a foreign one; the texts handed over concatenate to the output (C64), UTF-8 is a homomorphism. Text: everything the library writes is ASCII but the labels, by cases over the calls |
| C69 | the calls of `Model/Entry` taken apart into steps (`Task`), with what is thread-local in the thread and `stdout` in the process; a schedule is any list of threads. Taken together, the steps of a thread are its calls (`behind_call`). Invariant over schedules: what a thread has written and what it still will is what it writes alone (`Fine`); a measure for progress; every mixture is reached by induction over its bytes (`say_all`). Not covered: callbacks that raise or call the module, as in C64 |
| C70 | composition of C61, C65, C66 and C68: a call of `run` with a new `OutputHandler`, whose `get_output()` is read by a reader defined for this purpose (`readOutput`: lines, then the lines between START and END that are not METADATA). `C70_reader`: the reader finds the complete shots of a transcript; `C70_handler`: through a handler; `C70_counts`, `C70_rounded`: the fractions of the shots that read in a given way converge, for all ways to read at once. For the second, `Proof/TVSafe`: with rounded arithmetic a program does not fail if the ideal device does not whatever it finds and draws (`Safe`); this also shows that the hypothesis of `C68_frequencies` can be met. `C70_coin`: a concrete program and module in double precision. No seed is passed; with one the samples are those of the generator, which is not modelled |
| C71 | (partial) `resultToString`, `resultEqual`, `qubitToString` on what `m` and `measure` hand out (C29). Missing: registers (`C71_register` says exactly when the text is right, `C71_counterexample`). The text of a qubit is specified by `Digits` of `Spec/Values` |
| C72 | (partial) the refinement to the ideal device with `get_state` in between; what follows is compared through the ideal device. Missing: rotations about Y that turn the wrong way, as in C06 (`C72_counterexample`) |
| C73 | `Model/Generic`: the simulator again over any type of numbers with any operations (`Num`, no laws), so that `f64` with NaN, infinities and any rounding is one instance; `Tests/Float` runs this instance on the unit tests of the repository (a test of the transcription, no theorem depends on it). `Proof/Generic`…`Generic4`: an invariant of the structure (`Inv`: distinct indices within the locations in use, queues naming qubits in use) is kept by every call, and with it no call panics. `Props/GenericDefs` says which histories are valid, which identifiers, how many samples and which kind of answer are due. `Props/GenericReal`, `Proof/GenericExact`: at the real numbers the whole of it is `Model/Sim` (`C73_exact`), so the unit tests that pass in `Tests/Float` speak for the transcription in `Model/Sim` and `Model/Rounded` as well. Not covered: `apply` (C82); what the numbers are (C62, C63) |
| C74 | `Model/GenericBackend`: the functions of the backend that touch the simulator or a number, again over any arithmetic; `Tests/FloatBackend` runs them with `Float` on the unit tests of backend/src/lib.rs (no theorem depends on it). `Props/GenericBackDefs` gives a ledger of a program: qubits in use, registers, samples and words to come; `Ledger.step` says what each call answers, writes and leaves, given only the numbers the simulator happens to compute (`Open`), of which nothing is assumed; `Proper` says that a program only makes calls that make sense. `C74_call` for one call, `C74_program`, `C74_shots`, `C74_module` for whole runs by induction. `C74_start`: the ledger is kept at the start of every shot. `C74_assert_nan`: finding F24. `C74_exact`: at the real numbers every run is that of `Model/Backend`, so the two models cannot diverge |
| C75 | `Props/ClassicalDefs`: a reading of the calls without numbers, `possible`, over sets of basis states; `Agree` folds it along a history and says what each listing may contain. About the simulator of C73 with any arithmetic. Proved by an over-approximation: the entries of the state vector, moved by the queued operations, with every qubit that has a queued H, Rx or Ry left free (`Poss` in `Proof/Classical`), only ever shrinks when queues are flushed and otherwise follows `possible`; one lemma for each method, then induction over histories (`run_holds`). `C75_run` for all histories, `C75_memory` and `C75_listing` (at most 2^k entries, since distinct entries stand for distinct basis states), `C75_measured`, `C75_pair` |
| C76 | `Props/ReversibleDefs`: `moved` says what a call does to one bit per qubit, `Told` what it answers; `Digits` lists the laws used, all about zeros, 1 and -1. About the simulator of C73. Proved by an invariant over histories: one entry with amplitude 1, i, -1 or -i, only exact operations queued, no Hadamard gate or rotation pending (`Sharp`), and the entry is the possible basis state of C75. `rounded_digits` and `double_digits` show that real numbers rounded to double precision have the laws. Not included: T gates and Z rotations, whose amplitudes are not exact. |
| C77 | `Props/ReversibleBackDefs`: a machine `Bits` with bits for qubits and results and the one amplitude of C79, which only dumps show; `Bits.run` is what a program writes. About the backend of C74 and the runner. Proved by running the two side by side (`Agrees`), call by call, over programs and shots. Excluded: random draws, and dumps with a location, which the code answers with a panic (`unimplemented!`). |
| C78 | The entry functions of `Model/Entry` compared with each other, over any world (parser, files). `Coherent` is what is asked of the two parsing functions of LLVM, which are not modelled: bitcode is not read beyond its end, and is the same program in a file and in memory. `C78_short` for programs below four bytes, `C78_text_as_bitcode` for finding F25. `Tests/Runner` runs the model of the runner with `Float` on the tests in runner/tests/tests.rs, teleportation.ll among them, and `Tests/Std` the models of the library on the unit tests of arrays.rs, tuples.rs, range_support.rs, bigints.rs, strings.rs and output_recording.rs (no theorem depends on them). `C78_refused`: which files are refused, and how, by cases |
| C79 | `Props/AmplitudeDefs`: `answers`, the machine with bits and one amplitude; `turned` counts quarter turns. On top of the invariant of C76: the one entry, with the queue of operations applied, has the bits and the amplitude of the machine (`Bears`, one lemma for each method). `Signs` has the laws for `C79_power`. `signed` is IEEE 754 on 0, -0, 1, -1; `C79_signed_zero` is finding F26, and `Tests/Float` has the same circuit. |
| C80 | `Props/OutcomeDefs`: on top of C75, `Vouched` says when an answer 1 has a reason, `Unexplained` that no basis state agrees with the answers, `Blank` what an empty state vector answers. A probability is a sum over entries with the bit set, hence zero if the collapse would leave none; by induction over the history. `C80_double` (finding F27) is run by the kernel: first with abstract numbers, then with each rounding computed (`roundTo_eq`); none is a tie, and `Tests/Float` has the same circuit. |
| C81 | `Props/CourseDefs`: `Leads` says per gate of the library what it may make of a basis state, `next` and `Backed` the same for measurements, resets, releases and dumps, `Course` follows a program along the ledger of C74 with the set of possible states. The invariant `Trails` (ledger kept, every state with an amplitude is possible) holds after every call: gates by C75 for the simulator calls they are made of, measurements by C80; then by induction over the program and the shots. `C81_writes`: every course is one of the writings of C74. `C81_double`: the program of F27 in double precision, down to the bytes it writes (from `C80_double`, call by call). |
| C82 | `Model/GenericApply`: `apply` over the arithmetic of C73. `applyOn_goes`: the invariant of C73 is kept by moving the operands (swap by swap) and by the scatter (keys stay distinct and below the operand block); the basis states that remain come from old ones by a counting entry (`Reaches`); `reaches_controlled` reads the extended matrix as control by rows and columns (assumes that zero counts as zero, true of `f64`). Gaps: without a release the used locations are an initial segment (`Dense`), and reading out makes them one. The bound on the number of entries is a product over the calls. `C82_exact` by the same translation as `C73_exact`; `Tests/FloatApply` runs the unit tests of matrix_testing.rs. |
| C83 | `Model/Memory`: the bytes of the process, the blocks handed out for good and those of the rest of the process; the allocator's answers are part of the history, with its promise (apart from everything in use, not null) as hypothesis. Refinement to a list of arrays of bytes (`become`, `read`) by the invariant `Holds`, by induction over the history. |
| C84 | `Model/RoundedApply`: `apply` with rounded products and sums, on a matrix with rounded entries. `Proof/RndApply`…`RndApply5`: the fold that builds the new state is followed entry by entry (`scatter_near`): each step loses one rounding error, the matrix entries and amplitudes that count as zero, and is charged in units of `eps √2` per amplitude touched (`touched`), which for a matrix of `2^t` rows sums to `2^t` passes over the state (`scatter_reach`); flushing and moving the operands cost 15 passes per qubit. The pending rotations of other qubits commute with the matrix. The extension by controls is unitary and its entries are off by at most two rounding errors (`extend_unitary`, `given`). Histories by induction with the relation `Tracks` of C62; gaps as in C19 (`Packed`). `C84_bound` is the closed form; the Bell pair made with the matrix of X under a control in double precision is the concrete case. At exact arithmetic the model is that of C19 (`C84_exact_arithmetic`). |
| C85 | `Model/LineEnds`: the recorder, the output functions, dumps, the library and the shots with the line ending as an argument. `step_lines`: each call writes whole lines that do not depend on the line ending, and the same answer and state. By induction over the program and over the shots there is one list of lines for all line endings (`C85_transcript`), in which the lines with a fixed end are the `START` lines. `C85_unix`: with LF this is the runner of C40, C49, C61. `C85_read`: `universal` (newline translation) undoes the difference if no text has a carriage return; `C85_label`, `C85_mixed` are the counterexamples. |
| C86 | `Rearranged` (`Props/RearrangeDefs`): what a compiler may do to a program, namely exchange neighbouring calls that have no qubit and no result register in common and of which at most one records something, and leave out calls at the end that record nothing. Every such call is a pair of operators, one for each value it may find; these lie in the algebra generated by the operators on the single qubits it uses (`Proof/Within`: controlled gates, exponentials, exchanges and projections are sums of products), and the algebras of disjoint sets of qubits commute. So the probabilities of pairs of values and the states they leave agree (`weight_swap`, `next_swap`), and `C86_chance` follows by induction; C57 takes it to the code (`C86_shots`, `C86_fails`, `C86_fixed`), C63 to rounded arithmetic (`C86_rounded`). `C86_interleave`, `C86_unused`: sequences on different qubits may be interleaved in any way, operations on qubits not used afterwards left out. `C86_result`: the output of a result must not be exchanged even with a measurement into another register (the meaning of result pointers 0 and 1 changes with the first use of a register). |
| C87 | `renamed σ` maps every operand of every call (`Props/RewriteDefs`). Simulation on the ideal device: the state vectors are related by the permutation of the qubits and a global phase, registers and samples are the same (`Arr.Alike`, `Alike.step` for every call without allocation); hence `C87_ideal`, and with C49/C57 `C87_renamed`: the outputs agree for every stream of samples, not only in distribution. `C87_chance`, `C87_rounded`: the probabilities, and C63 |
| C88 | `SameCircuit`: lists of gate calls whose effect on every state vector of the ideal device (`effect`) agrees up to one global phase; `Rewritten`: the congruence generated by replacing such circuits. The same simulation with the identity permutation (`alike_rewritten`) gives `C88_ideal` and `C88_rewritten`. Sources of equal circuits: `C88_gates`, `C88_controlled`, `C88_exp`, `C88_swap`, `C88_controls`, `C88_identities`. `C88_turned`: a program with a rotation about Y and an equal one without for which the code always writes 0 and 1 (F1), so the condition is needed |
| C89 | `Handled` (`Props/HandledDefs`): programs that know their qubits only by handles; `dynamic` runs them with allocation and release, `static` gives every allocation its own number and resets instead of releasing; `Scoped`: only handles that are held are used. Simulation between the two ideal devices (`Arr.Paired`): the state vectors are related by a permutation that extends the names of the handles held, all other qubits are zero (`Arr.Clean`, kept because operators on other qubits commute with the projection), so the permutation may be changed at an allocation; releasing the only qubit puts the state vector to all-zero, which is what the reset leaves up to a phase. Hence `C89_chance`, and with C57/C58 `C89_shots`, `C89_histogram` for the code; `C89_rounded` with C63. `C89_samples`: not sample for sample |
| C90 | `whenOne`: measure a qubit, read the result, apply a circuit if it is one, go on; `beforeMeasuring`: the circuit with that qubit as additional control (`controlledBy`), then measure. `Deferred`: the congruence generated by exchanging the two, together with `Rewritten`. The projection on the outcome takes the controlled circuit to the circuit or to nothing (`Arr.proj_circuit`, from commuting operators on different qubits), gates keep the norm, so probabilities, outcomes and the states after agree exactly; hence `C90_ideal` and `C90_deferred` for every seed, `C90_chance`, `C90_rounded` with C63; `C90_fixed`: the deferred program can be carried out if the other can |
| C91 | `ZeroOn Z`: the qubits of `Z` are zero; `knownZero`: what is still known after a call (resets add a qubit, targets of gates and of joint measurements are lost). `SameCircuitOn Z`: equal up to a phase on such states; `Folded Z`: the congruence generated by `SameCircuitOn` at the place reached, `Deferred`, and moving gates past the measurement of another qubit. Soundness of what is known: operators only mix basis states that differ in their targets (`Arr.Local`), `Arr.zero_step`, `Arr.zero_finding`. Then as C90: `C91_ideal`, `C91_known` for every seed, `C91_chance`, `C91_rounded`. Instances: `C91_control`, `C91_turned`, `C91_diagonal`; `C91_teleport`, by deferring both measurements and one identity of circuits on states with two qubits zero, and `C91_teleported` for the code; `C91_unknown`: without knowledge nothing may be left out |
| C92 | `Compiled Z` (`Props/CompiledDefs`): the congruence generated by `Folded` (hence `Rewritten` and `Deferred`), `Rearranged`, and five rules about values: a qubit with a value is found with that value for certain and is left alone (`Arr.Valued`). `Arr.chance_compiled` by induction, for normalised states with the qubits of `Z` zero; then `C92_chance`, `C92_compiled`, `C92_fails` for the code by C57, with renaming (C87); `C92_dynamic` with C89; `C92_rounded` with C63. `C92_branch`, `C92_resets`: consequences. `C92_samples`: these rules change the number of samples taken, so nothing more than equality in distribution can be had |
| C93 | `unturned` (`Props/WorkaroundDefs`) replaces uncontrolled Y rotations by S†, Rx, S. `C93_ideal`: `idealRun (unturned p) δ = idealRun p δ` for every program and device, from S·Rx(θ)·S† = Ry(θ) and the fact that using a qubit twice is using it once. `C93_writes` with C49/C57 (`written_ideal`), whose condition on rotations now holds for free (`C93_safe`); `C93_shots`, `C93_unchanged`, `C93_known`, `C93_compiled` (C91 and C92 for programs with Y rotations); `C93_repaired`: the program of F1; `C93_rounded` with C63, `Within.unturned` bounding the extra work |
| C94 | Two devices on which results have the value one expects (`registerStep`, `pointerStep`, `Props/RegistersDefs`): registers, or pointers that stand for what was measured. `C94_registers` for `Ordered` programs, `C94_pointers` for `Registerless` ones, by induction over the program from C49/C57, with the invariant that registers are zero as long as none has been used; `C94_primed`: the way around F5 and F30; `C94_early`, `C94_mixed`: the conditions are needed. `C94_rounded`, `C94_rounded_pointers`, `C94_rounded_primed` (`Props/RegistersRounded`): with rounded arithmetic and the tolerance, the probabilities of what is written are within `gap` of those of the two devices (`chanceOn`), from C63 and the equality of the probabilities (`Proof/RegistersChance`); writing register 0 first at most doubles the passes and adds seven (`Proof/RegistersWithin`) |
| C95 | Statements about `streams` with plain formulas on the right (`Props/Sampling`). `C95_count`: induction over the shots, splitting on whether the first is in the set (`Samp.counted_succ`), with the law of one shot from C57 and Pascal's rule; `C95_succeeds` from it; `C95_tail`: independence of all indicators from C57 and Hoeffding's inequality (Mathlib); `C95_enough` from it; `C95_coin` and an example with 1000 shots; `C95_rounded_count`, `C95_rounded` (`Props/SamplingRounded`): the same for the code with rounding, from the exact independence of C63, the binomial count for any sequence with product probabilities (`Proof/Tally`) and Hoeffding's inequality for binomial sums (`Proof/Binomial`); `C95_rounded_coin`: double precision; `C95_drawn_*` (`Props/SamplingDraws`): programs that draw, from C65 and C68. `Props/SamplingTables`: `C95_table` (several sets at once, by the union bound), `C95_all` (all sets of outputs at once, if there are finitely many outputs; from the table of all subsets, additivity of `chance` in `Proof/ChanceParts` and `C95_count` for the outputs that do not occur), `C95_apart` (telling two programs apart), `C95_rounded_table` |

## 7. Findings: where the code disagrees with the property

* **F1** An uncontrolled `ry θ` requested while a half-turn about X (cos(θ/2)=0) is pending on the qubit acts as
  `ry (-θ)`: `flush_rx` of a half-turn goes through `x`, which negates the Ry angle queued later.
  `rx(π); ry(π/2); h; measure` yields 0 with certainty instead of 1. A program can avoid it by S†, Rx, S instead of Ry (C93).
* **F2** `release(id)` with an unallocated id does not panic when exactly one qubit is allocated; it silently
  resets that qubit to |0>.
* **F3** `h`, `rx`, `ry` on a released id are accepted and act on a later allocation of the id.
* **F4** `apply` panics on valid operands if a low location is unoccupied after a release.
* **F5** `result_record_output` prints 1 for result id 1 while `read_result` gives 0 as long as no static result
  has been touched; and once a register is in use, the dynamic result pointer 1 is read as register 1.
* **F6** `qubit_release_array` decrements the alias count: the box is freed although the reference count is one,
  and the payload is never dropped.
* **F7** `ieeeremainder` rounds ties away from zero.
* **F8** `assertmeasurementprobability__ctl` is bound only for 6 parameters and `array_slice_1d` for 3; the
  implementations have 2. `message_record_output` is documented but never bound. The output functions are bound
  without looking at the number of parameters.
* **F9** `y` on a qubit with pending H drops a global factor −1 (harmless, hence "up to global phase").
* **F10** The mixed path of `mcexp` and `mcphase` with angle 0 can store amplitudes that are exactly zero; they
  are listed by `get_state` and `dump` (C15 states that absent indices are zero, not the converse).
* **F11** `drawrandomint`/`drawrandomdouble` use the thread's unseeded generator, so a seed does not fix the
  transcript of a program that draws.
* **F12** `array_record_output` and `tuple_record_output` do not take part in the check that legacy and current
  output are not mixed.
* **F13** `drawrandomdouble` with NaN bounds or overflowing `max - min` panics in `rand` (outside the model).
* **F14** A library caller that gives `run_file`/`run_bytes` a writer but leaves the recorder in its default mode
  gets the framing in the writer and the records on `stdout`.
* **F15** Rotations of one qubit whose queued angle comes within eps of zero are dropped. Repeated pairs of rotations by
  eps/2 are each dropped without touching the state, so the error grows with the number of gates (π/eps pairs lose
  a full half-turn), not with the amplitudes visited.
* **F16** Python's `main` leaves the recorder as an earlier `run(output_fn=…)` has set it. Calls that succeed are not
  affected (`C51_modes`), but if the program fails, the records of the failing shot, which a fresh process shows, are
  lost (`C51_lost_records`).
* **F17** A callback that calls `run` or `run_bytes` without `output_fn` during START or METADATA, even if that call fails,
  switches the recorder to `stdout`: the records of the outer shot go there and not to the callback (`C64_diverted`).
* **F18** While the records are handed to a callback, `OUTPUT` is borrowed: `run` and `run_bytes` panic, and `main` ends the
  process if its program records anything (`C64_busy`, `runProgIn`).
* A label that is not UTF-8 makes the call with a callback panic (`hand`).
* A call with a seed reseeds the generator even if the input is then refused (`Says.refused`).
* With a hash order that varies, `apply` with eps > 0 may keep or drop an amplitude depending on the order in which
  partial sums are added; C07 (the order does not matter) is about eps = 0.
* Operands (C16): a CNOT with an unallocated control is executed if that id is allocated before the queue is
  applied; duplicates are forgotten if the only qubit is released first; `mcrx`/`mcry` by full turns never look at
  their operands.
* After releases `ensure_sufficient_qubits` can allocate a freed low id instead of the requested one (programs
  mixing static and dynamic qubits).
* `run_entry_point` checks the number of parameters only after START and METADATA have been written.
* Record labels are written unescaped; the legacy unlabelled format cannot tell integers 0, 1 from results.
* A tuple's header is read after the alias decrement that may have freed it (`tuple_update_alias_count`).
* **F19** `Output._repr_html_` does not escape: markup in a label becomes markup (`C66_html_unescaped`).
* **F20** Labels are written as bytes. One that is not UTF-8 makes a call with `output_fn` raise `PanicException` in the middle
  of the output, while the same call without it succeeds (`C66_not_text`).
* **F21** Runs without callbacks in several threads share `stdout` without a lock held for a shot or a line: shots and lines
  get mixed up (`C69_mixed`). Runs with callbacks do not (`C69_isolated`, `C69_quiet`). A program that fails ends the process
  and all other threads with it (`C69_dragged`).
* **F22** `__quantum__rt__result_to_string` and `__quantum__rt__result_equal` look at the pointer. For a result register, as used
  by `mz` and `read_result`, that is its number: the text of register 0 is `Zero` also when a one was measured into it
  (`C71_counterexample`, `C71_register`).
* **F23** NaN counts as nearly zero (`is_nearly_zero` uses `f64::max` and `f64::min`, which ignore NaN; `C73_nearly_zero`).
  So amplitudes that have become NaN are dropped as if they were zero. After `rz` by NaN on a qubit in superposition, the next `h`
  leaves an empty state vector, without a message (`C73_nan`); every measurement then finds zero. A rotation about X or Y by NaN
  is taken for a half turn. Releasing the last qubit recovers (`C73_last`).
* **F24** An assertion about a measurement probability passes if the expected probability or the tolerance is NaN
  (`(actual_prob - prob).abs() > tol` is then false, backend/src/lib.rs:827; `C74_assert_nan`). By the comparison `min > max` in
  math.rs:121 a draw between bounds that are NaN or infinite is not reported as a failure but panics inside `rand`.
* **F25** `run_bitcode` is documented to fail unless the bytes are bitcode; text is run as well, since it only passes on to
  `run_bytes` (runner/src/lib.rs:90-97; `C78_text_as_bitcode`).
* **F26** A dump is not a function of the quantum state: Z on |1> leaves the amplitude -1-0i and S twice -1+0i, which are
  printed differently (`phase_transform`, sparsesim/src/lib.rs:732-742; `C79_signed_zero`).
* **F27** A measurement is not repeatable in double precision: after H on q0, CNOT to q1 and H on q1 the second of two
  measurements of q1 answers 0 after 1 if its sample is 1 - 2^-53, since `collapse` leaves amplitudes whose squares add up to
  1 - 2^-52. The state vector is then empty and all further measurements answer 0, without a message (`measure`,
  `joint_collapse`, sparsesim/src/lib.rs:312-333,435-455; `C80_double`, `C80_lost`, as a program `C81_double`). In exact arithmetic there is no such run (C03, C05).
* **F28** Where measurements silently go on with an empty state vector (F23, F27), `apply` panics on its assertion, whatever
  the matrix, even the identity; a matrix entry that is NaN counts as zero, so a matrix of NaN panics on every state
  (`apply`, sparsesim/src/lib.rs:1262-1287; `C82_nan`, `C82_empty`, `C82_nan_matrix`).
* **F29** On Windows a transcript has both line endings: `START` is written with LF (runner/src/lib.rs:193), every other line
  with CR LF (`LINE_ENDING`, stdlib/src/output_recording.rs:12-15; `C85_mixed`).
* **F30** The output of a result depends on calls about other results: before the first use of any register, result 1 is
  written as 1; after a measurement into register 0 it is written as 0 (`__quantum__rt__result_record_output`,
  backend/src/lib.rs:908-935; `C86_result`). A compiler that moves the output of a result across the first measurement
  changes the output, although the two calls have no qubit and no result in common. Writing zero to a register first avoids
  it (C94).

## 8. Testing the theorems

`seeded/LOG.jsonl` records deliberate edits of the model (in a scratch copy), the claim each breaks, and the
theorems that no longer prove.
