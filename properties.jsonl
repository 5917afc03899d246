{"id": "C01", "title": "Gate sequences compute the textbook unitary", "statement": "After any sequence of valid gate calls on a QuantumSim (x,y,z,h,s,sadj,t,tadj,rx,ry,rz, all multi-controlled forms, mcphase, mcexp, swap_qubit_ids), the quantum state the simulator represents equals, up to one global phase, the product of the textbook (controlled) 2x2 matrices applied to the starting state, no matter how the calls interleave with the lazy queues.", "quantifier": "for every simulator state reachable by API calls, every finite sequence of valid gate calls on allocated distinct qubits, all real angles, every hash iteration order", "why_tests_cant": "The lazy H/Rx/Ry/op queues give exponentially many interleavings of pending operations; tests sample a handful of circuits.", "anchors": ["sparsesim/src/lib.rs: x,y,z,h,s,t,rx,ry,rz,mc*,flush_queue,mcrotation,apply_mch", "sparsesim/src/exp.rs: mcexp"]}
{"id": "C02", "title": "Measurement follows the Born rule", "statement": "measure(q) returns one exactly when the next random sample is below the ideal probability of qubit q being one in the state produced by the textbook semantics, and leaves the ideal projected and renormalised state.", "quantifier": "for every reachable state with arbitrary pending queues, every allocated qubit, every sample in [0,1)", "why_tests_cant": "A probabilistic law over all states and samples; sampling tests only see frequencies for fixed circuits.", "anchors": ["sparsesim/src/lib.rs: measure, check_joint_probability, collapse, joint_collapse"]}
{"id": "C03", "title": "Repeated measurement is stable", "statement": "Measuring the same qubit twice in a row (with any other observation calls between) returns the same result both times, whatever the random samples.", "quantifier": "for every reachable state, every allocated qubit, every pair of samples", "why_tests_cant": "The second sample is random; only a proof shows that no sample value can flip the outcome.", "anchors": ["sparsesim/src/lib.rs: measure, collapse"]}
{"id": "C04", "title": "The state vector stays normalised", "statement": "After every API call history that does not panic the squared amplitudes held by the simulator sum to one.", "quantifier": "for every finite history of valid calls, all samples, all hash orders (exact arithmetic, zero tolerance)", "why_tests_cant": "Needs an invariant over all histories, including collapses that divide by computed probabilities.", "anchors": ["sparsesim/src/lib.rs: apply_mch, mcrotation, joint_collapse, release"]}
{"id": "C05", "title": "A measurement never selects an impossible outcome", "statement": "measure, joint_measure, force_collapse and release never collapse onto an outcome of probability zero, so the scaling factor is never a division by zero and the state never becomes empty.", "quantifier": "for every reachable state, every sample in [0,1)", "why_tests_cant": "Boundary samples and zero-probability outcomes cannot be enumerated.", "anchors": ["sparsesim/src/lib.rs: measure, joint_measure, force_collapse, joint_collapse"]}
{"id": "C06", "title": "Observing does not disturb", "statement": "joint_probability, qubit_is_zero, dump and get_state never change the outcome or reported probability of any later call: inserting such a call anywhere in a history leaves all other outputs the same.", "quantifier": "for every history, every insertion point, every allocated set of qubits", "why_tests_cant": "Observation calls flush queues and relocate qubits; equality of all futures is a statement about infinitely many continuations.", "anchors": ["sparsesim/src/lib.rs: joint_probability, qubit_is_zero, get_state, dump, flush_queue, swap_qubit_state"]}
{"id": "C07", "title": "Results do not depend on hash iteration order", "statement": "Every output of a history (measurement results, probabilities, identifiers) is the same for any two iteration orders of the hash maps used while updating the sparse state.", "quantifier": "for every history and every pair of iteration-order oracles", "why_tests_cant": "A test run exercises exactly one hash order.", "anchors": ["sparsesim/src/lib.rs: apply_mch, mcrotation, apply", "sparsesim/src/exp.rs: mcexp"]}
{"id": "C08", "title": "Allocation returns the lowest free identifier and a fresh |0> qubit", "statement": "allocate returns the smallest identifier not currently allocated, never one in use; the new qubit is in |0>, unentangled, and the amplitudes of all other qubits are unchanged.", "quantifier": "for every reachable allocation pattern (any interleaving of allocate and release)", "why_tests_cant": "Free-list behaviour must hold for all interleavings of allocate/release.", "anchors": ["sparsesim/src/lib.rs: allocate"]}
{"id": "C09", "title": "Releasing a qubit leaves the others in the measured-out state", "statement": "release(q) acts as a measurement of q followed by removal: the remaining qubits are in the post-measurement state; when q is in a definite classical state the others are not disturbed; releasing the only qubit returns the simulator to its initial state.", "quantifier": "for every reachable state with two or more or exactly one allocated qubits, every sample", "why_tests_cant": "Bit clearing and id/location reuse must be right for every layout.", "anchors": ["sparsesim/src/lib.rs: release"]}
{"id": "C10", "title": "release of an unknown identifier is rejected", "statement": "release panics when the given identifier is not allocated (documented) and does not alter any allocated qubit.", "quantifier": "for every reachable state and every identifier that is not allocated", "why_tests_cant": "The check is skipped on one path; needs all states.", "anchors": ["sparsesim/src/lib.rs: release"]}
{"id": "C11", "title": "Each allocated qubit has its own location", "statement": "At every moment distinct allocated identifiers denote distinct positions of the sparse index, every set bit of every stored index belongs to an allocated qubit, and stored indices are pairwise distinct.", "quantifier": "for every history of valid calls", "why_tests_cant": "A representation invariant that every later answer relies on; must hold in all reachable states.", "anchors": ["sparsesim/src/lib.rs: allocate, release, swap_qubit_ids, swap_qubit_state, get_state, apply_mch"]}
{"id": "C12", "title": "swap_qubit_ids is the SWAP gate", "statement": "swap_qubit_ids(a,b) exchanges the roles of the two qubits exactly as a SWAP gate would, including everything still pending in the queues.", "quantifier": "for every reachable state with arbitrary pending operations", "why_tests_cant": "Pending H/Rx/Ry/op entries give unboundedly many configurations.", "anchors": ["sparsesim/src/lib.rs: swap_qubit_ids"]}
{"id": "C13", "title": "joint_probability is the odd-parity probability", "statement": "joint_probability(ids) equals the total ideal probability of basis states in which an odd number of the given qubits are one.", "quantifier": "for every reachable state, every duplicate-free set of allocated identifiers", "why_tests_cant": "Must hold for all states and all masks.", "anchors": ["sparsesim/src/lib.rs: joint_probability, check_joint_probability"]}
{"id": "C14", "title": "joint_measure measures parity and projects", "statement": "joint_measure(ids) returns odd parity exactly when the sample is below the ideal odd-parity probability and leaves the projected, renormalised state; measuring the same parity again gives the same answer.", "quantifier": "for every reachable state, ids, sample", "why_tests_cant": "As for C02, over arbitrary qubit sets.", "anchors": ["sparsesim/src/lib.rs: joint_measure, joint_collapse"]}
{"id": "C15", "title": "get_state reports the state in identifier order", "statement": "get_state returns the number of allocated qubits n and a list strictly sorted by index; bit i of an index is the value of the i-th smallest allocated identifier, and each reported amplitude is the amplitude of the ideal state up to one global phase; absent indices have amplitude zero.", "quantifier": "for every reachable id/location layout and every pending queue", "why_tests_cant": "The relabelling loop permutes locations; must be right for every permutation.", "anchors": ["sparsesim/src/lib.rs: get_state, swap_qubit_state, dump"]}
{"id": "C16", "title": "Invalid gate operands are never silently executed", "statement": "If a queued (multi-)controlled gate names a duplicate or unallocated qubit, then no later observation returns a value: the simulator panics when the queue is applied.", "quantifier": "for every queue content and every observation call", "why_tests_cant": "Detection is deferred to flush time; all queue contents must be considered.", "anchors": ["sparsesim/src/lib.rs: take_ops, resolve_and_check_qubits, check_for_duplicates, enqueue_op"]}
{"id": "C17", "title": "Using a released identifier is an error", "statement": "After release(q) any gate call on q causes an error (documented) instead of affecting a qubit allocated later under the same identifier.", "quantifier": "for every gate and every history", "why_tests_cant": "h/rx/ry only touch a flag; whether the error is reported depends on the future history.", "anchors": ["sparsesim/src/lib.rs: release, h, rx, ry, allocate"]}
{"id": "C18", "title": "mcexp is the exponential of a Pauli string", "statement": "mcexp(ctls, paulis, theta, targets) multiplies the controlled subspace by cos(theta) + i sin(theta) P for the Pauli string P; the pure-Z/I and the mixed code paths agree with it, and the two special branches for vanishing coefficients can never run.", "quantifier": "for every state, every Pauli string, every angle, any number of controls", "why_tests_cant": "Infinitely many strings/angles; dead-branch claim is universal.", "anchors": ["sparsesim/src/exp.rs: mcexp"]}
{"id": "C19", "title": "apply performs the given unitary", "statement": "apply(U, targets, controls) maps the state to (controlled-U) state with targets[0] the most significant bit of the row index, for every allocated duplicate-free operand list.", "quantifier": "for every unitary matrix, operand list, reachable id/location layout", "why_tests_cant": "All layouts (including holes left by releases) must be considered.", "anchors": ["sparsesim/src/lib.rs: apply, controlled"]}
{"id": "C20", "title": "force_collapse reports the prior probability and projects", "statement": "force_collapse(val,q) returns the ideal probability of q being val before the call; when it is non-zero the state afterwards is the projected renormalised state, when zero the state is unchanged.", "quantifier": "for every reachable state, qubit, value", "why_tests_cant": "All states and both values, including zero-probability requests.", "anchors": ["sparsesim/src/lib.rs: force_collapse"]}
{"id": "C21", "title": "The operation queue is bounded", "statement": "The number of queued operations never exceeds 10000, whatever the program does.", "quantifier": "for every history of calls, valid or not, until the first panic", "why_tests_cant": "Unbounded histories.", "anchors": ["sparsesim/src/lib.rs: QUEUE_LIMIT, enqueue_op"]}
{"id": "C22", "title": "Dropping tiny amplitudes has bounded effect", "statement": "With the tolerance eps of the zero test (1e-10 in the code) the l2 distance between the represented state and the ideal state after a gate sequence is at most a constant times eps times the total number of stored amplitudes that were visited.", "quantifier": "for every eps in [0, 1/2], every gate sequence", "why_tests_cant": "A quantitative bound over all circuits.", "anchors": ["sparsesim/src/nearly_zero.rs: is_nearly_zero", "sparsesim/src/lib.rs: apply_mch, mcrotation, rx, ry"]}
{"id": "C23", "title": "IndexMap behaves as a finite map", "statement": "insert, get, get_mut, remove, contains_key, iter, drain, retain, values and is_empty of IndexMap agree with a mathematical finite map from usize, and iteration is in increasing key order with each key once.", "quantifier": "for every sequence of operations and every key", "why_tests_cant": "Holes and resizing give infinitely many shapes.", "anchors": ["sparsesim/src/index_map.rs: IndexMap"]}
{"id": "C24", "title": "Static qubit identifiers are allocated on demand", "statement": "In a program that never allocates or releases dynamically, using qubit id n makes exactly the ids 0..max usable, each id always denotes the same qubit, and first use finds it in |0>.", "quantifier": "for every order of first uses of ids", "why_tests_cant": "All orders and all id values.", "anchors": ["backend/src/lib.rs: ensure_sufficient_qubits"]}
{"id": "C25", "title": "Static results are independent registers defaulting to zero", "statement": "read_result(r) returns the value of the latest measurement stored to r, or zero if none; storing to one result never changes another.", "quantifier": "for every interleaving of writes and reads of all result ids", "why_tests_cant": "The bit vector is resized on both reads and writes; all orders must be considered.", "anchors": ["backend/src/lib.rs: __quantum__rt__read_result, __quantum__qis__mz__body, write_result"]}
{"id": "C26", "title": "Recorded results equal read results", "statement": "The value printed by result_record_output for a result equals the value read_result returns for the same result at that moment.", "quantifier": "for every program state and every result", "why_tests_cant": "Depends on whether the result store is empty: a history property.", "anchors": ["backend/src/lib.rs: __quantum__rt__result_record_output, __quantum__rt__read_result"]}
{"id": "C27", "title": "Shots are isolated", "statement": "After __quantum__rt__initialize the behaviour of any program depends only on the position in the random stream: nothing of earlier allocations, gates or results is visible.", "quantifier": "for every prior history and every following program", "why_tests_cant": "Quantifies over all pairs of past and future.", "anchors": ["backend/src/lib.rs: __quantum__rt__initialize", "runner/src/lib.rs: run_module"]}
{"id": "C28", "title": "reset leaves the qubit in |0> and mresetz also reports the outcome", "statement": "After reset(q) the probability of q being one is zero, whatever the sample; mresetz additionally stores the outcome m would have given.", "quantifier": "for every reachable state and sample", "why_tests_cant": "All entangled states and both outcomes.", "anchors": ["backend/src/lib.rs: __quantum__qis__reset__body, __quantum__qis__mresetz__body"]}
{"id": "C29", "title": "Pauli-basis measurement measures the right operator", "statement": "measure__body(paulis, qubits) returns One with the ideal probability of the -1 eigenspace of the Pauli product and leaves the state projected onto the observed eigenspace, in the original basis; identity entries are ignored.", "quantifier": "for every Pauli string, qubit list, state and sample", "why_tests_cant": "Basis changes go through the lazy queues; infinitely many states.", "anchors": ["backend/src/lib.rs: map_to_z_basis, unmap_from_z_basis, __quantum__qis__measure__body"]}
{"id": "C30", "title": "Two-qubit rotations and sx are the documented unitaries", "statement": "rxx, ryy and rzz act as exp(-i theta/2 P(x)P), and sx as the square root of X up to a global phase, for every angle and state.", "quantifier": "for every angle and every state", "why_tests_cant": "Angles are continuous.", "anchors": ["backend/src/lib.rs: __quantum__qis__rxx__body, ryy, rzz, sx"]}
{"id": "C31", "title": "Generic rotation r and its functors are consistent", "statement": "r(P,theta) is exp(-i theta/2 P); r__adj is its inverse; r__ctl applies it exactly under controls, including the relative phase for PauliI.", "quantifier": "for every Pauli, angle, control list and state", "why_tests_cant": "Continuous angles, unbounded control lists.", "anchors": ["backend/src/lib.rs: __quantum__qis__r__body, r__adj, r__ctl, r__ctladj"]}
{"id": "C32", "title": "Reference counts release exactly once", "statement": "For any client that balances its counts, an object is dropped exactly when its reference count reaches zero, never earlier and never twice, and alias counts never affect lifetime.", "quantifier": "for every sequence of count updates on any number of objects", "why_tests_cant": "All interleavings of increments/decrements of all magnitudes.", "anchors": ["stdlib/src/lib.rs: update_counts", "stdlib/src/arrays.rs", "stdlib/src/tuples.rs", "stdlib/src/callables.rs"]}
{"id": "C33", "title": "Copy on write", "statement": "array_copy/tuple_copy/callable_copy return a distinct object with equal contents if forced or aliased, otherwise the same object with one more reference; writes through a distinct copy never show in the original.", "quantifier": "for every heap state and object", "why_tests_cant": "All alias/reference configurations.", "anchors": ["stdlib/src/arrays.rs: __quantum__rt__array_copy", "stdlib/src/tuples.rs: __quantum__rt__tuple_copy", "stdlib/src/callables.rs: __quantum__rt__callable_copy"]}
{"id": "C34", "title": "Array slicing follows the range", "statement": "array_slice_1d returns exactly the elements at start, start+step, ... up to and including end (downwards for negative step), in that order, and empty when the range is empty.", "quantifier": "for every array, element size and range within bounds", "why_tests_cant": "All starts/steps/ends/element sizes.", "anchors": ["stdlib/src/range_support.rs: quantum__rt__array_slice_1d"]}
{"id": "C35", "title": "Concatenation and element access agree", "statement": "Element i of a concatenation is element i of the first array or element i-n of the second; sizes add; the operands are unchanged.", "quantifier": "for every pair of arrays of equal element size", "why_tests_cant": "All sizes.", "anchors": ["stdlib/src/arrays.rs: concatenate, get_size_1d, get_element_ptr_1d"]}
{"id": "C36", "title": "Functor application on callables", "statement": "Applying adjoint twice is the identity, controlled and adjoint commute, and invoking a callable controlled n times calls the (adjoint-)controlled implementation once with all n control lists concatenated outermost first and the innermost arguments; afterwards every reference count the caller can see is unchanged and all temporaries are freed.", "quantifier": "for every nesting depth, control list, and functor sequence", "why_tests_cant": "Unbounded nesting depth.", "anchors": ["stdlib/src/callables.rs: make_adjoint, make_controlled, invoke"]}
{"id": "C37", "title": "Releasing a qubit array frees it", "statement": "qubit_release_array releases every qubit in the array and releases the array's memory including its payload.", "quantifier": "for every array length and count state", "why_tests_cant": "Memory effects are invisible to functional tests.", "anchors": ["backend/src/lib.rs: __quantum__rt__qubit_release_array"]}
{"id": "C38", "title": "Output records are line-structured and decodable", "statement": "Each recorded output is exactly one line from which type, value and label can be recovered uniquely, for labels that contain no newline; the sequence of lines determines the sequence of records.", "quantifier": "for every sequence of records with newline-free labels", "why_tests_cant": "All strings.", "anchors": ["stdlib/src/output_recording.rs: record_output, OutputRecorder"]}
{"id": "C39", "title": "Messages cannot break the output format", "statement": "The text written for a message is a single line of printable ASCII from which the original string can be recovered.", "quantifier": "for every Unicode string", "why_tests_cant": "All strings.", "anchors": ["stdlib/src/lib.rs: __quantum__rt__message"]}
{"id": "C40", "title": "Transcript framing", "statement": "A successful run with n shots prints exactly n blocks START, metadata lines, records, END 0 in this order; with n = 0 nothing is printed; buffered and direct stdout modes produce the same bytes.", "quantifier": "for every program, shot count and metadata list", "why_tests_cant": "All shot counts and record sequences.", "anchors": ["runner/src/lib.rs: run_module", "stdlib/src/output_recording.rs: OutputRecorder"]}
{"id": "C41", "title": "Entry point selection is unambiguous", "statement": "A run starts only if exactly one function is marked as entry point (and matches the requested name when given); otherwise an error is returned and nothing is executed.", "quantifier": "for every module", "why_tests_cant": "All modules.", "anchors": ["runner/src/lib.rs: choose_entry_point, is_entry_point"]}
{"id": "C42", "title": "Only fully resolved modules run", "statement": "If bind_functions succeeds, every external function used by the module is bound to an implementation with the same number of parameters, and legacy and current output recording are never mixed.", "quantifier": "for every set of declared functions", "why_tests_cant": "All subsets of declarations and all arities.", "anchors": ["runner/src/lib.rs: bind_functions"]}
{"id": "C43", "title": "Range text is unambiguous", "statement": "range_to_string yields different text for ranges that differ in start, step or end (step 1 being left out).", "quantifier": "for every pair of ranges", "why_tests_cant": "All integers.", "anchors": ["stdlib/src/range_support.rs: quantum__rt__range_to_string"]}
{"id": "C44", "title": "IEEE remainder", "statement": "ieeeremainder(x,y) is the IEEE 754 remainder: x - y*n with n the integer nearest to x/y, ties to even.", "quantifier": "for every x and y /= 0", "why_tests_cant": "Ties are a measure-zero set tests miss.", "anchors": ["stdlib/src/math.rs: __quantum__qis__ieeeremainder__body"]}
{"id": "C45", "title": "Big integers survive the byte representation", "statement": "Reading a big integer's data bytes and creating a big integer from them yields the same value, the byte length is minimal, and division/modulus satisfy a = (a/b)*b + a%b with |a%b| < |b| and the sign of the dividend.", "quantifier": "for every integer", "why_tests_cant": "All integers.", "anchors": ["stdlib/src/bigints.rs"]}
{"id": "C46", "title": "Random draws stay in bounds", "statement": "drawrandomint/drawrandomdouble return a value between minimum and maximum inclusive, and fail exactly when minimum > maximum.", "quantifier": "for every pair of bounds and every random value", "why_tests_cant": "All bounds.", "anchors": ["stdlib/src/math.rs: drawrandomint, drawrandomdouble"]}
{"id": "C47", "title": "assertmeasurementprobability decides exactly and does not disturb", "statement": "The assertion fails exactly when the ideal probability of the stated outcome differs from the expected value by more than the tolerance, and when it passes, no later outcome changes.", "quantifier": "for every state, Pauli string, expectation and tolerance", "why_tests_cant": "All states and futures.", "anchors": ["backend/src/lib.rs: __quantum__qis__assertmeasurementprobability__body"]}
{"id": "C48", "title": "Same seed, same program, same transcript", "statement": "Two multi-shot runs with the same seed of the same (adaptive) program produce the same transcript, and the random stream continues across shots instead of restarting.", "quantifier": "for every adaptive program, seed and shot count", "why_tests_cant": "All programs.", "anchors": ["backend/src/lib.rs: set_rng_seed, __quantum__rt__initialize", "runner/src/lib.rs: run_module", "sparsesim/src/lib.rs: take_rng"]}
{"id": "C49", "title": "The transcript of a whole run is that of the ideal device", "statement": "For every adaptive program that makes sense on the ideal QIR device, what the caller of the runner sees for n shots is exactly, shot by shot, the start line, the metadata, the lines of the records the program makes on the ideal device (started empty, continuing the random stream), and the end line; if the ideal program fails, the transcript stops with its message.", "quantifier": "for every adaptive program, module, number of shots, earlier use of the backend and stream of samples in the unit interval", "why_tests_cant": "Relates all programs, including adaptive ones, to a textbook device end to end; tests compare a few fixed programs with fixed transcripts.", "anchors": ["runner/src/lib.rs: run_module, run_entry_point", "backend/src/lib.rs: all __quantum__qis__ and __quantum__rt__ functions", "stdlib/src/output_recording.rs", "sparsesim/src/lib.rs"]}
{"id": "C50", "title": "Counts of captured values", "statement": "capture_update_reference_count and capture_update_alias_count, with a memory management table as compilers generate it, change the respective count of every captured object and of the capture tuple by exactly the requested amount (as often as the object was captured), the other count and every other object not at all; objects are dropped exactly when their last reference goes. Without a table or entry nothing happens.", "quantifier": "for every reachable heap, callable, capture layout and amount", "why_tests_cant": "All capture layouts and counts.", "anchors": ["stdlib/src/callables.rs: __quantum__rt__capture_update_reference_count, __quantum__rt__capture_update_alias_count"]}
{"id": "C51", "title": "Every way in delivers to its own destination", "statement": "In any sequence of calls of the Python functions run, run_bytes and main (the command line) in one process, each call that returns says exactly its own transcript to its own destination (callback or stdout), nothing to the other, whatever mode earlier calls have left the recorder in; a call whose input is unreadable, too short, not understood, unverifiable, unlinked or without a unique entry point writes nothing and executes nothing.", "quantifier": "for every sequence of calls, input, entry point name, shot count and seed", "why_tests_cant": "Unbounded sequences of calls in one process with shared thread-local recorder.", "anchors": ["runner/src/lib.rs: run_file, run_bytes, run_input, load_file", "runner/src/cli.rs: main", "pip/src/python.rs: run, run_bytes, main", "stdlib/src/output_recording.rs: OutputRecorder"]}
{"id": "C52", "title": "Exact account of what any program prints", "statement": "For every entry point whose calls are valid whatever is measured, and for every number of shots, no call panics, and the transcript is one that the ideal quantum device can print, where the device may answer a random draw with any value between the bounds and dump its state with any global phase, and where the program it runs is the given one except that each uncontrolled Y rotation that meets a pending half-turn about X is negated. A run ends early only in a failing call, with the message as its last line.", "quantifier": "for every program (with draws, dumps, failures, branching on answers), shot count, destination, previous use of the backend, sample stream and operating system words", "why_tests_cant": "All programs, streams and draws; tests compare single transcripts of deterministic programs.", "anchors": ["backend/src/lib.rs: all __quantum__qis__* and __quantum__rt__* callables", "stdlib/src/math.rs: draw random", "runner/src/lib.rs: run_module, run_shots", "sparsesim/src/lib.rs: QuantumSim"]}
{"id": "C53", "title": "Histories with measurements at the tolerance of the code", "statement": "For every zero-test tolerance up to one half, every valid history of public calls (gates, measurements, joint measurements, collapses, releases, queries) runs without panic and gives the answers of the ideal quantum machine: measured bits exactly, probabilities and states within a distance given by an explicit recursion, as long as no sample falls within twice that distance of the probability it is compared with (a set of samples of measure at most four times the distance).  The only change to the calls is the sign of a Y rotation that meets a pending (near) half-turn about X.", "quantifier": "for every tolerance in [0, 1/2], history, sample stream and iteration order of the state map", "why_tests_cant": "Tests run one tolerance, a few circuits and a few seeds; they cannot bound the accumulated error of all histories.", "anchors": ["sparsesim/src/nearly_zero.rs", "sparsesim/src/lib.rs: measure, joint_measure, force_collapse, release, joint_collapse, check_joint_probability, maybe_flush_queue, mcrotation"]}
{"id": "C54", "title": "Arithmetic and text expressions", "statement": "Evaluating any expression over big integers and strings by calls of the runtime, with each intermediate result released after its use, gives the mathematical value (two's complement for bitwise operations, floor for right shifts, truncation for division), leaves every operand and every other object as it was, drops and deallocates every intermediate object exactly once, and panics exactly when the expression divides by zero.", "quantifier": "for every expression of any depth, every heap reached by a client that keeps to its entitlements, and all values", "why_tests_cant": "Tests check a dozen operations on small values, one at a time; they neither compose operations nor observe leaks, and cannot cover all signs and sizes.", "anchors": ["stdlib/src/bigints.rs: all functions", "stdlib/src/strings.rs: string_create, string_concatenate, string_equal, string_get_data, string_get_length, convert", "stdlib/src/lib.rs: update_counts"]}
{"id": "C55", "title": "Text of values", "statement": "The text made from an integer, big integer, double, boolean, Pauli matrix or range is its usual notation (decimal without superfluous zeros, a decimal point in every finite double) and determines both the type and the value, except that integers and big integers share their notation; the tests for NaN and the infinities agree with it.", "quantifier": "for all values of all these types", "why_tests_cant": "Injectivity relates all pairs of values of unbounded types.", "anchors": ["stdlib/src/strings.rs: int_to_string, double_to_string, bool_to_string, pauli_to_string, bigint_to_string", "stdlib/src/range_support.rs: range_to_string", "stdlib/src/math.rs: nan, isnan, infinity, isinf, isnegativeinfinity"]}
{"id": "C56", "title": "Elementary functions", "statement": "Each mathematical function of the runtime is the one its name says, pinned down by the equation it solves and the interval of its result; arctan2 takes the ordinate first.", "quantifier": "for all real arguments", "why_tests_cant": "Tests sample a few points; a swapped argument or wrong branch shows only on others.", "anchors": ["stdlib/src/math.rs: sin, cos, tan, arctan2, sinh, cosh, tanh, arcsin, arccos, arctan, sqrt, log"]}
{"id": "C57", "title": "Distribution of the shots", "statement": "With independent uniform samples the outputs of the shots of a run are independent and identically distributed, whatever the backend was used for before; the probability that a shot writes something in a given set, or fails having written something in a given set, is the one that follows from the Born rule for the measurements of the program, and these probabilities add up to one.", "quantifier": "for all programs that make sense on the ideal device without draws and dumps (where a rotation about Y takes the wrong turn F1, the program is the one carried out, which is shown not to depend on the samples), all numbers of shots, all sets of outputs, all earlier uses, all hash orders (zero tolerance)", "why_tests_cant": "A statement about probabilities cannot be observed; tests see single samples of a generator with a fixed seed.", "anchors": ["sparsesim/src/lib.rs: measure, joint_measure, release", "backend/src/lib.rs: __quantum__rt__initialize and the measuring calls", "runner/src/lib.rs: run_module"]}
{"id": "C58", "title": "Relative frequencies", "statement": "If the program fails with probability zero, then almost surely every number of shots succeeds, and as the number of shots grows the relative frequency of every output converges to its Born probability.", "quantifier": "for all such programs, almost all streams of independent uniform samples, all sets of outputs", "why_tests_cant": "A limit over infinitely many shots.", "anchors": ["runner/src/lib.rs: run_module", "backend/src/lib.rs: __quantum__rt__initialize", "sparsesim/src/lib.rs: measure, joint_measure"]}
{"id": "C59", "title": "Evenness of random integers", "statement": "Every value between the bounds of a drawn integer is drawn for the number of pairs of generator words divided by the size of the range, rounded up or down; with uniform words its probability differs from the uniform one by less than 2^-128, and all values are equally likely if and only if the size of the range is a power of two.", "quantifier": "for all pairs of signed 64 bit bounds, all values between them", "why_tests_cant": "A bias of one part in 2^128 cannot be seen by sampling, and the pairs of words cannot be enumerated.", "anchors": ["stdlib/src/math.rs: __quantum__qis__drawrandomint__body", "rand 0.10: uniform_int sample_single_inclusive (Canon's method)"]}
{"id": "C60", "title": "The state stays sparse", "statement": "The simulator never stores (or reports) more amplitudes than 2 to the number of superposing requests made so far: Hadamard gates, rotations about X and Y, exponentials of strings with X or Y (one each, controlled or not) and matrices (one per target). Classical computations keep a single amplitude, whatever the number of qubits; there are never more than 2^n amplitudes for n allocated qubits; both bounds are attained for every n.", "quantifier": "for all histories of public calls including apply (valid or not), all tolerances (the bound by qubits: valid histories at zero tolerance), all hash orders and samples", "why_tests_cant": "Tests look at small circuits; the bound must hold for every interleaving of the lazy queues with every other call.", "anchors": ["sparsesim/src/lib.rs: flush_queue, apply_mch, mcrotation, apply, get_state", "sparsesim/src/exp.rs: mcexp"]}
{"id": "C61", "title": "A transcript can be read back", "statement": "What a run adds to the standard output determines the run: the number of complete shots, for each the recorded events in order with their types, values and labels, the attributes of the entry point, and whether the run was aborted and what the aborted shot had recorded; two runs write the same bytes exactly if they agree in all this (the legacy format leaves open only whether 0 or 1 was an integer or a result). Labels and attributes must contain no line feed and names of attributes no tab; otherwise one shot can pass for two.", "quantifier": "for all pairs of runs of all modules and programs without dumps, all numbers of shots, backend states, samples and formats, successful or aborted", "why_tests_cant": "Tests compare expected transcripts; that no two different runs share one is a statement about all pairs of runs of any length.", "anchors": ["runner/src/lib.rs: run_module, run_entry_point", "stdlib/src/output_recording.rs: record_output, record_output_str"]}
{"id": "C62", "title": "Floating-point rounding does not change what is observed", "statement": "With every arithmetic operation on amplitudes, angles and probabilities rounded, and with approximate sines and cosines, the simulator still answers as the ideal machine does: in every valid history in which no observation is undecided within the explicitly accumulated error, nothing panics, measured bits are exactly the ideal machine's, reported states are within the error and probabilities within twice it. For gates, allocations and queries on n qubits the error is at most 20 eps sqrt(2^n) times the work plus 10 2^n rounding errors. Double precision at the tolerance of the code meets the conditions on the arithmetic.", "quantifier": "for all arithmetics with relative and absolute rounding errors at most a thousandth of the tolerance, all tolerances up to a quarter, all valid histories of public calls whose uncontrolled X and Y rotation angles are not astronomically large, all numbers of qubits, samples and hash orders", "why_tests_cant": "A test compares a few circuits on one machine's arithmetic; the bound holds for every rounding behaviour and every length of history.", "anchors": ["sparsesim/src/lib.rs: flush_queue, apply_mch, mcrotation, check_joint_probability, collapse, normalize_and_get_probability, enqueue, rx, ry", "sparsesim/src/exp.rs: mcexp", "sparsesim/src/nearly_zero.rs"]}
{"id": "C63", "title": "Rounding and the tolerance move the distribution of the output by at most an explicit bound", "statement": "Run a program on the backend with every arithmetic operation rounded, amplitudes below the tolerance dropped, and independent uniform samples. For every set of outputs, the probability that a shot writes an output of the set (and ends well, or fails) differs from the probability on the ideal device by at most 24·(2·eps·√2·√(2^N))·W + 1800·2^N·(u+η)·M, for programs that use at most N qubits at a time, take at most W passes over the state vector and measure at most M times. The shots of a session stay exactly independent and identically distributed, whatever the backend was used for before.", "quantifier": "for all programs (adaptive, decision trees over the answers) whose calls make sense whatever is measured and that never call a Y rotation on a pending half turn about X, all arithmetics with rounding errors at most a thousandth of the tolerance, all tolerances up to a quarter, all sets of outputs, all numbers of shots, all hash orders", "why_tests_cant": "Frequencies of finitely many shots cannot bound a probability to within a millionth, and no assumption on margins of the samples is made here.", "anchors": ["sparsesim/src/lib.rs: joint_measure, check_joint_probability, collapse, normalize_and_get_probability, flush_queue", "backend/src/lib.rs: the extern \"C\" functions", "runner/src/lib.rs: run_module"]}
{"id": "C64", "title": "Python callbacks that raise or call the module again do no harm to later calls", "statement": "With output_fn, a call hands the callback exactly the texts of its output, none of them empty, in order (the records of a shot as one text), up to the first text for which the callback raises or which is not UTF-8; then the call raises too. In every case nothing is written to stdout, no records stay pending and the module can be used again: after any Python code, with calls nested in callbacks to any depth and exceptions raised and caught anywhere, the next call says exactly what it has to say. If every call has a callback, nothing is ever written to stdout. Answering records with a run always raises.", "quantifier": "for all worlds (programs, files, backends), all calls of the Python module, all callbacks as functions on the memory of the Python code, all Python code built from computation, exceptions and nested calls, all numbers of shots", "why_tests_cant": "Tests use callbacks that only collect text; a callback that raises at the n-th text or calls the module again leaves the process in states that no test visits.", "anchors": ["pip/src/python.rs: OptionalCallbackReceiver::write, run, run_bytes, main", "runner/src/lib.rs: run_module", "stdlib/src/output_recording.rs: drain, use_std_out"]}
{"id": "C65", "title": "Shots of programs that draw random numbers are independent and follow the ideal distribution", "statement": "With independent uniform samples for measurements and independent uniform 64-bit words for draws, the outputs of the shots of a session are independent and identically distributed; each is in a given set of byte strings with the probability computed on the ideal device, where a measurement follows the Born rule and an integer is drawn with the distribution of the two-word method. The session fails in a given shot with the corresponding probability. If failures have probability zero, relative frequencies of all outputs converge to the probabilities almost surely. No event of a program that draws at most m integers has a probability that differs by more than m/2^64 from the one it would have with exactly even draws. For programs without draws these are the probabilities of C57.", "quantifier": "for all programs (adaptive, decision trees over the answers) that measure, draw integers and reals and record, all sets of outputs, all numbers of shots, all earlier uses of the backend, all hash orders; tolerance zero", "why_tests_cant": "Draws and measurements come from two separate random sources that programs may interleave arbitrarily; no finite number of runs shows independence of shots or a bias below 2^-64.", "anchors": ["stdlib/src/math.rs: __quantum__qis__drawrandomint__body, __quantum__qis__drawrandomdouble__body", "sparsesim/src/lib.rs: joint_measure", "backend/src/lib.rs: the extern \"C\" functions", "runner/src/lib.rs: run_module"]}
{"id": "C66", "title": "An OutputHandler ends up with exactly the text that the console would show", "statement": "A call of run or run_bytes with output_fn=handler.handle appends exactly the text of what the call has to say to handler.get_output(), changes no other handler, writes nothing to stdout and leaves the backend as the same call without output_fn would, which writes just that text to stdout. In a sequence of calls with several handlers and caught exceptions every handler ends up with the outputs of its calls in order. The hypothesis, that everything is text, holds whenever the labels of the program are UTF-8. The HTML form of an output without '<' is one paragraph without other tags. False without these hypotheses: a label that is not UTF-8 makes a call with a handler raise that succeeds on the console, and markup in labels is not escaped.", "quantifier": "for all worlds (programs, files, backends), all sequences of calls with handlers, all states of the process in which no call is under way, all numbers of shots; for the library: all programs with UTF-8 labels, all backend states", "why_tests_cant": "Tests compare three fixed outputs with ASCII labels and one handler each.", "anchors": ["pip/src/python.rs: Output, OptionalCallbackReceiver::write, run, run_bytes", "pip/qirrunner/__init__.py: OutputHandler", "stdlib/src/output_recording.rs: record_output"]}
{"id": "C67", "title": "The iterators of IndexMap hand out each entry once, from either end", "statement": "After any calls on an IndexMap, requests next and next_back to an iterator, in any order and number, hand out the entries as if taken from both ends of the list of entries in increasing order of keys: the k-th request gets an entry exactly if k is less than their number, no entry is handed out twice, and afterwards there is nothing. Writes through the references of iter_mut and values_mut change exactly the entries handed out. A drain that is dropped early leaves the map empty. Indexing panics exactly for absent keys, and a write through it changes that entry only.", "quantifier": "for all sequences of mutating calls, all interleavings of requests from both ends, all numbers of requests, all written functions", "why_tests_cant": "There are no tests of index_map.rs; interleavings of next and next_back over maps with holes are unbounded.", "anchors": ["sparsesim/src/index_map.rs: Iter, IterMut, IntoIter, Drain, Values, ValuesMut, Index, IndexMut"]}
{"id": "C68", "title": "Rounding and the tolerance move the distribution of a program that draws random numbers by at most the bound of C63", "statement": "For programs that measure and also draw integers and reals whose values decide what is done next or are angles of rotations: with rounded arithmetic and the tolerance for amplitudes, the probability that a shot writes something in a given set, and ends well or not, differs from that on the ideal device by at most gap(N, W, M), for every set; by at most m / 2^64 more from that with m integers drawn evenly. The shots of a session are independent exactly and identically distributed, and if the program never fails the relative frequencies converge to a number within gap of the ideal probability.", "quantifier": "for all arithmetics whose errors are at most a thousandth of the tolerance, all programs that make sense whatever is measured and drawn, all sets of outputs, all numbers of shots, all states of the backend before", "why_tests_cant": "a statement about the distribution over all samples and words, of all programs", "anchors": ["sparsesim/src/lib.rs: joint_measure, check_joint_probability, collapse, normalize_and_get_probability, flush_queue", "backend/src/lib.rs: the extern \"C\" functions", "runner/src/lib.rs: run_module", "stdlib/src/math.rs: __quantum__qis__drawrandomint__body, __quantum__qis__drawrandomdouble__body", "sparsesim/src/lib.rs: joint_measure"]}
{"id": "C69", "title": "Calls in several threads do not disturb each other", "statement": "However the steps of calls made in several threads are interleaved, a thread gets the answers, leaves the backend, the recorder and its callbacks' texts exactly as in a process of its own. What appears on stdout is at every moment a mixture of first parts of what the threads would write alone, complete for those that are through, and nothing if all calls have callbacks; every such mixture is possible. A thread is through after a number of its own steps that does not depend on the others, unless the process ends, which only a thread that would end its own process can cause; even then callbacks have been given a first part of what is due to them.", "quantifier": "for all numbers of threads, all sequences of calls in each, all states of the thread-local data, all schedules, at every moment", "why_tests_cant": "schedules are not under the control of a test, and there are infinitely many", "anchors": ["stdlib/src/output_recording.rs: OUTPUT", "backend/src/lib.rs: SIM_STATE, set_rng_seed, __quantum__rt__initialize", "runner/src/lib.rs: run_file, run_bytes, run_module", "pip/src/python.rs: run, run_bytes, main"]}
{"id": "C70", "title": "The counts a user of the Python package sees have the probabilities of the ideal device", "statement": "A user passes the handle method of a new OutputHandler to run, without a seed, and reads the complete shots in get_output(). If the program does not fail on the ideal device, then for almost all random samples, for every number n of shots, the call returns, nothing is written to stdout and exactly n shots can be read, each with the lines of its records; and as n grows the fraction of the shots that read in any given way converges to the probability of the ideal device; with rounded arithmetic, to a number within a computable distance of it.", "quantifier": "for all programs (within the stated limits), modules, numbers of shots, ways to read, earlier uses of the backend, orders of iteration, almost all streams of samples and words", "why_tests_cant": "a statement about limits and about almost all random streams, through all layers of the program", "anchors": ["pip/src/python.rs: run", "pip/qirrunner/__init__.py: OutputHandler", "runner/src/lib.rs: run_file, run_module", "backend/src/lib.rs: __quantum__rt__initialize, __quantum__qis__mz__body", "stdlib/src/output_recording.rs"]}
{"id": "C71", "title": "Results and qubits as text", "statement": "__quantum__rt__result_to_string says One or Zero according to what was measured, and __quantum__rt__result_equal compares measured values; __quantum__rt__qubit_to_string is the decimal notation of the qubit's number, so that different qubits have different texts.", "quantifier": "for all reachable states, state vectors, qubits, Pauli products, samples and qubit numbers", "why_tests_cant": "quantifies over all states and samples; tests look at the two constants", "anchors": ["backend/src/result_bool.rs: __quantum__rt__result_to_string, __quantum__rt__result_equal", "backend/src/lib.rs: __quantum__rt__qubit_to_string, __quantum__qis__m__body, __quantum__qis__measure__body"]}
{"id": "C72", "title": "capture_quantum_state hands out the ideal state and changes nothing", "statement": "After any program, capture_quantum_state returns the number of qubits in use and the state vector of the ideal device up to a global phase, in increasing order of the index, bit i standing for the i-th smallest qubit; the answers and records of everything that follows are the same as without the snapshot.", "quantifier": "for all lists of valid calls before and after, samples, orders of iteration", "why_tests_cant": "quantifies over all programs before and after the snapshot", "anchors": ["backend/src/lib.rs: capture_quantum_state", "sparsesim/src/lib.rs: get_state"]}
{"id": "C73", "title": "The simulator's book keeping survives any arithmetic", "statement": "Whatever the operations on floating-point numbers return, including NaN and infinities: a history of calls that names qubits in use, each once per call, never panics; allocate returns the smallest free identifier; a measurement compares one sample with some number; exactly the documented number of samples is drawn; get_state and dump list distinct indices in increasing order, below 2^n for n qubits in use; queues stay bounded and name only qubits in use; releasing the last qubit restores the initial state.", "quantifier": "for all types of numbers with arbitrary operations, orders of iteration of hash maps, sample streams, and valid histories of simulator calls of any length", "why_tests_cant": "quantifies over all arithmetics, hence all combinations of rounding, NaN and infinities, and all histories", "anchors": ["sparsesim/src/lib.rs", "sparsesim/src/exp.rs", "sparsesim/src/nearly_zero.rs"]}
{"id": "C74", "title": "Programs run and print well-formed output under any arithmetic", "statement": "Whatever the operations on floating-point numbers return: a module whose entry point uses qubits it may use, with distinct operands, never panics. Each shot starts with no qubits and no results. The output is, shot by shot, exactly the lines determined by the calls, the result registers, the samples compared with computed numbers, and the entries of dumps, which are in increasing order; a failure (a failed assertion, arrays of different length, an empty range to draw from, an explicit failure) ends the run with its message as last line. Allocation returns the smallest free identifier, gates bring qubits into use on demand, the registers hold what was last stored.", "quantifier": "for all types of numbers with arbitrary operations and library functions, programs, numbers of shots, backends, sample streams and random words", "why_tests_cant": "quantifies over all arithmetics, all programs (which may depend on the answers they get) and all numbers of shots", "anchors": ["backend/src/lib.rs", "backend/src/exp.rs", "backend/src/result_bool.rs", "runner/src/lib.rs", "stdlib/src/math.rs"]}
{"id": "C75", "title": "Only possible basis states are listed, under any arithmetic", "statement": "Read the calls without amplitudes: a Hadamard gate, a rotation about X or Y and an exponential may keep or change bits, every other gate maps a basis state to one definite basis state, a measurement keeps the basis states that agree with its outcome, a released qubit becomes zero. Then every state listing and every dump of the simulator contains only basis states possible under this reading, each once and in ascending order, whatever the operations on floating-point numbers return. In particular the state vector has at most 2^k entries after k Hadamard gates, rotations and exponentials (one entry in a classical circuit), after a measurement only basis states with the measured bit are listed, and an entangled pair lists nothing but 00 and 11.", "quantifier": "for all types of numbers with arbitrary operations, all sample streams and all histories of calls with operands in use", "why_tests_cant": "quantifies over all arithmetics (so all roundings, infinities and NaNs) and histories of any length, including all interleavings of the lazy gate queues", "anchors": ["sparsesim/src/lib.rs", "sparsesim/src/exp.rs", "sparsesim/src/nearly_zero.rs"]}
{"id": "C76", "title": "Classical circuits are simulated exactly", "statement": "In a circuit of X, Y, Z, S and S-adjoint gates, their controlled versions (CNOT, Toffoli and so on), exchanges of qubits, allocations, releases and measurements, every answer is that of the circuit on bits: a measurement returns the bit of its qubit, a joint measurement the parity, a probability is exactly 0 or 1, qubit_is_zero is right, and a listing or dump of the state has one entry, at the index that spells the bits, with amplitude exactly 1, i, -1 or -i. No answer but that phase can depend on the seed. Rounding, the tolerances of the simulator and the renormalizations after measurements lose nothing, however long the circuit.", "quantifier": "for all arithmetics that satisfy the laws of IEEE 754 numbers on zeros and plus or minus one (proved for the real numbers rounded to double precision), all sample streams in [0, 1) and all histories of such calls with operands in use", "why_tests_cant": "quantifies over all circuits of any length, all numbers of qubits and all seeds, and over every arithmetic with these laws", "anchors": ["sparsesim/src/lib.rs", "sparsesim/src/nearly_zero.rs"]}
{"id": "C77", "title": "Classical programs print the same in every shot and for every seed", "statement": "Let a QIR program use only the gates of classical circuits, exchanges, resets, measurements of bits and of parities, assertions about them, allocation and release, results, recorded output and dumps of the state, with any control flow that depends on the answers. Then each shot writes exactly the bytes that a machine with one bit per qubit and one amplitude writes for the program, so all shots of all runs write the same block whatever the seed; and if that machine ends with a message, the run stops in its first shot with the message as the last line. Only calls on the course the program really takes need to make sense.", "quantifier": "for all arithmetics as in C79, all such programs (any control flow), all numbers of shots, all states of the backend before the run and all sample streams in [0, 1)", "why_tests_cant": "quantifies over all programs, all seeds and all numbers of shots", "anchors": ["backend/src/lib.rs", "sparsesim/src/lib.rs", "runner/src/lib.rs"]}
{"id": "C78", "title": "It does not matter how a program gets into the runner", "statement": "A program of at least four bytes, text or bitcode, gives the same end, the same state of the backend and the same output whether it is read from a file with the extension for its kind, from the standard input, or is passed as bytes; so do the command line with a file, with '-' and with the standard input alone, and the two functions of the Python module. Shorter programs are refused when they come from memory or the standard input, the empty one before the seed is applied. A file is refused for its extension exactly if this is neither ll nor bc, as unreadable exactly if it has one of them and cannot be read, and as not understood exactly if the parser for its kind does not accept it; the seed is applied and nothing is written. Text passed to run_bitcode runs, although its documentation says that bytes that are not bitcode are an error.", "quantifier": "for all programs (as bytes), all entry point names, shots and seeds, all states of the backend and of the output, all parsers that do not look beyond the end of bitcode and treat bitcode in files and in memory alike", "why_tests_cant": "one test compares two of the routes for one program without shots or seed", "anchors": ["runner/src/lib.rs", "runner/src/cli.rs", "pip/src/python.rs"]}
{"id": "C79", "title": "The amplitude of a classical circuit is the power of i that its gates ask for, for every seed", "statement": "On a classical circuit as in C76 the whole sequence of answers, the amplitude in listings and dumps included, is a function of the circuit: that of a machine with one bit per qubit and one amplitude, which only gates change and each by at most one multiplication, however the gates are queued, flushed, exchanged and measured in between. The amplitude is exactly i to the number of quarter turns that the gates ask for, up to the sign of the part that is zero. That sign is visible: Z on |1> leaves -1-0i, S twice leaves -1+0i.", "quantifier": "for all arithmetics with the laws of C76 in which multiplication by 1 is exact on zeros and ones (proved for double precision and for the numbers 0, -0, 1, -1 of IEEE 754), all sample streams in [0, 1) and all histories of classical calls with operands in use", "why_tests_cant": "quantifies over all circuits and seeds; the order in which queued operations reach the amplitude must not matter for any of them", "anchors": ["sparsesim/src/lib.rs"]}
{"id": "C80", "title": "A measurement answers one only if that is possible; an impossible zero happens, and empties the state", "statement": "Whatever the arithmetic does, a measurement of a qubit or a parity answers 1 only if some basis state that is possible after the answers so far (in the reading of C75) agrees. So a qubit that must be 0 is measured as 0, and a qubit measured as 0 and left alone is measured as 0 again. The converse fails: in double precision a qubit just measured as 1 may be measured as 0 by the next call (a circuit of three gates and the sample 1 - 2^-53). Whenever the answers so far agree with no basis state, the state vector is empty, every further measurement answers 0, every probability is 0 and every listing is empty, until the last qubit is released.", "quantifier": "for all arithmetics (rounded, with infinities, NaN, any iteration order), all sample streams without negative samples and all histories of valid calls; the counterexample for all streams with first sample below 1/2 and second at least 1 - 2^-52", "why_tests_cant": "quantifies over all circuits, samples and roundings; the counterexample has probability 2^-52 in a run", "anchors": ["sparsesim/src/lib.rs"]}
{"id": "C81", "title": "What a program records agrees with a possible course of the computation, whatever the numbers do", "statement": "Carry along, through a run of a program, the set of basis states that are possible (a gate maps each to one or a few, a measurement keeps those that agree with its outcome, a reset clears a bit). Whatever the arithmetic, every allowed call leaves the backend within that set; an outcome is 1, or a reported probability not zero, only if some possible state agrees; a dump lists possible states only. Every shot of a module writes what one such course says. So a qubit that was reset is measured as 0, one measured as 0 is measured as 0 again, and a Bell program records 00, 11 or 10 but never 01.", "quantifier": "for all arithmetics and library functions, all modules and programs of allowed calls, all numbers of shots, all start states of the backend and all sample streams without negative samples", "why_tests_cant": "quantifies over all programs, outcomes and roundings; a test sees one run in one arithmetic", "anchors": ["backend/src/lib.rs", "sparsesim/src/lib.rs", "runner/src/lib.rs"]}
{"id": "C82", "title": "Applying a matrix fails in two ways only and keeps the state in order, whatever the numbers do", "statement": "In any history of valid calls, matrices under controls among them, and whatever the arithmetic: the history runs to its end with the answers due and a sound simulator, or it is ended by a matrix, with an index out of bounds exactly if a location below the number of its operands belongs to no qubit, and with the assertion that some entry is left otherwise. The first cannot happen if no qubit was released or right after the state was read out. A wrong size, a repeated operand or a qubit not in use is refused. Where zero counts as zero, the listed basis states are those that the counting entries of the matrices can produce, there are never more of them than the product of the numbers of entries in the fullest columns, and a matrix that leads nowhere panics; so does every matrix once the state vector is empty (as after a rotation by NaN), and every matrix of NaN. At the real numbers this is the code of C19.", "quantifier": "for all arithmetics (rounded, with infinities, NaN, any iteration order), all sample streams, all histories of valid calls and all matrices, unitary or not", "why_tests_cant": "quantifies over all histories, matrices and arithmetics; the unit tests apply a few unitary matrices to fresh qubits", "anchors": ["sparsesim/src/lib.rs"]}
{"id": "C83", "title": "Memory that a program asks for is zero, its own and never taken back", "statement": "After any history in which a program asks for memory with __quantum__rt__memory_allocate, writes and reads bytes of the blocks it was given, and the rest of the process takes, writes and frees blocks of its own, a read gives the byte last written there by the program, or zero if there was none. Blocks never overlap and are never null. The process ends early only for a size that does not fit into usize, one above isize::MAX, or when the allocator has no space; with the first of these.", "quantifier": "for all histories, sizes, pointer widths, initial contents of the memory and choices of an allocator that hands out memory not in use", "why_tests_cant": "needs all histories and all choices of the allocator, in particular memory reused after others have freed it", "anchors": ["stdlib/src/lib.rs"]}
{"id": "C84", "title": "Applying a matrix in rounded arithmetic is accurate", "statement": "In every valid history of simulator calls including apply with unitary matrices under controls, whose entries are rounded to the arithmetic before the call, if no apply meets a gap in the state index, no observation is undecided within the error accumulated so far and this error stays below one half, then nothing panics and every answer is that of the ideal machine within that error, measured bits exactly. A matrix on t qubits, controls included, adds at most 15 eps sqrt(2^N) (2^t + 3t) to the error of N qubits. Without a release there are no gaps.", "quantifier": "for all histories, unitary matrices of any size, controls, random samples, numbers of qubits, iteration orders, and arithmetics whose rounding errors are at most a thousandth of the tolerance (double precision at 1e-10 is one)", "why_tests_cant": "needs all matrices and all histories, and a bound on accumulated rounding, dropped amplitudes and skipped matrix entries", "anchors": ["sparsesim/src/lib.rs:1199-1289", "sparsesim/src/nearly_zero.rs"]}
{"id": "C85", "title": "The line ending of the platform changes nothing but the line ends", "statement": "For every line ending (CR LF on Windows, LF elsewhere) the same run makes the same calls, ends in the same way and writes the same lines; all of them end in the line ending of the platform except for the lines START, one for each shot begun, which end in LF everywhere. So on Windows no transcript of a run that begins a shot has the platform's line ending throughout. If labels, attributes and the texts of amplitudes contain no carriage return, a reader that takes either line ending reads the same text on both platforms; with a label that ends in a carriage return it does not.", "quantifier": "for all line endings, modules, programs, numbers of shots, states of the backend, seeds and either way of writing (to standard output or to a buffer)", "why_tests_cant": "the tests run on one platform and compare with the line ending of that platform; they cover a few programs", "anchors": ["stdlib/src/output_recording.rs:12-15", "runner/src/lib.rs:191-227", "sparsesim/src/lib.rs:247-274"]}
{"id": "C86", "title": "Calls on different qubits may be reordered and useless ones left out", "statement": "If one program arises from another by exchanging neighbouring calls (gates, rotations, exponentials, resets, measurements of Pauli products, reads and writes of results, output) that have no qubit and no result register in common and of which at most one writes output, or by leaving out calls that write no output and whose qubits and registers are not used afterwards, then both programs write every sequence of outputs with the same probability and fail in the same ways with the same probability, though not with the same random samples. In rounded arithmetic the probabilities differ by at most the bounds of C63 for the two programs. The output of a result, however, must not be exchanged with the first measurement into any register.", "quantifier": "for all programs (adaptive, decision trees over the answers) that make sense, all rearrangements of any length, all sets of outputs, numbers of shots and earlier uses of the backend", "why_tests_cant": "a statement about probabilities of all programs and all their rearrangements; two runs with the same seed give different outputs although the distributions are the same", "anchors": ["backend/src/lib.rs:164-760", "backend/src/exp.rs:37-165", "backend/src/lib.rs:875-925"]}
{"id": "C87", "title": "The numbers of the qubits do not matter", "statement": "If the qubits of a program that names them by number are renumbered by any permutation, the program writes the same output, shot for shot and for every seed, and fails in the same way; the number of qubits in use may differ. In rounded arithmetic the distributions of the outputs differ by at most the bounds of C63 for the two programs.", "quantifier": "for all programs (adaptive, decision trees over the answers) with fixed, distinct qubits and no uncontrolled rotation about Y, all permutations of the qubit numbers, numbers of shots, samples in the unit interval and earlier uses of the backend", "why_tests_cant": "the tests use a handful of qubit numbers, mostly starting at zero; the claim covers every permutation and every program", "anchors": ["backend/src/lib.rs:72-160", "backend/src/lib.rs:164-760", "sparsesim/src/lib.rs:151-515"]}
{"id": "C88", "title": "Circuits with the same operator may replace each other", "statement": "If circuits (sequences of gate calls) inside a program are replaced by others whose operators agree up to a global phase, anywhere and any number of times, the program writes the same output, shot for shot and for every seed. In particular products of gates on one qubit with the same matrix up to a phase, with controls exactly the same matrix, exponentials of the same Pauli product that are merged, a swap written as three controlled X gates, and controls in another order. With uncontrolled rotations about Y it is false: two programs that are equal in this sense always write 0 and always write 1. In rounded arithmetic the distributions differ by at most the bounds of C63.", "quantifier": "for all programs (adaptive) with fixed, distinct qubits and no uncontrolled rotation about Y, all replacements of circuits, numbers of shots, samples in the unit interval and earlier uses of the backend", "why_tests_cant": "the tests check a few identities on a few states; the claim covers all circuits, contexts and measurement records", "anchors": ["backend/src/lib.rs:164-500", "backend/src/exp.rs:37-165", "sparsesim/src/lib.rs:464-1190"]}
{"id": "C89", "title": "Dynamic allocation does not change what a program computes", "statement": "A program that allocates and releases qubits at run time, and gets the numbers of released qubits again, writes every sequence of outputs with the same probability as the program in which every allocation stands for a qubit of its own, never used by anybody else, and release is replaced by reset. In particular a released qubit leaves no trace in the qubit that gets its number next, also if it was entangled with others when it was released. The relative frequencies of all outputs converge to the same limits. It is not true for each seed: releasing the only qubit takes no sample. In rounded arithmetic the distributions differ by at most the bounds of C63.", "quantifier": "for all programs (adaptive, with any pattern of allocation and release) that use only handles they hold, with distinct operands and no uncontrolled rotation about Y, all numbers of shots and earlier uses of the backend", "why_tests_cant": "the tests allocate and release in a few fixed patterns; the claim covers all programs and compares distributions", "anchors": ["backend/src/lib.rs:932-1010", "sparsesim/src/lib.rs:148-210"]}
{"id": "C90", "title": "Measurements may be deferred", "statement": "A program that measures a qubit into a register, reads the result and applies a circuit if it is one writes the same output, shot for shot and for every seed, as the program that applies the circuit controlled by that qubit first and measures it afterwards; this may be done in either direction, anywhere in the program and any number of times, together with the replacement of equal circuits (C88). In rounded arithmetic the distributions differ by at most the bounds of C63.", "quantifier": "for all programs (adaptive) with fixed, distinct qubits and no uncontrolled rotation about Y, all circuits of gates that exist with controls and do not touch the measured qubit, numbers of shots, samples in the unit interval and earlier uses of the backend", "why_tests_cant": "the tests never compare two programs; the claim covers all circuits and contexts and every measurement record", "anchors": ["backend/src/lib.rs:164-500", "backend/src/exp.rs:37-165", "sparsesim/src/lib.rs:312-460", "sparsesim/src/lib.rs:464-1190"]}
{"id": "C91", "title": "Circuits may be simplified by what is known about the qubits, and teleportation works", "statement": "A qubit is zero before its first use and after a reset, and stays so while it is only a control or measured by itself. Circuits that agree up to a phase on all states in which the qubits known to be zero are zero may replace each other, and gates may be moved past the measurement of another qubit: the output stays the same, shot for shot and for every seed. In particular gates controlled by a qubit that is zero and diagonal gates on it may be left out, and teleporting the state of a qubit to another one writes the same as exchanging the two qubits and tossing two coins, whatever circuit prepares the state and whatever follows. In rounded arithmetic the distributions differ by at most the bounds of C63.", "quantifier": "for all programs (adaptive) with fixed, distinct qubits and no uncontrolled rotation about Y, all circuits, all continuations of the teleportation, numbers of shots, samples in the unit interval and earlier uses of the backend", "why_tests_cant": "the tests run teleportation once at most and never compare it with another program; the claim covers all preparations, continuations and measurement records", "anchors": ["backend/src/lib.rs:164-500", "sparsesim/src/lib.rs:312-460", "sparsesim/src/lib.rs:464-1190"]}
{"id": "C92", "title": "All program transformations together, and measured qubits keep their value", "statement": "A program may be transformed by any mixture, anywhere and any number of times, of: exchanging calls on different qubits and leaving out useless ones (C86), replacing equal circuits (C88), deferring measurements (C90), simplifying by what is known about the qubits (C91), leaving out the reset of a qubit known to be zero, replacing its measurement by the constant zero, replacing a second measurement of a qubit by a copy of the first result, measuring and resetting in one step or two, reading a result just written as a constant; and its qubits may be renamed (C87), and it may come from a program that allocates its qubits (C89). The distribution of what the code writes, over any number of shots, stays the same, including failures. In rounded arithmetic the distributions differ by at most the bounds of C63.", "quantifier": "for all programs (adaptive) with distinct qubits and no uncontrolled rotation about Y, all sequences of transformations, permutations of qubits, numbers of shots, sets of outputs, and earlier uses of the backends", "why_tests_cant": "the tests never compare two programs; the claim covers all programs and all sequences of transformations", "anchors": ["backend/src/lib.rs:164-500", "sparsesim/src/lib.rs:312-460", "sparsesim/src/lib.rs:464-1190"]}
{"id": "C93", "title": "The wrong rotations about Y can always be avoided", "statement": "Replace every uncontrolled rotation about Y in a program by the adjoint of S, a rotation about X by the same angle, and S. On the ideal device nothing changes, not even the state left. The code, which carries out some programs with rotations about Y wrongly (F1), writes for the result exactly what the original program writes on the ideal device, shot for shot and sample for sample; where the original did not meet the bug, it writes the same as before. On the program of F1 the code writes 0, and after the replacement 1 as it should. With rounding, the distribution is that of the original on the ideal device up to the bound of C63 for three times the work, with no condition on rotations.", "quantifier": "for all programs (adaptive, with or without dynamic allocation) whose calls make sense, all angles, numbers of shots, samples and earlier uses of the backend", "why_tests_cant": "the tests check few angles and never a rotation about Y after a half turn about X; the claim is over all programs and angles", "anchors": ["sparsesim/src/lib.rs:838-870", "sparsesim/src/lib.rs:1139-1190", "sparsesim/src/lib.rs:600-640", "backend/src/lib.rs:164-500"]}
{"id": "C94", "title": "Results are output with their values in whole programs", "statement": "A program that uses some register (measures into it, reads or writes it) before it outputs result 1 writes, for every output of a result, the value of that register, shot for shot and sample for sample. A program that uses no register writes for every result what was measured when the result was returned. Writing zero to register 0 first makes every program write the values of its registers, and changes nothing for programs that do so already. The conditions are needed: the program of F30 writes 1 for a register that is zero, and a program that measures one into a result, uses a register and outputs the result writes 0. With rounded arithmetic and the tolerance of the code the same holds for the probabilities of what is written, up to an explicit distance.", "quantifier": "for all programs (adaptive) whose calls make sense and that do not meet F1, all numbers of shots, samples, labels and earlier uses of the backend", "why_tests_cant": "the tests output results in one order each; the claim is over all programs and orders of calls", "anchors": ["backend/src/lib.rs:908-935", "backend/src/result_bool.rs", "backend/src/lib.rs:640-735"]}
{"id": "C95", "title": "How the outputs of finitely many shots are distributed", "statement": "With independent uniform samples, the probability that all of n shots succeed and exactly k of them write something in a given set of byte strings is (n choose k) a^k b^(n-k), where a and b are the probabilities of the ideal device to write something in the set and outside of it. All of n shots succeed with probability (1-f)^n, where f is the probability that the program fails. If f is zero, then the relative frequency of the set among n shots differs from a by t or more with probability at most 2 exp(-2 n t^2), so log(2/d)/(2 t^2) shots are enough for precision t except with probability d. The code in rounded arithmetic with its tolerance has the same property with probabilities that differ from those of the ideal device by at most the bound of C63: the count is binomial exactly, and the frequency is off by t plus the bound, or a shot fails, with probability at most 2 exp(-2 n t^2) plus n times the bound. Both hold too for programs that draw random numbers, with independent uniform samples and words. Several relative frequencies are within t at once except with the sum of these probabilities; for a program with m possible outputs all sets of outputs are, except with probability 2^(m+1) exp(-2 n t^2). Programs whose probabilities of a set differ by 2 t or more are told apart by n shots except with probability 2 exp(-2 n t^2).", "quantifier": "for all programs (adaptive) whose calls make sense and that do not meet F1, all numbers of shots, sets of outputs, precisions and earlier uses of the backend", "why_tests_cant": "the tests run a few seeded samples; the claim is about the distribution over all streams of samples and for all numbers of shots", "anchors": ["sparsesim/src/lib.rs: measure, joint_measure, release", "backend/src/lib.rs: __quantum__rt__initialize and the measuring calls", "runner/src/lib.rs: run_module"]}
