{"claims":[
{"property": "C01", "status": "partial", "theorems": ["Qir.C01_gate_partial", "Qir.C01_gates_partial", "Qir.C01_history_partial", "Qir.C01_gates_without_ry", "Qir.C01_history_without_rx", "Qir.C01_wrong_turn", "Qir.C01_counterexample", "Qir.C01_exact"], "note": "Every valid history, all gates, up to one global phase, eps=0. Full claim is false of the code: an uncontrolled ry requested while a half-turn rx is pending on the qubit turns the other way (C01_wrong_turn, C01_counterexample is the witness). C01_exact has no side condition: the simulator answers as the ideal machine does for the history with exactly those rotations negated."},
{"property": "C02", "status": "proved", "theorems": ["Qir.C02_born", "Qir.C02_probability"], "note": "Outcome one iff the next sample is below the Born probability; the set of samples giving one has that Lebesgue measure."},
{"property": "C03", "status": "proved", "theorems": ["Qir.C03_repeatable"], "note": ""},
{"property": "C04", "status": "proved", "theorems": ["Qir.C04_normalised"], "note": "After every valid history, eps=0."},
{"property": "C05", "status": "proved", "theorems": ["Qir.C05_measure", "Qir.C05_collapse", "Qir.C05_release"], "note": ""},
{"property": "C06", "status": "partial", "theorems": ["Qir.C06_state", "Qir.C06_future_partial", "Qir.C06_future_without_ry", "Qir.C06_counterexample", "Qir.C06_exact"], "note": "The state shown is never changed by looking. Later answers are unchanged unless the wrong turn of C01 is met; C06_counterexample: get_state between rx(pi) and ry changes a later measurement. C06_exact has no side condition: with or without the look the answers are those of the same ideal machine, each for its own executed calls."},
{"property": "C07", "status": "proved", "theorems": ["Qir.C07_history", "Qir.C07_state", "Qir.Back.C07_run"], "note": "Relational (two-run) proof. Any history, valid or not, any tolerance, a different order in every call; and whole runs of the runner: bytes written, errors, positions of the random sources. Exact arithmetic: differences caused by floating-point summation order are outside the model. The method apply is not among the calls (the backend never calls it)."},
{"property": "C08", "status": "proved", "theorems": ["Qir.C08_allocate"], "note": ""},
{"property": "C09", "status": "proved", "theorems": ["Qir.C09_release", "Qir.C09_release_classical", "Qir.C09_release_last"], "note": ""},
{"property": "C10", "status": "partial", "theorems": ["Qir.C10_release_unknown_partial", "Qir.C10_counterexample", "Qir.C10_exactly", "Qir.C10_resets"], "note": "False with exactly one allocated qubit: release of any identifier resets it silently. C10_exactly: panics iff the number of qubits is not one. C10_resets: what happens with one qubit."},
{"property": "C11", "status": "proved", "theorems": ["Qir.C11_locations", "Qir.C11_always"], "note": "C11_always assumes nothing: any calls and operands, any tolerance, any iteration orders, as long as no panic has happened."},
{"property": "C12", "status": "proved", "theorems": ["Qir.C12_swap"], "note": ""},
{"property": "C13", "status": "proved", "theorems": ["Qir.C13_joint_probability"], "note": ""},
{"property": "C14", "status": "proved", "theorems": ["Qir.C14_joint_measure"], "note": ""},
{"property": "C15", "status": "partial", "theorems": ["Qir.C15_get_state_partial", "Qir.C15_consistent", "Qir.C15_exact"], "note": "Partial only through the wrong turn of C01. C15_exact: for every valid history, the state listed is the one reached by the calls carried out."},
{"property": "C16", "status": "partial", "theorems": ["Qir.C16_controlled_partial", "Qir.C16_immediate", "Qir.C16_counterexample_allocate", "Qir.C16_counterexample_release"], "note": "Any state, any tolerance. False if a later allocation makes the operand valid, or the only qubit is released before the queue is applied; rotations by full turns never look at their operands."},
{"property": "C17", "status": "partial", "theorems": ["Qir.C17_unallocated_partial", "Qir.C17_observation", "Qir.C17_counterexample", "Qir.C17_inherited"], "note": "False for h, rx, ry: the request is inherited by the next qubit with that identifier. C17_inherited: such a request does exactly what it does when made after the allocation."},
{"property": "C18", "status": "proved", "theorems": ["Qir.C18_mcexp", "Qir.C18_exp", "Qir.C18_no_special_branch"], "note": "mcexp is the controlled exponential of the Pauli string."},
{"property": "C19", "status": "partial", "theorems": ["Qir.C19_apply_partial", "Qir.C19_panics", "Qir.C19_rejects", "Qir.C19_history_partial", "Qir.C19_only_gap", "Qir.C19_no_release", "Qir.C19_after_dump", "Qir.C19_counterexample"], "note": "exact multiplication by the (controlled) matrix in every reachable state without an unused low location; the claim is false otherwise (F4): apply panics exactly there; never in histories without release nor after a listing of the state"},
{"property": "C20", "status": "proved", "theorems": ["Qir.C20_force_collapse"], "note": ""},
{"property": "C21", "status": "proved", "theorems": ["Qir.C21_queue_bounded", "Qir.C21_attained"], "note": "Every history, valid or not, any tolerance."},
{"property": "C22", "status": "partial", "theorems": ["Qir.C22_bound_partial", "Qir.C22_counterexample"], "note": "The claim as stated is false: queued rotations within eps of zero are dropped without visiting any amplitude (C22_counterexample, for every constant). Proved instead for 0 <= eps <= 1/2: every valid history of gates, allocations and queries does not panic and every answer (state, probability, zero test) is within 4*sqrt2*eps*sqrt(2^n)*work of the ideal one, work = operands+1 per call. Measurement, release, force_collapse and Y rotations meeting a pending near-half-turn (F1) are covered by C53."},
{"property": "C23", "status": "proved", "theorems": ["Qir.C23_index_map_is_finite_map", "Qir.C23_iteration_determined", "Qir.C23_from_iter"], "note": "IndexMap refines a partial function under every call sequence."},
{"property": "C24", "status": "proved", "theorems": ["Qir.Back.C24_on_demand", "Qir.Back.C24_first_use", "Qir.Back.C24_same_qubit"], "note": ""},
{"property": "C25", "status": "proved", "theorems": ["Qir.Back.C25_read", "Qir.Back.C25_independent", "Qir.Back.C25_write", "Qir.Back.C25_mz", "Qir.Back.C25_default", "Qir.Back.C25_kept", "Qir.Back.C25_latest"], "note": ""},
{"property": "C26", "status": "partial", "theorems": ["Qir.Back.C26_recorded_partial", "Qir.Back.C26_counterexample", "Qir.Back.C26_exact"], "note": "False: with no register in use, result id 1 is recorded as 1 although it reads as 0. Proved for every other case, with the counterexample. C26_exact: what is recorded and read in every state."},
{"property": "C27", "status": "proved", "theorems": ["Qir.Back.C27_isolated", "Qir.Back.C27_indistinguishable", "Qir.Back.C27_session"], "note": "Every past and future program, any tolerance."},
{"property": "C28", "status": "proved", "theorems": ["Qir.Back.C28_reset", "Qir.Back.C28_mresetz", "Qir.Back.C28_mresetz_runs"], "note": ""},
{"property": "C29", "status": "proved", "theorems": ["Qir.Back.C29_measure", "Qir.Back.C29_size"], "note": ""},
{"property": "C30", "status": "proved", "theorems": ["Qir.Back.C30_two_qubit_rotations", "Qir.Back.C30_sx", "Qir.Back.C30_sx_squared"], "note": ""},
{"property": "C31", "status": "partial", "theorems": ["Qir.Back.C31_r_partial", "Qir.Back.C31_rCtl", "Qir.Back.C31_adjoint", "Qir.Back.C31_inverse", "Qir.Back.C31_counterexample", "Qir.Back.C31_r_exact"], "note": "False for an uncontrolled rotation about Y while a half-turn about X is pending (the same defect as C01); proved for every other case, with the counterexample. C31_r_exact: in every case, with the angle negated exactly there."},
{"property": "C32", "status": "proved", "theorems": ["Qir.Std.C32_counts", "Qir.Std.C32_drop_moment", "Qir.Std.C32_alias_harmless", "Qir.Std.C32_too_many"], "note": ""},
{"property": "C33", "status": "proved", "theorems": ["Qir.Std.C33_copy", "Qir.Std.C33_writes_separate"], "note": ""},
{"property": "C34", "status": "proved", "theorems": ["Qir.Std.C34_slice", "Qir.Std.C34_out_of_bounds", "Qir.Std.C34_zero_step"], "note": ""},
{"property": "C35", "status": "proved", "theorems": ["Qir.Std.C35_concatenate", "Qir.Std.C35_mismatch", "Qir.Std.C35_store_load"], "note": ""},
{"property": "C36", "status": "proved", "theorems": ["Qir.Std.C36_adjoint_twice", "Qir.Std.C36_commute", "Qir.Std.C36_functors", "Qir.Std.C36_invoke_controlled", "Qir.Std.C36_invoke_plain", "Qir.Std.C36_invoke_null"], "note": ""},
{"property": "C37", "status": "partial", "theorems": ["Qir.Back.C37_allocate", "Qir.Back.C37_release_partial", "Qir.Back.C37_never_drops", "Qir.Back.C37_counterexample", "Qir.Back.C37_beyond_repair", "Qir.Back.C37_repair", "Qir.Back.C37_leak"], "note": "The qubits are released, for every size and state. False of the code as stated: in no count state is the payload of the array released (finding F6)."},
{"property": "C38", "status": "proved", "theorems": ["Qir.Out.C38_one_line", "Qir.Out.C38_records_determined", "Qir.Out.C38_line_count", "Qir.Out.C38_newline_needed", "Qir.Out.C38_legacy_text", "Qir.Out.C38_legacy_counterexample"], "note": "For the labelled format and messages. The unlabelled legacy format confuses exactly the integers 0, 1 with results."},
{"property": "C39", "status": "proved", "theorems": ["Qir.Out.C39_one_printable_line", "Qir.Out.C39_recoverable"], "note": ""},
{"property": "C40", "status": "proved", "theorems": ["Qir.Run.C40_framing", "Qir.Run.C40_aborted", "Qir.Run.C40_no_shots", "Qir.Run.C40_modes_agree"], "note": ""},
{"property": "C41", "status": "proved", "theorems": ["Qir.Run.C41_choice", "Qir.Run.C41_nothing_executed"], "note": ""},
{"property": "C42", "status": "partial", "theorems": ["Qir.Run.C42_bound_partial", "Qir.Run.C42_not_mixed_partial", "Qir.Run.C42_accepts", "Qir.Run.C42_count_counterexample", "Qir.Run.C42_mixing_counterexample"], "note": "False for the listed declarations: assertmeasurementprobability__ctl and array_slice_1d have a wrong count, output functions are bound without a count check, and array/tuple_record_output escape the mixing check."},
{"property": "C43", "status": "proved", "theorems": ["Qir.Std.C43_range_text_injective"], "note": ""},
{"property": "C44", "status": "partial", "theorems": ["Qir.Std.C44_partial", "Qir.Std.C44_nearest_partial", "Qir.Std.C44_exactly_partial", "Qir.Std.C44_counterexample"], "note": "False on ties: the code rounds halves away from zero, the standard to even. Proved: correct when the quotient is no tie, exactly when it is right, always a nearest integer, and the counterexample 1 by 2. Doubles are real numbers."},
{"property": "C45", "status": "proved", "theorems": ["Qir.Std.C45_read", "Qir.Std.C45_data", "Qir.Std.C45_minimal", "Qir.Std.C45_round_trip", "Qir.Std.C45_divide", "Qir.Std.C45_divide_heap"], "note": "The byte algorithms of num-bigint (a dependency) are modelled as published."},
{"property": "C46", "status": "proved", "theorems": ["Qir.Std.C46_int", "Qir.Std.C46_int_all", "Qir.Std.C46_double"], "note": "rand's inclusive range sampling is modelled as published; doubles are real numbers."},
{"property": "C47", "status": "proved", "theorems": ["Qir.Back.C47_decides", "Qir.Back.C47_passes", "Qir.Back.C47_undisturbed"], "note": ""},
{"property": "C48", "status": "partial", "theorems": ["Qir.Back.C48_reproducible_partial", "Qir.Back.C48_draws_not_seeded", "Qir.Back.C27_session"], "note": "False for programs that draw random numbers: drawrandomint and drawrandomdouble use an unseeded generator (counterexample proved). Proved for every program without draws; the continuation of the stream is C27_session."},
{"property": "C49", "status": "partial", "theorems": ["Qir.Back.C49_transcript_partial", "Qir.Back.C49_counterexample", "Qir.Back.coin_transcript", "Qir.Back.C49_settled"], "note": "Partial only through the wrong turn of C01 (counterexample proved). C49_settled leaves no case out: the transcript is always that of the ideal device given one program, the same for all samples, that differs from the given one in the sense of Y rotations only."},
{"property": "C50", "status": "proved", "theorems": ["Qir.Std.C50_captures", "Qir.Std.C50_no_table"], "note": "the compiled memory management functions are those the QIR specification asks for"},
{"property": "C51", "status": "proved", "theorems": ["Qir.Run.C51_call", "Qir.Run.C51_session", "Qir.Run.C51_modes", "Qir.Run.C51_lost_records", "Qir.Run.C51_library_counterexample"], "note": "calls that return; C51_lost_records: for a program that fails, main after a call with callback loses the records of the failing shot (F16); C51_library_counterexample: other users of the Rust library (F14)"},
{"property": "C52", "status": "proved", "theorems": ["Qir.Back.C52_every_program", "Qir.Back.die_transcript", "Qir.Back.die_executed"], "note": "all modelled callables including draws, dumps and fail; exact arithmetic (eps=0)"},
{"property": "C53", "status": "proved", "theorems": ["Qir.C53_every_history", "Qir.C53_steady_history", "Qir.C53_undecided_rarely", "Qir.bell_measured"], "note": "the statement speaks of the calls carried out (F1); real arithmetic with the tolerance, no rounding"},
{"property": "C54", "status": "proved", "theorems": ["Qir.Std.C54_big", "Qir.Std.C54_string", "Qir.Std.C54_query", "Qir.Std.C54_session"], "note": "num-bigint's arithmetic is taken as exact integer arithmetic; memory exhaustion not modelled"},
{"property": "C55", "status": "proved", "theorems": ["Qir.Std.C55_text_injective", "Qir.Std.C55_text", "Qir.Std.C55_big_as_int", "Qir.Std.C55_classification"], "note": "the text of a double is modelled from its shortest decimal representation"},
{"property": "C56", "status": "proved", "theorems": ["Qir.Std.C56_roots", "Qir.Std.C56_inverse", "Qir.Std.C56_arctan2", "Qir.Std.C56_circular"], "note": "doubles are real numbers; the standard library functions are taken to be the real functions"},
{"property": "C57", "status": "proved", "theorems": ["Qir.Back.C57_shots", "Qir.Back.C57_fails", "Qir.Back.C57_total", "Qir.Back.C57_run", "Qir.Back.C57_coin", "Qir.Back.C57_every", "Qir.Back.C57_every_fails", "Qir.Back.C57_resigned", "Qir.Back.C57_unturned", "Qir.Back.C57_meaningful", "Qir.Back.C57_turned"], "note": "samples are independent and uniform on the unit interval (the quality of the generator is assumed); programs without draws and dumps; zero tolerance. Where rotations about Y are carried out the wrong way (F1), the probabilities are those of the program carried out (settled), which does not depend on the samples; C57_turned shows they differ from those of the program as written."},
{"property": "C58", "status": "proved", "theorems": ["Qir.Back.C58_frequencies", "Qir.Back.C58_histogram", "Qir.Back.C58_coin", "Qir.Back.C58_every"], "note": "same hypotheses as C57"},
{"property": "C59", "status": "proved", "theorems": ["Qir.Std.C59_count", "Qir.Std.C59_nearly_uniform", "Qir.Std.C59_uniform_iff"], "note": ""},
{"property": "C60", "status": "proved", "theorems": ["Qir.C60_sparse", "Qir.C60_classical", "Qir.C60_qubits", "Qir.C60_attained"], "note": ""},
{"property": "C61", "status": "proved", "theorems": ["Qir.Run.C61_transcript", "Qir.Run.C61_forged", "Qir.Run.C61_run", "Qir.Back.C61_library", "Qir.Back.C61_runs_agree"], "note": ""},
{"property": "C62", "status": "proved", "theorems": ["Qir.C62_every_history", "Qir.C62_bound", "Qir.C62_binary64", "Qir.C62_exact_arithmetic", "Qir.bell_measured_binary64"], "note": "apply is not covered; the phase of mcphase has modulus exactly one (r__ctl with Pauli I hands it a rounded one, see mcphase_near in Proof/RndGates); sums of pending X and Y angles stay below eps/u"},
{"property": "C63", "status": "proved", "theorems": ["Qir.RBack.C63_distance", "Qir.RBack.C63_shots", "Qir.RBack.C63_sessions", "Qir.RBack.C63_no_turn", "Qir.RBack.C63_binary64", "Qir.RBack.C63_coin"], "note": "programs with dump, assertions, isZero or unseeded random draws are not covered; sums of pending X and Y angles stay below eps/u"},
{"property": "C64", "status": "proved", "theorems": ["Qir.Run.C64_offers", "Qir.Run.C64_says", "Qir.Run.C64_call", "Qir.Run.C64_plain", "Qir.Run.C64_free", "Qir.Run.C64_afterwards", "Qir.Run.C64_quiet", "Qir.Run.C64_busy", "Qir.Run.C64_diverted"], "note": "A callback that makes a call without a callback of its own diverts the records of the outer call to stdout (C64_diverted, F17); C64_quiet excludes it. Threads are not modelled."},
{"property": "C65", "status": "proved", "theorems": ["Qir.Back.C65_total", "Qir.Back.C65_shots", "Qir.Back.C65_fails", "Qir.Back.C65_frequencies", "Qir.Back.C65_histogram", "Qir.Back.C65_proper", "Qir.Back.C65_seeded", "Qir.Back.C65_fair", "Qir.Back.C65_nearly", "Qir.Back.dice_shot"], "note": "exact arithmetic, tolerance zero; words are independent and uniform; reals are drawn from the grid of the model (see DESIGN.md)"},
{"property": "C66", "status": "proved", "theorems": ["Qir.Run.C66_call", "Qir.Run.C66_session", "Qir.Run.C66_sequence", "Qir.Run.C66_console", "Qir.Run.C66_wordy", "Qir.Back.C66_library", "Qir.Run.C66_html", "Qir.Run.C66_html_unescaped", "Qir.Run.C66_not_text"], "note": ""},
{"property": "C67", "status": "proved", "theorems": ["Qir.C67_requests", "Qir.C67_request", "Qir.C67_writes", "Qir.C67_values", "Qir.C67_drain", "Qir.C67_index"], "note": ""},
{"property": "C68", "status": "proved", "theorems": ["Qir.RBack.C68_distance", "Qir.RBack.C68_fair", "Qir.RBack.C68_shots", "Qir.RBack.C68_sessions", "Qir.RBack.C68_frequencies", "Qir.RBack.C68_plain", "Qir.RBack.C68_no_turn", "Qir.RBack.C68_sometimes"], "note": "the conversion of a word to a real number by draw_random_double is not rounded (see DESIGN.md); isZero, assertProb and dump are not covered, as in C63"},
{"property": "C69", "status": "proved", "theorems": ["Qir.Run.C69_isolated", "Qir.Run.C69_stdout", "Qir.Run.C69_callback", "Qir.Run.C69_progress", "Qir.Run.C69_alive", "Qir.Run.C69_any", "Qir.Run.C69_quiet", "Qir.Run.C69_says", "Qir.Run.C69_pair", "Qir.Run.C69_mixed", "Qir.Run.C69_dragged"], "note": ""},
{"property": "C70", "status": "proved", "theorems": ["Qir.Run.C70_reader", "Qir.Run.C70_handler", "Qir.Back.C70_counts", "Qir.RBack.C70_safe", "Qir.RBack.C70_rounded", "Qir.RBack.C70_coin"], "note": "labels are text without line feeds and no dumps, since otherwise the output cannot be read back (C61, C66)"},
{"property": "C71", "status": "partial", "theorems": ["Qir.Back.C71_m_partial", "Qir.Back.C71_measure_partial", "Qir.Back.C71_equal", "Qir.Back.C71_register", "Qir.Back.C71_counterexample", "Qir.Back.C71_qubit", "Qir.Back.C71_qubit_injective"], "note": "false for registers: the text and the comparison look at the number of the register, not at its value"},
{"property": "C72", "status": "partial", "theorems": ["Qir.Back.C72_capture_partial", "Qir.Back.C72_consistent", "Qir.Back.C72_counterexample"], "note": "false when a rotation about Y turns the wrong way (C01)"},
{"property": "C73", "status": "proved", "theorems": ["Qir.Gen.C73_run", "Qir.Gen.C73_last", "Qir.Gen.C73_nearly_zero", "Qir.Gen.C73_nan", "Qir.Gen.C73_exact"], "note": "for calls other than apply (C82); C73_nearly_zero and C73_nan record how NaN is dropped (F23); C73_exact: at the real numbers this is the model of the other properties"},
{"property": "C74", "status": "proved", "theorems": ["Qir.Gen.C74_module", "Qir.Gen.C74_shots", "Qir.Gen.C74_program", "Qir.Gen.C74_call", "Qir.Gen.C74_start", "Qir.Gen.C74_assert_nan", "Qir.Gen.C74_exact"], "note": "C74_assert_nan records finding F24; C74_exact: at the real numbers this is the model of the other properties"},
{"property": "C75", "status": "proved", "theorems": ["Qir.Gen.C75_run", "Qir.Gen.C75_memory", "Qir.Gen.C75_listing", "Qir.Gen.C75_measured", "Qir.Gen.C75_pair"], "note": "for calls other than apply (C82), in any arithmetic; a basis state may get lost, none appears from nowhere"},
{"property": "C76", "status": "proved", "theorems": ["Qir.Gen.C76_run", "Qir.Gen.C76_seed"], "note": "for calls other than apply; double precision is an instance: double_digits"},
{"property": "C77", "status": "proved", "theorems": ["Qir.Gen.C77_module", "Qir.Gen.C77_shots", "Qir.Gen.C77_program", "Qir.Gen.C77_call"], "note": "without draws"},
{"property": "C78", "status": "proved", "theorems": ["Qir.Run.C78_routes", "Qir.Run.C78_commands", "Qir.Run.C78_short", "Qir.Run.C78_refused", "Qir.Run.C78_text_as_bitcode"], "note": "for parsers as in the quantifier; LLVM itself is not modelled"},
{"property": "C79", "status": "proved", "theorems": ["Qir.Gen.C79_run", "Qir.Gen.C79_seed", "Qir.Gen.C79_power", "Qir.Gen.C79_state", "Qir.Gen.C79_signed_zero"], "note": "for calls other than apply"},
{"property": "C80", "status": "proved", "theorems": ["Qir.Gen.C80_run", "Qir.Gen.C80_measured", "Qir.Gen.C80_certain", "Qir.Gen.C80_repeat", "Qir.Gen.C80_lost", "Qir.Gen.C80_pair", "Qir.Gen.C80_double"], "note": "for calls other than apply"},
{"property": "C81", "status": "proved", "theorems": ["Qir.Gen.C81_call", "Qir.Gen.C81_program", "Qir.Gen.C81_shots", "Qir.Gen.C81_module", "Qir.Gen.C81_writes", "Qir.Gen.C81_reset", "Qir.Gen.C81_again", "Qir.Gen.C81_pair", "Qir.Gen.C81_double"], "note": "for programs of allowed calls"},
{"property": "C82", "status": "proved", "theorems": ["Qir.Gen.C82_run", "Qir.Gen.C82_no_release", "Qir.Gen.C82_after_dump", "Qir.Gen.C82_gap", "Qir.Gen.C82_rejects", "Qir.Gen.C82_possible", "Qir.Gen.C82_memory", "Qir.Gen.C82_vanishes", "Qir.Gen.C82_witness", "Qir.Gen.C82_empty", "Qir.Gen.C82_nan", "Qir.Gen.C82_nan_matrix", "Qir.Gen.C82_exact"], "note": "C82_possible, C82_memory, C82_vanishes, C82_witness and C82_nan_matrix assume that zero counts as zero, which holds of f64; C82_nan and C82_empty record F28"},
{"property": "C83", "status": "proved", "theorems": ["Qir.Mem.C83_event", "Qir.Mem.C83_memory", "Qir.Mem.C83_process", "Qir.Mem.C83_empty"], "note": "given the promise of the allocator"},
{"property": "C84", "status": "proved", "theorems": ["Qir.C84_every_history", "Qir.C84_no_release", "Qir.C84_bound", "Qir.C84_exact_arithmetic"], "note": "C84_every_history assumes that no apply meets a gap in the state index (C19, C82); C84_no_release and C84_bound need no such condition"},
{"property": "C85", "status": "proved", "theorems": ["Qir.Eol.C85_transcript", "Qir.Eol.C85_unix", "Qir.Eol.C85_read", "Qir.Eol.C85_label", "Qir.Eol.C85_mixed"], "note": "C85_read assumes labels, attributes and texts of amplitudes without carriage return; C85_label shows that this is needed; C85_mixed records F29"},
{"property": "C86", "status": "proved", "theorems": ["Qir.Back.C86_chance", "Qir.Back.C86_shots", "Qir.Back.C86_fails", "Qir.Back.C86_fixed", "Qir.Back.C86_move", "Qir.Back.C86_interleave", "Qir.Back.C86_unused", "Qir.Back.C86_result", "Qir.RBack.C86_rounded"], "note": "for the code at tolerance zero (C86_shots) and with rounding and tolerance (C86_rounded); both programs have to make sense and to avoid the wrong rotations of C01; programs with fixed qubits and no uncontrolled Y rotation do (C86_fixed); isZero, assertions, allocation, release, dumps and draws are not moved"},
{"property": "C87", "status": "proved", "theorems": ["Qir.Back.C87_ideal", "Qir.Back.C87_renamed", "Qir.Back.C87_chance", "Qir.RBack.C87_rounded"], "note": "for the code at tolerance zero with exact arithmetic and equal samples (C87_renamed), and in distribution with rounding and tolerance (C87_rounded); programs with allocation, dumps, draws or uncontrolled Y rotations are not covered by C87_renamed"},
{"property": "C88", "status": "proved", "theorems": ["Qir.Back.C88_ideal", "Qir.Back.C88_rewritten", "Qir.Back.C88_chance", "Qir.Back.C88_gates", "Qir.Back.C88_controlled", "Qir.Back.C88_exp", "Qir.Back.C88_swap", "Qir.Back.C88_controls", "Qir.Back.C88_identities", "Qir.Back.C88_turned", "Qir.RBack.C88_rounded"], "note": "for the code at tolerance zero with exact arithmetic and equal samples (C88_rewritten), and in distribution with rounding and tolerance (C88_rounded); C88_turned shows that uncontrolled Y rotations have to be excluded (F1)"},
{"property": "C89", "status": "proved", "theorems": ["Qir.Back.C89_chance", "Qir.Back.C89_meaningful", "Qir.Back.C89_shots", "Qir.Back.C89_histogram", "Qir.Back.C89_samples", "Qir.RBack.C89_rounded"], "note": "for the code at tolerance zero with exact arithmetic in distribution (C89_shots), and with rounding and tolerance (C89_rounded); calls other than allocation and release are gates, measurements, results and output; C89_samples shows that it fails for single seeds"},
{"property": "C90", "status": "proved", "theorems": ["Qir.Back.C90_ideal", "Qir.Back.C90_deferred", "Qir.Back.C90_chance", "Qir.Back.C90_fixed", "Qir.RBack.C90_rounded"], "note": "for the code at tolerance zero with exact arithmetic and equal samples (C90_deferred), and in distribution with rounding and tolerance (C90_rounded); programs with allocation, dumps, draws or uncontrolled Y rotations are not covered by C90_deferred"},
{"property": "C91", "status": "proved", "theorems": ["Qir.Back.C91_ideal", "Qir.Back.C91_known", "Qir.Back.C91_chance", "Qir.Back.C91_control", "Qir.Back.C91_turned", "Qir.Back.C91_diagonal", "Qir.Back.C91_teleport", "Qir.Back.C91_teleported", "Qir.Back.C91_unknown", "Qir.RBack.C91_rounded"], "note": "for the code at tolerance zero with exact arithmetic and equal samples (C91_known, C91_teleported), and in distribution with rounding and tolerance (C91_rounded); programs with allocation, dumps, draws or uncontrolled Y rotations are not covered by C91_known"},
{"property": "C92", "status": "proved", "theorems": ["Qir.Back.C92_chance", "Qir.Back.C92_compiled", "Qir.Back.C92_fails", "Qir.Back.C92_dynamic", "Qir.Back.C92_branch", "Qir.Back.C92_resets", "Qir.Back.C92_samples", "Qir.RBack.C92_rounded"], "note": "in distribution: for the code at tolerance zero with exact arithmetic (C92_compiled, C92_fails, C92_dynamic), and with rounding and tolerance up to the bounds of C63 (C92_rounded); programs with dumps, draws or uncontrolled Y rotations are not covered by C92_compiled"},
{"property": "C93", "status": "proved", "theorems": ["Qir.Back.C93_ideal", "Qir.Back.C93_safe", "Qir.Back.C93_writes", "Qir.Back.C93_shots", "Qir.Back.C93_fails", "Qir.Back.C93_unchanged", "Qir.Back.C93_known", "Qir.Back.C93_compiled", "Qir.Back.C93_repaired", "Qir.RBack.C93_rounded"], "note": "the code at tolerance zero with exact arithmetic, and in distribution with rounding and tolerance (C93_rounded); programs with dumps or draws are not covered"},
{"property": "C94", "status": "proved", "theorems": ["Qir.Back.C94_registers", "Qir.Back.C94_pointers", "Qir.Back.C94_primed", "Qir.Back.C94_unchanged", "Qir.Back.C94_early", "Qir.Back.C94_mixed", "Qir.RBack.C94_rounded", "Qir.RBack.C94_rounded_pointers", "Qir.RBack.C94_rounded_primed"], "note": "shot for shot at tolerance zero with exact arithmetic, in distribution with rounded arithmetic; programs with dumps or draws are not covered"},
{"property": "C95", "status": "proved", "theorems": ["Qir.Back.C95_count", "Qir.Back.C95_succeeds", "Qir.Back.C95_tail", "Qir.Back.C95_enough", "Qir.Back.C95_coin", "Qir.Back.C95_table", "Qir.Back.C95_all", "Qir.Back.C95_apart", "Qir.RBack.C95_rounded_table", "Qir.RBack.C95_rounded_count", "Qir.RBack.C95_rounded", "Qir.RBack.C95_rounded_coin", "Qir.Back.C95_drawn_count", "Qir.Back.C95_drawn_tail", "Qir.Back.C95_dice", "Qir.RBack.C95_drawn_rounded", "Qir.RBack.C95_sometimes"], "note": "C95_count, _succeeds, _tail, _enough: the code at tolerance zero with exact arithmetic; C95_rounded_*: rounded arithmetic with the tolerance; the samples are independent and uniform"}
]}
