def h(*xs): return [H + x for x in xs]
claim("C01", "proved", h("C01_table_bounded", "C01_next_valid", "C01_context_valid", "C01_no_fault"),
  "All component behaviours, configurations and call histories. C01_no_fault states the exact guard under which no undefined behaviour occurs.")
claim("C02", "proved", h("C02_state_sym", "C02_invalid_sym"))
claim("C03", "proved", h("C03_next_stable", "C03_false"), "C03_false: the hypothesis is needed (id equal to the table size).")
claim("C04", "proved", h("C04_next_denotes", "C04_context_denotes"), "For histories without self-recycling, as the statement says; C05_false shows the need.")
claim("C05", "proved", h("C05_cached_transition", "C05_cached_transition_linked", "C05_room_suffices", "C05_false"))
claim("C06", "proved", h("C06_start_permanent", "C06_start_sym"))
claim("C07", "proved", h("C07_context_compose", "C07_context_empty"))
claim("C08", "proved", h("C08_extract_invalid", "C08_update_invalid", "C08_update_invalid_returns", "C08_update_invalid_empty", "C08_update_invalid_false", "C08_update_beyond_false"))
claim("C13", "proved", h("C13_history_is_last_costs"))
def sc(*xs): return ["Mozolm.Scores." + x for x in xs]
claim("C09", "proved", h("C09_weights"), "Exact real arithmetic (Arith.xr): rounding not modelled.")
claim("C10", "proved", h("C10_bayesian_weights"), "Exact real arithmetic; static components, histories without self-recycling.")
claim("C11", "proved", h("C11_distribution"), "Exact real arithmetic.")
claim("C12", "proved", h("C12_weighted_average"), "Exact real arithmetic.")
claim("C44", "proved", sc("C44_all", "C44_top_n", "C44_equal_refused", "C44_zero_false", "C44_bad_response"))
claim("C45", "proved", sc("C45_softmax", "C45_all_infinite", "C45_empty_ub"), "Exact real arithmetic.")
def bg(*xs): return ["Mozolm.Bigram." + x for x in xs]
claim("C14", "proved", h("C14_hub_nonpositive_noop") + bg("C14_bigram_nonpositive_noop") + ["Mozolm.Ppm.C14_ppm_nonpositive_noop", "Mozolm.NGram.C28_ngram_static"], "Hub, bigram, PPM; the n-gram models ignore every update (C28_ngram_static).")
claim("C15", "proved", bg("C15_normaliser_is_row_sum"))
claim("C16", "proved", bg("C16_scores_are_distribution"), "Exact real arithmetic.")
claim("C17", "proved", bg("C17_counts_are_observations", "C17_only_overflow"))
claim("C18", "proved", bg("C18_updates_commute"))
claim("C19", "proved", bg("C19_read_accepts_described", "C19_crashes_exactly", "C19_no_fault", "C19_vocab_file", "C19_count_file", "C19_lines", "C19_fields", "C19_number", "C19_extra_row_false", "C19_empty_vocab_false", "C19_non_numeric_false", "C19_largest_symbol_false"))
claim("C20", "proved", bg("C20_next_state", "C20_state_sym", "C20_context_last_symbol"))
claim("C21", "proved", bg("Threads.C21_every_answer_is_sequential", "Threads.C21_program_order", "Threads.C21_memory_is_sequential", "Threads.C21_no_deadlock", "Threads.C21_every_schedule_ends"),
  "Sequentially consistent memory; writer-preferring locks also covered by C21_no_deadlock.")
def sv(*xs): return ["Mozolm.Server." + x for x in xs]
claim("C37", "proved", sv("C37_invalid_refused", "C37_only_invalid_refused", "C37_false", "C37_update_false"), "The claim in its restricted form; the int64 form is refuted.")
claim("C38", "proved", sv("C38_pending_exact", "C38_pending_nonneg", "C38_pending_idle", "C38_no_double_free", "C38_freed_once", "C38_one_reply", "C38_answered_idle"), "gRPC's completion-queue contract is modelled by environment steps.")
claim("C39", "proved", sv("C39_no_reply_after_shutdown", "C39_all_answered_at_queue_shutdown", "C39_false", "C39_false_idle_server"))
claim("C40", "proved", sv("C40_no_new_call", "C40_nothing_left", "C40_no_arrival"))
claim("C49", "proved", sv("C49_refused_changes_nothing", "C49_valid_not_refused", "C49_invalid_state_changes_nothing", "C49_false"))
claim("C51", "proved", sv("C51_counts_at_requested_state", "C51_counts_until_recycled", "C51_counts_at_start", "C51_counts_once", "C51_false"))
claim("C52", "proved", sv("C52_scores_of_next_state", "C52_next_state_repeatable", "C52_repeat_false"))
claim("C54", "proved", sv("C54_states_follow_components"))
claim("C55", "proved", sv("C55_only_component_states"))
claim("C56", "proved", sv("C56_shutdown_terminates", "C56_shutdown_clean", "C56_wait_never_blocks"), "gRPC's contract is modelled by environment steps; termination assumes Shutdown is not called again and again.")
def cl(*xs): return ["Mozolm.Client." + x for x in xs]
claim("C41", "proved", cl("C41_first_to_reach", "C41_interval", "C41_proportional", "C41_zero_never"), "Position theorem for every arithmetic; proportionality over exact reals (Lebesgue measure of the thresholds).")
claim("C42", "proved", cl("C42_generation", "C42_no_fault"), "Server, network and random source arbitrary.")
claim("C43", "proved", cl("C43_k_most_likely", "C43_false"), "C43_false: out-of-bounds access for every k above the number of scores.")
claim("C50", "proved", cl("C50_bits_finite", "C50_bits_exact", "C50_average_finite", "C50_empty_file_false"), "Exact real arithmetic.")
claim("C57", "proved", cl("C42_generation"), "The transcript part of C42_generation.")
def cf(*xs): return ["Mozolm.Config." + x for x in xs]
claim("C47", "proved", cf("C47_server_tls", "C47_client_tls", "C47_insecure_iff", "C47_client_flag", "C47_server_flag", "C47_false", "C47_server_flag_ignored"), "gRPC's credential objects are the records of options they were built from.")
claim("C48", "proved", cf("C48_defaults", "C48_flag_wins", "C48_false"))
claim("C53", "proved", cf("C53_builds", "C53_fails_iff", "C53_total", "C53_first_only"))
claim("C58", "proved", cf("C58_as_configured", "C58_refused", "C58_runServer", "C58_flags_fail", "C58_flags", "C58_flags_serve", "C58_false"))
def rl(*xs): return ["Mozolm.Relabel." + x for x in xs]
claim("C46", "proved", rl("C46_codepoints", "C46_kept", "C46_distinct", "C46_not_epsilon", "C46_fails_iff", "C46_accepts", "C46_sorted", "C46_automaton", "C46_false"), "OpenFst's Relabel is modelled by its contract.")
def ng(*xs): return ["Mozolm.NGram." + x for x in xs]
claim("C34", "proved", ng("C34_longest_match", "C34_end_of_string", "C34_next_valid", "C34_cost_is_sum"), "OpenFst's matcher is modelled by its contract. C34_cost_is_sum over exact reals.")
claim("C35", "proved", ng("C35_distribution"), "Exact real arithmetic.")
claim("C36", "proved", ng("C36_unknown_takes_backoff", "C36_false"), "Rests on the OpenFst matcher contract for label -1.")
claim("C59", "proved", ng("C59_iff", "C59_false"))
claim("C60", "proved", ng("C60_read"))
def pp(*xs): return ["Mozolm.Ppm." + x for x in xs]
claim("C22", "proved", pp("C22_totals", "C22_vocabulary", "C22_automaton"), "Exact real arithmetic.")
claim("C23", "proved", pp("C23_scores", "C23_symbol_score", "Prob.unique"), "Exact real arithmetic; alpha and beta not NaN. The formula is the relation Prob in Ppm/NumSpec.lean.")
claim("C24", "proved", pp("C24_size_unobservable", "C24_answers_fresh"), "Any arithmetic.")
claim("C25", "proved", pp("C25_cache_bounded", "C25_lookup_succeeds"), "Any arithmetic; the access counter does not overflow.")
claim("C26", "proved", pp("C26_update_succeeds", "C26_no_fault"), "Any arithmetic satisfying CountLaws.")
claim("C27", "proved", pp("C27_update_exclusion", "C27_unknown_ignored"), "Any arithmetic.")
claim("C28", "proved", pp("C28_ppm_static") + ng("C28_ngram_static"))
claim("C61", "proved", pp("C61_fresh_uniform"), "Exact real arithmetic.")
claim("C62", "proved", pp("C62_update_raises"), "Exact real arithmetic.")
def wd(*xs): return ["Mozolm.Word." + x for x in xs]
claim("C30", "proved", wd("C30_inverse", "C30_unknown", "C30_unknown_false"), "Dense symbol tables; the part about <unk> is refuted and replaced by what holds.")
claim("C29", "proved", wd("C29_meaning", "C29_zero", "C29_stable", "C29_same_key", "C29_distinct", "C29_answered", "C29_of_model"))
claim("C31", "proved", wd("C31_exact", "C31_all_words", "C31_typing"), "Vocabularies without <unk> or with it as last label; words without spaces.")
claim("C33", "proved", wd("C33_transparent", "C33_transparent_score", "C33_afresh", "C33_bounded", "C33_repeatable"), "Vocabularies as for C31, arc labels in the symbol table; every history of NextState, ExtractLMScores and SymLMScore.")
claim("C63", "proved", wd("C31_typing", "C31_text", "C31_total", "C31_no_fault"), "Vocabularies as for C31; symbol -1 inside a word excluded.")
claim("C32", "proved", wd("C32_marginals", "C32_probabilities", "C32_unknown", "C32_no_state", "C32_score"), "Exact real arithmetic. Vocabularies as for C31; at most one arc per word in a state; <unk> not on a non-final state without backoff (its weight would be taken for the end of the text).")
claim("C64", "proved", wd("C64_loads"))
claim("C65", "proved", wd("C65_scores", "C65_next_state", "C65_uniform_false"), "Proved in the true form, with a refutation of the expected one.")
claim("C66", "proved", wd("C66_times", "C66_used", "C66_evicts"))
claim("C67", "proved", pp("C67_training", "C67_reserved", "C67_order_one", "C67_no_lines", "C67_blank_lines"), "Exact real arithmetic; OpenGrm's n-gram counter by its contract CounterOk (a counter that keeps it is constructed).")
claim("C68", "proved", pp("C68_text_probabilities"), "Exact real arithmetic; hypotheses are what C67_training gives.")
claim("C69", "proved", pp("C69_next", "C69_typed"), "Exact real arithmetic; hypotheses are what C67_training gives.")
claim("C70", "proved", h("C70_needs_every_component", "C70_single", "C70_normalization"), "The normalisation at exact real arithmetic.")
claim("C71", "proved", sv("C71_one_at_a_time", "C71_taken_up_alone"), "gRPC's contract as listed in Server/Lifecycle.lean; one thread calls Run.")
def sy(*xs): return ["Mozolm.System." + x for x in xs]
claim("C72", "proved", sy("C72_components_never_fail", "C72_calls_complete", "C72_answers", "C72_no_overflow", "C72_service", "C72_update_service"), "n-gram automata: arcs lead to states, backoff arcs not in circles; word models as for C33; PPM vocabulary not empty.")
claim("C73", "proved", sy("C73_hub", "C73_service", "C73_as_fresh"), "Loaded models as for C72. State buffer: 1 + symbols sent (three times for updates) at most max_hub_states, or (C73_hub) no state took its own place.")
claim("C74", "proved", sy("C74_single", "C74_mixture", "C74_adaptive", "C74_trained"), "Exact real arithmetic for mixtures. Loaded models as for C72; state buffer as for C73. Voices (C74_mixture: what a component says on its own, as probabilities) always exist for bigram and PPM models (C74_adaptive).")
claim("C75", "proved", h("C75_refreshed", "C75_text", "C75_from_start", "C75_weights") + sy("C75_components"), "C75_refreshed for any components; C75_text, C75_from_start and C75_weights for components whose costs queries do not change (C75_components: all loaded bigram, PPM, character and word models have this). The weights at exact real arithmetic. The counted text fits the state buffer.")
claim("C76", "proved", pp("C76_history", "C76_text", "C76_vocabulary", "C76_asking", "C76_learner"), "The table and what calls do to it are in Ppm/MemorySpec.lean and Ppm/Calls.lean, without the automaton. Exact arithmetic; training under the contract of the OpenGrm counter; calls after a text go through ContextState from the start state.")
claim("C77", "proved", sy("C77_memory", "C77_strings", "C77_server", "C77_room"), "The memory is that of C76 (Ppm/MemorySpec.lean), what requests do to it and what the replies should be is in System/MemorySpec.lean. Exact arithmetic. A text asked about earlier keeps the context it had then until it is taught, so the reply is that of a known context of the text, not always the longest; along the text of an update it is the longest.")
claim("C78", "proved", sy("C78_session"), "The client is modelled in System/Session.lean after updateModel of VocabOnlyModelClientExample.java, which throws on an error status; texts are lists of code points.")
claim("C79", "proved", sv("C79_directory", "C79_ids", "C79_full"), "The directory is in Server/DirectorySpec.lean. Symbols are characters (non-negative). directory_room bounds the room by the symbols sent.")
claim("C80", "proved", sy("C80_memory", "C80_replies", "C80_ids", "C80_asking_false"), "The book is in System/BookSpec.lean. Exact arithmetic. Non-negative symbols. C80_memory: any components beside it; C80_replies: the PPM component alone is mixed.")
claim("C81", "proved", sy("C81_bits", "C81_learnt", "C81_unique"), "What the file should cost is in System/CodeSpec.lean, on the memory of C76. Exact real arithmetic with real logarithms. The client of Client/Model.lean in front of the server of Server/Handlers.lean (System/Client.lean): one client, perfect transport. The encoding of characters is a parameter whose decoding gives the character back.")
claim("C82", "proved", sy("C82_generation"), "How probable a text should be is in System/ChanceSpec.lean, on the memory of C76. Exact real arithmetic; the random numbers are the infinite product of uniform measures on [0,1). Symbols of the table are characters whose encodings are told apart by their beginnings (as in UTF-8). The service as for C81.")
claim("C83", "proved", sy("C83_kbest"), "What should be printed is Likeliest in System/ChanceSpec.lean. Exact real arithmetic; std::sort by its contract on numbers. The service as for C81. The out-of-bounds access for larger k is part of the theorem.")
claim("C84", "proved", sy("C84_table", "C84_server", "C84_shares"), "The table, and what requests should make of it, are in System/PairSpec.lean. Any arithmetic; the shares (C84_shares) in exact real arithmetic. Without room in the state table a text is still counted once, but after a character that is not stated (Adds).")
claim("C85", "proved", sv("C85_serial", "C85_one_outcome", "C85_own_handler", "C85_reach", "C85_shutdown", "C85_comes_to_rest", "C85_all_handled", "C85_eventually") + sy("C85_handlers", "C85_service"), "The service is modelled in Server/Service.lean (life cycle, handlers, clients and network together), the specification is Explains in Server/ServiceSpec.lean. gRPC is its contract: a request is delivered at most once, an answer to the client that asked. C85_all_handled and C85_eventually for handlers that do not fail, which C85_handlers gives for the loaded models (with Bayesian history: for updates at existing states). That the server comes to rest assumes a scheduler that runs its threads.")
claim("C86", "proved", sy("C86_counted_once", "C86_next_reply", "C86_read_your_writes", "C86_failed_false"), "What should be counted is in System/ServiceSpec.lean, on the tables of C84. Any arithmetic. Loaded models as for C72.")
claim("C87", "proved", sv("C87_linear", "C87_names") + sy("C87_book"), "The order is Linear in Server/LinearSpec.lean, about what was sent and got only; the answers are Book.gives in System/LinearSpec.lean, on the book of C80. The service as for C85. C87_book in exact arithmetic, the PPM component alone being mixed. That the texts fit is RoomFor: one more than twice the symbols of the requests sent.")
claim("C88", "proved", h("C88_weights", "C88_average", "C88_bayes") + sy("C88_counts", "C88_server", "C88_bigrams") + bg("C88_bigram"), "Arithmetic with rounding is Rounding in Verif/Rounding.lean: an absolute error for costs (NegLogSum and NegLogDiff as one operation each), a relative one for plain numbers, flags as NaN, exact comparisons; binary64 and fixed64 in Verif/Binary64.lean are instances. How accurate the components other than bigram models are is not bounded: for them only that the probabilities add up to one. The single-model and mixed replies both.")
claim("C89", "proved", pp("C89_saves", "C89_report", "C89_reopen", "C89_exact", "C89_vocabulary", "C89_sorted_file", "C89_saved_sorted"), "Any arithmetic that meets the laws of counts (exact: C89_exact lifts the condition on the order of arcs). The file is the automaton with its symbols (OpenFst's Write and Read are the identity on them).")
claim("C90", "proved", pp("C90_bound", "C90_safe", "C90_overflow_false"), "Any arithmetic. Proved in the true form, with a refutation of the expected one. The counter is unbounded in the model; C90_safe says when that makes no difference.")
claim("C91", "proved", pp("C91_accuracy", "C91_parameters", "C91_file", "C91_million"), "Rounding as in C88 (each operation within an absolute error for costs, a relative one for plain numbers; flags as NaN). The exact model is the one of C22 and C23. Totals of contexts bound the error; observations bounds them by the calls made. Options outside (0, 1), which are replaced by quotients, are covered where the quotients are exact (hypotheses on initParameters).")

claim("C92", "proved", ng("C92_read", "C92_accuracy", "C92_distribution", "C92_thousand"), "Rounding as in C88. Deep bounds the number of backoff steps (the order less one), Ends says that every string may end: every backoff weight and the final weight of every state without backoff is finite (without it all costs at a state could be infinite and the shares undefined).")
claim("C93", "proved", sy("C93_service", "C93_vocabulary", "C93_bigram", "C93_char", "C93_million"), "Rounding as in C88. Mates says what the two servers are given as a component; AnswersMatch what the answers have in common. Word models are not covered. Where the server without rounding answers an undefined value (a mixture in which every cost is infinite) nothing is claimed about the value with rounding.")
claim("C94", "proved", wd("C94_bound", "C94_safe", "C94_depth", "C94_overflow_false"), "Any arithmetic. Proved in the true form, with a refutation of the expected one. The counter is unbounded in the model; C94_safe says when that makes no difference.")
claim("C95", "proved", wd("C95_states"), "Any arithmetic. The bound counts a first word for every prefix length; distinct prefixes with the same first word and length are the same prefix.")
claim("C96", "proved", sy("C96_bits", "C96_learnt", "C96_unique", "C96_ends"), "What the file should cost is in System/PairCodeSpec.lean, on the tables of C84. Exact real arithmetic with real logarithms; the client and service as for C81. The bigram component is the first and is mixed alone (no mixture, or fewer than two weights).")
claim("C97", "proved", sy("C97_chain", "C97_kbest"), "Exact real arithmetic; the random numbers are the infinite product of uniform measures on [0,1). The replies are those of the handlers of Server/Handlers.lean over any components (System/OfferedSpec.lean); one client, perfect transport. std::sort by its contract on numbers (C97_chain: any rearrangement).")
claim("C98", "proved", sy("C98_generation", "C98_unique"), "What should be generated is in System/PairChanceSpec.lean, on the tables of C84. As for C97; loaded models as for C72. Room in the state table is needed for the given characters only.")
claim("C99", "proved", sy("C99_scores", "C99_update"), "Any arithmetic the loaded models have. Loaded models as for C72; characters are non-negative. Room: the directory of C79 fits max_hub_states.")
claim("C100", "proved", sy("C100_generation", "C100_kbest"), "How probable a text should be is in System/WeighedSpec.lean. Exact real arithmetic, random numbers and sort as for C97. Models for which C75_components holds and which do not learn (Fixed).")
claim("C101", "proved", sy("C101_generation", "C101_kbest"), "What should be generated is in NGram/TextSpec.lean. Exact real arithmetic, random numbers and sort as for C97. The table (Telling): epsilon first, labels and strings not twice, no label -1, symbols not empty and none beginning another one; at every state something can follow. The start state used is state 0 (C59).")
claim("C102", "proved", sy("C102_generation", "C102_kbest"), "What should be generated is in Word/TextSpec.lean. Exact real arithmetic, random numbers and sort as for C97. Words of probability 0 are left out (their prefixes may weigh nothing, see C32). The limit of 128 is counted in characters of the model (bytes in the code: the same for ASCII vocabularies). The starting text of generation ends between words; that of k-best anywhere but in an unknown word.")
claim("C103", "proved", sy("C103_bits", "C103_char", "C103_char_total", "C103_word"), "What should be measured is in System/MeasuredSpec.lean. Exact real arithmetic; the file is given as lists of characters as the client splits it. C103_bits and C103_word also state when the measurement fails. Texts at which a word model gives every continuation weight 0 are left out.")
claim("C104", "proved", sy("C104_states", "C104_mixture", "C104_adaptive"), "Replies of a server (answered, refused, directed) and the mixture of replies are in System/TogetherSpec.lean. Probabilities in exact real arithmetic; C104_states for any arithmetic.")
claim("C105", "proved", sy("C105_candidates", "C105_fresh", "C105_run", "C105_bigram"), "Ranked is in System/ExampleSpec.lean. Exact real arithmetic. C105_bigram also shows when fewer than five are shown; Props/ExampleDemo.lean has a server for either case.")
claim("C106", "proved", cl("C106_configured", "C106_nothing_sent", "C106_exit", "C106_generation", "C106_kbest", "C106_bits", "C106_undefined") + sy("C106_waits", "C106_kbest_learner", "C106_bits_learner"), "Waits and the printed lines are in Client/ProgramSpec.lean. The number formats are parameters of the program.")
claim("C107", "proved", rl("C107_same", "C107_characters", "C107_server", "C107_lost", "C107_tool"), "Restated: the unconditional claim depends on what RelabelSymbolTable does with symbols that have no new label (keepUnmapped); C107_lost refutes it for a table of the pairs only. The library's verdicts on the two automata (canonical, normalized) are taken to be the same. Any arithmetic.")
claim("C108", "proved", sv("C108_interchange"), "What it is to answer alike is in Hub/MimicSpec.lean; Indistinct in Props/Interchange.lean. Any arithmetic; requests handled one at a time (C39).")
claim("C109", "proved", sy("C109_serves", "C109_exits", "C109_dies", "C109_service", "C109_default", "C109_bigrams", "C109_text", "C109_ppm_false"), "Loads, Refuses, Kills and Fine are in System/StartupSpec.lean. The file system and the readers of OpenFst and OpenGrm are functions of the file name (Disk). Any arithmetic; C109_text in exact arithmetic with the counter by its contract. The fates are given up to the point where the service runs; its end is C43 and C85. C109_service: the loader and the service are given enough steps for loops along backoff arcs.")
claim("C110", "proved", sy("C110_bits", "C110_kbest", "C110_fresh"), "Exact real arithmetic; the n-gram counter by its contract (C67); the number formats are parameters. One PPM model that learns, order at least 2. Room: max_hub_states (at least 10000) is not less than the characters requested before plus four times those of the corpus.")
claim("C111", "proved", sy("C111_characters", "C111_completes", "C111_run", "C111_vocabulary"), "Exact real arithmetic for the probabilities. protobuf-java is assumed to send a lone surrogate as a question mark. The literal text of the example is any text. C111_run and C111_vocabulary: one PPM model that learns, order at least 2, and a text of the Basic Multilingual Plane.")
claim("C112", "proved", pp("C112_memory", "C112_counts", "C112_more", "C112_order", "C112_training", "C112_copies") + sy("C112_server", "C112_server_counts", "C112_servers"), "Exact real arithmetic. The counter of OpenGrm by its contract (CounterOk). The file itself is the vocabulary, so that both models number the characters alike; for any other vocabulary C112_memory, C112_more and C112_server say the same up to the numbering. C112_server: one PPM model that learns.")
claim("C113", "proved", pp("C113_counts", "C113_saturates", "C113_no_more", "C113_totals", "vocabulary_totals", "C113_still", "C113_grid", "C113_rounding", "C113_float", "C113_stalls", "C113_exact"), "Any arithmetic in which the costs that counting reaches are finite and above beta (Counting; grid_counting shows it for costs on a grid, grid_full that counting stands still there). C113_grid has a uniform grid; C113_rounding and C113_float cover the finer one of floats at small costs, as any monotone rounding.")
