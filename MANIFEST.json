{
 "claims": [
  {
   "property": "C01",
   "status": "proved",
   "theorems": [
    "Mozolm.Hub.C01_table_bounded",
    "Mozolm.Hub.C01_next_valid",
    "Mozolm.Hub.C01_context_valid",
    "Mozolm.Hub.C01_no_fault"
   ],
   "note": "All component behaviours, configurations and call histories. C01_no_fault states the exact guard under which no undefined behaviour occurs."
  },
  {
   "property": "C02",
   "status": "proved",
   "theorems": [
    "Mozolm.Hub.C02_state_sym",
    "Mozolm.Hub.C02_invalid_sym"
   ],
   "note": ""
  },
  {
   "property": "C03",
   "status": "proved",
   "theorems": [
    "Mozolm.Hub.C03_next_stable",
    "Mozolm.Hub.C03_false"
   ],
   "note": "C03_false: the hypothesis is needed (id equal to the table size)."
  },
  {
   "property": "C04",
   "status": "proved",
   "theorems": [
    "Mozolm.Hub.C04_next_denotes",
    "Mozolm.Hub.C04_context_denotes"
   ],
   "note": "For histories without self-recycling, as the statement says; C05_false shows the need."
  },
  {
   "property": "C05",
   "status": "proved",
   "theorems": [
    "Mozolm.Hub.C05_cached_transition",
    "Mozolm.Hub.C05_cached_transition_linked",
    "Mozolm.Hub.C05_room_suffices",
    "Mozolm.Hub.C05_false"
   ],
   "note": ""
  },
  {
   "property": "C06",
   "status": "proved",
   "theorems": [
    "Mozolm.Hub.C06_start_permanent",
    "Mozolm.Hub.C06_start_sym"
   ],
   "note": ""
  },
  {
   "property": "C07",
   "status": "proved",
   "theorems": [
    "Mozolm.Hub.C07_context_compose",
    "Mozolm.Hub.C07_context_empty"
   ],
   "note": ""
  },
  {
   "property": "C08",
   "status": "proved",
   "theorems": [
    "Mozolm.Hub.C08_extract_invalid",
    "Mozolm.Hub.C08_update_invalid",
    "Mozolm.Hub.C08_update_invalid_returns",
    "Mozolm.Hub.C08_update_invalid_empty",
    "Mozolm.Hub.C08_update_invalid_false",
    "Mozolm.Hub.C08_update_beyond_false"
   ],
   "note": ""
  },
  {
   "property": "C09",
   "status": "proved",
   "theorems": [
    "Mozolm.Hub.C09_weights"
   ],
   "note": "Exact real arithmetic (Arith.xr): rounding not modelled."
  },
  {
   "property": "C10",
   "status": "proved",
   "theorems": [
    "Mozolm.Hub.C10_bayesian_weights"
   ],
   "note": "Exact real arithmetic; static components, histories without self-recycling."
  },
  {
   "property": "C11",
   "status": "proved",
   "theorems": [
    "Mozolm.Hub.C11_distribution"
   ],
   "note": "Exact real arithmetic."
  },
  {
   "property": "C12",
   "status": "proved",
   "theorems": [
    "Mozolm.Hub.C12_weighted_average"
   ],
   "note": "Exact real arithmetic."
  },
  {
   "property": "C13",
   "status": "proved",
   "theorems": [
    "Mozolm.Hub.C13_history_is_last_costs"
   ],
   "note": ""
  },
  {
   "property": "C14",
   "status": "proved",
   "theorems": [
    "Mozolm.Hub.C14_hub_nonpositive_noop",
    "Mozolm.Bigram.C14_bigram_nonpositive_noop",
    "Mozolm.Ppm.C14_ppm_nonpositive_noop",
    "Mozolm.NGram.C28_ngram_static"
   ],
   "note": "Hub, bigram, PPM; the n-gram models ignore every update (C28_ngram_static)."
  },
  {
   "property": "C15",
   "status": "proved",
   "theorems": [
    "Mozolm.Bigram.C15_normaliser_is_row_sum"
   ],
   "note": ""
  },
  {
   "property": "C16",
   "status": "proved",
   "theorems": [
    "Mozolm.Bigram.C16_scores_are_distribution"
   ],
   "note": "Exact real arithmetic."
  },
  {
   "property": "C17",
   "status": "proved",
   "theorems": [
    "Mozolm.Bigram.C17_counts_are_observations",
    "Mozolm.Bigram.C17_only_overflow"
   ],
   "note": ""
  },
  {
   "property": "C18",
   "status": "proved",
   "theorems": [
    "Mozolm.Bigram.C18_updates_commute"
   ],
   "note": ""
  },
  {
   "property": "C19",
   "status": "proved",
   "theorems": [
    "Mozolm.Bigram.C19_read_accepts_described",
    "Mozolm.Bigram.C19_crashes_exactly",
    "Mozolm.Bigram.C19_no_fault",
    "Mozolm.Bigram.C19_vocab_file",
    "Mozolm.Bigram.C19_count_file",
    "Mozolm.Bigram.C19_lines",
    "Mozolm.Bigram.C19_fields",
    "Mozolm.Bigram.C19_number",
    "Mozolm.Bigram.C19_extra_row_false",
    "Mozolm.Bigram.C19_empty_vocab_false",
    "Mozolm.Bigram.C19_non_numeric_false",
    "Mozolm.Bigram.C19_largest_symbol_false"
   ],
   "note": ""
  },
  {
   "property": "C20",
   "status": "proved",
   "theorems": [
    "Mozolm.Bigram.C20_next_state",
    "Mozolm.Bigram.C20_state_sym",
    "Mozolm.Bigram.C20_context_last_symbol"
   ],
   "note": ""
  },
  {
   "property": "C21",
   "status": "proved",
   "theorems": [
    "Mozolm.Bigram.Threads.C21_every_answer_is_sequential",
    "Mozolm.Bigram.Threads.C21_program_order",
    "Mozolm.Bigram.Threads.C21_memory_is_sequential",
    "Mozolm.Bigram.Threads.C21_no_deadlock",
    "Mozolm.Bigram.Threads.C21_every_schedule_ends"
   ],
   "note": "Sequentially consistent memory; writer-preferring locks also covered by C21_no_deadlock."
  },
  {
   "property": "C22",
   "status": "proved",
   "theorems": [
    "Mozolm.Ppm.C22_totals",
    "Mozolm.Ppm.C22_vocabulary",
    "Mozolm.Ppm.C22_automaton"
   ],
   "note": "Exact real arithmetic."
  },
  {
   "property": "C23",
   "status": "proved",
   "theorems": [
    "Mozolm.Ppm.C23_scores",
    "Mozolm.Ppm.C23_symbol_score",
    "Mozolm.Ppm.Prob.unique"
   ],
   "note": "Exact real arithmetic; alpha and beta not NaN. The formula is the relation Prob in Ppm/NumSpec.lean."
  },
  {
   "property": "C24",
   "status": "proved",
   "theorems": [
    "Mozolm.Ppm.C24_size_unobservable",
    "Mozolm.Ppm.C24_answers_fresh"
   ],
   "note": "Any arithmetic."
  },
  {
   "property": "C25",
   "status": "proved",
   "theorems": [
    "Mozolm.Ppm.C25_cache_bounded",
    "Mozolm.Ppm.C25_lookup_succeeds"
   ],
   "note": "Any arithmetic; the access counter does not overflow."
  },
  {
   "property": "C26",
   "status": "proved",
   "theorems": [
    "Mozolm.Ppm.C26_update_succeeds",
    "Mozolm.Ppm.C26_no_fault"
   ],
   "note": "Any arithmetic satisfying CountLaws."
  },
  {
   "property": "C27",
   "status": "proved",
   "theorems": [
    "Mozolm.Ppm.C27_update_exclusion",
    "Mozolm.Ppm.C27_unknown_ignored"
   ],
   "note": "Any arithmetic."
  },
  {
   "property": "C28",
   "status": "proved",
   "theorems": [
    "Mozolm.Ppm.C28_ppm_static",
    "Mozolm.NGram.C28_ngram_static"
   ],
   "note": ""
  },
  {
   "property": "C29",
   "status": "proved",
   "theorems": [
    "Mozolm.Word.C29_meaning",
    "Mozolm.Word.C29_zero",
    "Mozolm.Word.C29_stable",
    "Mozolm.Word.C29_same_key",
    "Mozolm.Word.C29_distinct",
    "Mozolm.Word.C29_answered",
    "Mozolm.Word.C29_of_model"
   ],
   "note": ""
  },
  {
   "property": "C30",
   "status": "proved",
   "theorems": [
    "Mozolm.Word.C30_inverse",
    "Mozolm.Word.C30_unknown",
    "Mozolm.Word.C30_unknown_false"
   ],
   "note": "Dense symbol tables; the part about <unk> is refuted and replaced by what holds."
  },
  {
   "property": "C31",
   "status": "proved",
   "theorems": [
    "Mozolm.Word.C31_exact",
    "Mozolm.Word.C31_all_words",
    "Mozolm.Word.C31_typing"
   ],
   "note": "Vocabularies without <unk> or with it as last label; words without spaces."
  },
  {
   "property": "C32",
   "status": "proved",
   "theorems": [
    "Mozolm.Word.C32_marginals",
    "Mozolm.Word.C32_probabilities",
    "Mozolm.Word.C32_unknown",
    "Mozolm.Word.C32_no_state",
    "Mozolm.Word.C32_score"
   ],
   "note": "Exact real arithmetic. Vocabularies as for C31; at most one arc per word in a state; <unk> not on a non-final state without backoff (its weight would be taken for the end of the text)."
  },
  {
   "property": "C33",
   "status": "proved",
   "theorems": [
    "Mozolm.Word.C33_transparent",
    "Mozolm.Word.C33_transparent_score",
    "Mozolm.Word.C33_afresh",
    "Mozolm.Word.C33_bounded",
    "Mozolm.Word.C33_repeatable"
   ],
   "note": "Vocabularies as for C31, arc labels in the symbol table; every history of NextState, ExtractLMScores and SymLMScore."
  },
  {
   "property": "C34",
   "status": "proved",
   "theorems": [
    "Mozolm.NGram.C34_longest_match",
    "Mozolm.NGram.C34_end_of_string",
    "Mozolm.NGram.C34_next_valid",
    "Mozolm.NGram.C34_cost_is_sum"
   ],
   "note": "OpenFst's matcher is modelled by its contract. C34_cost_is_sum over exact reals."
  },
  {
   "property": "C35",
   "status": "proved",
   "theorems": [
    "Mozolm.NGram.C35_distribution"
   ],
   "note": "Exact real arithmetic."
  },
  {
   "property": "C36",
   "status": "proved",
   "theorems": [
    "Mozolm.NGram.C36_unknown_takes_backoff",
    "Mozolm.NGram.C36_false"
   ],
   "note": "Rests on the OpenFst matcher contract for label -1."
  },
  {
   "property": "C37",
   "status": "proved",
   "theorems": [
    "Mozolm.Server.C37_invalid_refused",
    "Mozolm.Server.C37_only_invalid_refused",
    "Mozolm.Server.C37_false",
    "Mozolm.Server.C37_update_false"
   ],
   "note": "The claim in its restricted form; the int64 form is refuted."
  },
  {
   "property": "C38",
   "status": "proved",
   "theorems": [
    "Mozolm.Server.C38_pending_exact",
    "Mozolm.Server.C38_pending_nonneg",
    "Mozolm.Server.C38_pending_idle",
    "Mozolm.Server.C38_no_double_free",
    "Mozolm.Server.C38_freed_once",
    "Mozolm.Server.C38_one_reply",
    "Mozolm.Server.C38_answered_idle"
   ],
   "note": "gRPC's completion-queue contract is modelled by environment steps."
  },
  {
   "property": "C39",
   "status": "proved",
   "theorems": [
    "Mozolm.Server.C39_no_reply_after_shutdown",
    "Mozolm.Server.C39_all_answered_at_queue_shutdown",
    "Mozolm.Server.C39_false",
    "Mozolm.Server.C39_false_idle_server"
   ],
   "note": ""
  },
  {
   "property": "C40",
   "status": "proved",
   "theorems": [
    "Mozolm.Server.C40_no_new_call",
    "Mozolm.Server.C40_nothing_left",
    "Mozolm.Server.C40_no_arrival"
   ],
   "note": ""
  },
  {
   "property": "C41",
   "status": "proved",
   "theorems": [
    "Mozolm.Client.C41_first_to_reach",
    "Mozolm.Client.C41_interval",
    "Mozolm.Client.C41_proportional",
    "Mozolm.Client.C41_zero_never"
   ],
   "note": "Position theorem for every arithmetic; proportionality over exact reals (Lebesgue measure of the thresholds)."
  },
  {
   "property": "C42",
   "status": "proved",
   "theorems": [
    "Mozolm.Client.C42_generation",
    "Mozolm.Client.C42_no_fault"
   ],
   "note": "Server, network and random source arbitrary."
  },
  {
   "property": "C43",
   "status": "proved",
   "theorems": [
    "Mozolm.Client.C43_k_most_likely",
    "Mozolm.Client.C43_false"
   ],
   "note": "C43_false: out-of-bounds access for every k above the number of scores."
  },
  {
   "property": "C44",
   "status": "proved",
   "theorems": [
    "Mozolm.Scores.C44_all",
    "Mozolm.Scores.C44_top_n",
    "Mozolm.Scores.C44_equal_refused",
    "Mozolm.Scores.C44_zero_false",
    "Mozolm.Scores.C44_bad_response"
   ],
   "note": ""
  },
  {
   "property": "C45",
   "status": "proved",
   "theorems": [
    "Mozolm.Scores.C45_softmax",
    "Mozolm.Scores.C45_all_infinite",
    "Mozolm.Scores.C45_empty_ub"
   ],
   "note": "Exact real arithmetic."
  },
  {
   "property": "C46",
   "status": "proved",
   "theorems": [
    "Mozolm.Relabel.C46_codepoints",
    "Mozolm.Relabel.C46_kept",
    "Mozolm.Relabel.C46_distinct",
    "Mozolm.Relabel.C46_not_epsilon",
    "Mozolm.Relabel.C46_fails_iff",
    "Mozolm.Relabel.C46_accepts",
    "Mozolm.Relabel.C46_sorted",
    "Mozolm.Relabel.C46_automaton",
    "Mozolm.Relabel.C46_false"
   ],
   "note": "OpenFst's Relabel is modelled by its contract."
  },
  {
   "property": "C47",
   "status": "proved",
   "theorems": [
    "Mozolm.Config.C47_server_tls",
    "Mozolm.Config.C47_client_tls",
    "Mozolm.Config.C47_insecure_iff",
    "Mozolm.Config.C47_client_flag",
    "Mozolm.Config.C47_server_flag",
    "Mozolm.Config.C47_false",
    "Mozolm.Config.C47_server_flag_ignored"
   ],
   "note": "gRPC's credential objects are the records of options they were built from."
  },
  {
   "property": "C48",
   "status": "proved",
   "theorems": [
    "Mozolm.Config.C48_defaults",
    "Mozolm.Config.C48_flag_wins",
    "Mozolm.Config.C48_false"
   ],
   "note": ""
  },
  {
   "property": "C49",
   "status": "proved",
   "theorems": [
    "Mozolm.Server.C49_refused_changes_nothing",
    "Mozolm.Server.C49_valid_not_refused",
    "Mozolm.Server.C49_invalid_state_changes_nothing",
    "Mozolm.Server.C49_false"
   ],
   "note": ""
  },
  {
   "property": "C50",
   "status": "proved",
   "theorems": [
    "Mozolm.Client.C50_bits_finite",
    "Mozolm.Client.C50_bits_exact",
    "Mozolm.Client.C50_average_finite",
    "Mozolm.Client.C50_empty_file_false"
   ],
   "note": "Exact real arithmetic."
  },
  {
   "property": "C51",
   "status": "proved",
   "theorems": [
    "Mozolm.Server.C51_counts_at_requested_state",
    "Mozolm.Server.C51_counts_until_recycled",
    "Mozolm.Server.C51_counts_at_start",
    "Mozolm.Server.C51_counts_once",
    "Mozolm.Server.C51_false"
   ],
   "note": ""
  },
  {
   "property": "C52",
   "status": "proved",
   "theorems": [
    "Mozolm.Server.C52_scores_of_next_state",
    "Mozolm.Server.C52_next_state_repeatable",
    "Mozolm.Server.C52_repeat_false"
   ],
   "note": ""
  },
  {
   "property": "C53",
   "status": "proved",
   "theorems": [
    "Mozolm.Config.C53_builds",
    "Mozolm.Config.C53_fails_iff",
    "Mozolm.Config.C53_total",
    "Mozolm.Config.C53_first_only"
   ],
   "note": ""
  },
  {
   "property": "C54",
   "status": "proved",
   "theorems": [
    "Mozolm.Server.C54_states_follow_components"
   ],
   "note": ""
  },
  {
   "property": "C55",
   "status": "proved",
   "theorems": [
    "Mozolm.Server.C55_only_component_states"
   ],
   "note": ""
  },
  {
   "property": "C56",
   "status": "proved",
   "theorems": [
    "Mozolm.Server.C56_shutdown_terminates",
    "Mozolm.Server.C56_shutdown_clean",
    "Mozolm.Server.C56_wait_never_blocks"
   ],
   "note": "gRPC's contract is modelled by environment steps; termination assumes Shutdown is not called again and again."
  },
  {
   "property": "C57",
   "status": "proved",
   "theorems": [
    "Mozolm.Client.C42_generation"
   ],
   "note": "The transcript part of C42_generation."
  },
  {
   "property": "C58",
   "status": "proved",
   "theorems": [
    "Mozolm.Config.C58_as_configured",
    "Mozolm.Config.C58_refused",
    "Mozolm.Config.C58_runServer",
    "Mozolm.Config.C58_flags_fail",
    "Mozolm.Config.C58_flags",
    "Mozolm.Config.C58_flags_serve",
    "Mozolm.Config.C58_false"
   ],
   "note": ""
  },
  {
   "property": "C59",
   "status": "proved",
   "theorems": [
    "Mozolm.NGram.C59_iff",
    "Mozolm.NGram.C59_false"
   ],
   "note": ""
  },
  {
   "property": "C60",
   "status": "proved",
   "theorems": [
    "Mozolm.NGram.C60_read"
   ],
   "note": ""
  },
  {
   "property": "C61",
   "status": "proved",
   "theorems": [
    "Mozolm.Ppm.C61_fresh_uniform"
   ],
   "note": "Exact real arithmetic."
  },
  {
   "property": "C62",
   "status": "proved",
   "theorems": [
    "Mozolm.Ppm.C62_update_raises"
   ],
   "note": "Exact real arithmetic."
  },
  {
   "property": "C63",
   "status": "proved",
   "theorems": [
    "Mozolm.Word.C31_typing",
    "Mozolm.Word.C31_text",
    "Mozolm.Word.C31_total",
    "Mozolm.Word.C31_no_fault"
   ],
   "note": "Vocabularies as for C31; symbol -1 inside a word excluded."
  },
  {
   "property": "C64",
   "status": "proved",
   "theorems": [
    "Mozolm.Word.C64_loads"
   ],
   "note": ""
  },
  {
   "property": "C65",
   "status": "proved",
   "theorems": [
    "Mozolm.Word.C65_scores",
    "Mozolm.Word.C65_next_state",
    "Mozolm.Word.C65_uniform_false"
   ],
   "note": "Proved in the true form, with a refutation of the expected one."
  },
  {
   "property": "C66",
   "status": "proved",
   "theorems": [
    "Mozolm.Word.C66_times",
    "Mozolm.Word.C66_used",
    "Mozolm.Word.C66_evicts"
   ],
   "note": ""
  },
  {
   "property": "C67",
   "status": "proved",
   "theorems": [
    "Mozolm.Ppm.C67_training",
    "Mozolm.Ppm.C67_reserved",
    "Mozolm.Ppm.C67_order_one",
    "Mozolm.Ppm.C67_no_lines",
    "Mozolm.Ppm.C67_blank_lines"
   ],
   "note": "Exact real arithmetic; OpenGrm's n-gram counter by its contract CounterOk (a counter that keeps it is constructed)."
  },
  {
   "property": "C68",
   "status": "proved",
   "theorems": [
    "Mozolm.Ppm.C68_text_probabilities"
   ],
   "note": "Exact real arithmetic; hypotheses are what C67_training gives."
  },
  {
   "property": "C69",
   "status": "proved",
   "theorems": [
    "Mozolm.Ppm.C69_next",
    "Mozolm.Ppm.C69_typed"
   ],
   "note": "Exact real arithmetic; hypotheses are what C67_training gives."
  },
  {
   "property": "C70",
   "status": "proved",
   "theorems": [
    "Mozolm.Hub.C70_needs_every_component",
    "Mozolm.Hub.C70_single",
    "Mozolm.Hub.C70_normalization"
   ],
   "note": "The normalisation at exact real arithmetic."
  },
  {
   "property": "C71",
   "status": "proved",
   "theorems": [
    "Mozolm.Server.C71_one_at_a_time",
    "Mozolm.Server.C71_taken_up_alone"
   ],
   "note": "gRPC's contract as listed in Server/Lifecycle.lean; one thread calls Run."
  },
  {
   "property": "C72",
   "status": "proved",
   "theorems": [
    "Mozolm.System.C72_components_never_fail",
    "Mozolm.System.C72_calls_complete",
    "Mozolm.System.C72_answers",
    "Mozolm.System.C72_no_overflow",
    "Mozolm.System.C72_service",
    "Mozolm.System.C72_update_service"
   ],
   "note": "n-gram automata: arcs lead to states, backoff arcs not in circles; word models as for C33; PPM vocabulary not empty."
  },
  {
   "property": "C73",
   "status": "proved",
   "theorems": [
    "Mozolm.System.C73_hub",
    "Mozolm.System.C73_service",
    "Mozolm.System.C73_as_fresh"
   ],
   "note": "Loaded models as for C72. State buffer: 1 + symbols sent (three times for updates) at most max_hub_states, or (C73_hub) no state took its own place."
  },
  {
   "property": "C74",
   "status": "proved",
   "theorems": [
    "Mozolm.System.C74_single",
    "Mozolm.System.C74_mixture",
    "Mozolm.System.C74_adaptive",
    "Mozolm.System.C74_trained"
   ],
   "note": "Exact real arithmetic for mixtures. Loaded models as for C72; state buffer as for C73. Voices (C74_mixture: what a component says on its own, as probabilities) always exist for bigram and PPM models (C74_adaptive)."
  },
  {
   "property": "C75",
   "status": "proved",
   "theorems": [
    "Mozolm.Hub.C75_refreshed",
    "Mozolm.Hub.C75_text",
    "Mozolm.Hub.C75_from_start",
    "Mozolm.Hub.C75_weights",
    "Mozolm.System.C75_components"
   ],
   "note": "C75_refreshed for any components; C75_text, C75_from_start and C75_weights for components whose costs queries do not change (C75_components: all loaded bigram, PPM, character and word models have this). The weights at exact real arithmetic. The counted text fits the state buffer."
  },
  {
   "property": "C76",
   "status": "proved",
   "theorems": [
    "Mozolm.Ppm.C76_history",
    "Mozolm.Ppm.C76_text",
    "Mozolm.Ppm.C76_vocabulary",
    "Mozolm.Ppm.C76_asking",
    "Mozolm.Ppm.C76_learner"
   ],
   "note": "The table and what calls do to it are in Ppm/MemorySpec.lean and Ppm/Calls.lean, without the automaton. Exact arithmetic; training under the contract of the OpenGrm counter; calls after a text go through ContextState from the start state."
  },
  {
   "property": "C77",
   "status": "proved",
   "theorems": [
    "Mozolm.System.C77_memory",
    "Mozolm.System.C77_strings",
    "Mozolm.System.C77_server",
    "Mozolm.System.C77_room"
   ],
   "note": "The memory is that of C76 (Ppm/MemorySpec.lean), what requests do to it and what the replies should be is in System/MemorySpec.lean. Exact arithmetic. A text asked about earlier keeps the context it had then until it is taught, so the reply is that of a known context of the text, not always the longest; along the text of an update it is the longest."
  },
  {
   "property": "C78",
   "status": "proved",
   "theorems": [
    "Mozolm.System.C78_session"
   ],
   "note": "The client is modelled in System/Session.lean after updateModel of VocabOnlyModelClientExample.java, which throws on an error status; texts are lists of code points."
  },
  {
   "property": "C79",
   "status": "proved",
   "theorems": [
    "Mozolm.Server.C79_directory",
    "Mozolm.Server.C79_ids",
    "Mozolm.Server.C79_full"
   ],
   "note": "The directory is in Server/DirectorySpec.lean. Symbols are characters (non-negative). directory_room bounds the room by the symbols sent."
  },
  {
   "property": "C80",
   "status": "proved",
   "theorems": [
    "Mozolm.System.C80_memory",
    "Mozolm.System.C80_replies",
    "Mozolm.System.C80_ids",
    "Mozolm.System.C80_asking_false"
   ],
   "note": "The book is in System/BookSpec.lean. Exact arithmetic. Non-negative symbols. C80_memory: any components beside it; C80_replies: the PPM component alone is mixed."
  },
  {
   "property": "C81",
   "status": "proved",
   "theorems": [
    "Mozolm.System.C81_bits",
    "Mozolm.System.C81_learnt",
    "Mozolm.System.C81_unique"
   ],
   "note": "What the file should cost is in System/CodeSpec.lean, on the memory of C76. Exact real arithmetic with real logarithms. The client of Client/Model.lean in front of the server of Server/Handlers.lean (System/Client.lean): one client, perfect transport. The encoding of characters is a parameter whose decoding gives the character back."
  },
  {
   "property": "C82",
   "status": "proved",
   "theorems": [
    "Mozolm.System.C82_generation"
   ],
   "note": "How probable a text should be is in System/ChanceSpec.lean, on the memory of C76. Exact real arithmetic; the random numbers are the infinite product of uniform measures on [0,1). Symbols of the table are characters whose encodings are told apart by their beginnings (as in UTF-8). The service as for C81."
  },
  {
   "property": "C83",
   "status": "proved",
   "theorems": [
    "Mozolm.System.C83_kbest"
   ],
   "note": "What should be printed is Likeliest in System/ChanceSpec.lean. Exact real arithmetic; std::sort by its contract on numbers. The service as for C81. The out-of-bounds access for larger k is part of the theorem."
  },
  {
   "property": "C84",
   "status": "proved",
   "theorems": [
    "Mozolm.System.C84_table",
    "Mozolm.System.C84_server",
    "Mozolm.System.C84_shares"
   ],
   "note": "The table, and what requests should make of it, are in System/PairSpec.lean. Any arithmetic; the shares (C84_shares) in exact real arithmetic. Without room in the state table a text is still counted once, but after a character that is not stated (Adds)."
  },
  {
   "property": "C85",
   "status": "proved",
   "theorems": [
    "Mozolm.Server.C85_serial",
    "Mozolm.Server.C85_one_outcome",
    "Mozolm.Server.C85_own_handler",
    "Mozolm.Server.C85_reach",
    "Mozolm.Server.C85_shutdown",
    "Mozolm.Server.C85_comes_to_rest",
    "Mozolm.Server.C85_all_handled",
    "Mozolm.Server.C85_eventually",
    "Mozolm.System.C85_handlers",
    "Mozolm.System.C85_service"
   ],
   "note": "The service is modelled in Server/Service.lean (life cycle, handlers, clients and network together), the specification is Explains in Server/ServiceSpec.lean. gRPC is its contract: a request is delivered at most once, an answer to the client that asked. C85_all_handled and C85_eventually for handlers that do not fail, which C85_handlers gives for the loaded models (with Bayesian history: for updates at existing states). That the server comes to rest assumes a scheduler that runs its threads."
  },
  {
   "property": "C86",
   "status": "proved",
   "theorems": [
    "Mozolm.System.C86_counted_once",
    "Mozolm.System.C86_next_reply",
    "Mozolm.System.C86_read_your_writes",
    "Mozolm.System.C86_failed_false"
   ],
   "note": "What should be counted is in System/ServiceSpec.lean, on the tables of C84. Any arithmetic. Loaded models as for C72."
  },
  {
   "property": "C87",
   "status": "proved",
   "theorems": [
    "Mozolm.Server.C87_linear",
    "Mozolm.Server.C87_names",
    "Mozolm.System.C87_book"
   ],
   "note": "The order is Linear in Server/LinearSpec.lean, about what was sent and got only; the answers are Book.gives in System/LinearSpec.lean, on the book of C80. The service as for C85. C87_book in exact arithmetic, the PPM component alone being mixed. That the texts fit is RoomFor: one more than twice the symbols of the requests sent."
  },
  {
   "property": "C88",
   "status": "proved",
   "theorems": [
    "Mozolm.Hub.C88_weights",
    "Mozolm.Hub.C88_average",
    "Mozolm.Hub.C88_bayes",
    "Mozolm.System.C88_counts",
    "Mozolm.System.C88_server",
    "Mozolm.System.C88_bigrams",
    "Mozolm.Bigram.C88_bigram"
   ],
   "note": "Arithmetic with rounding is Rounding in Verif/Rounding.lean: an absolute error for costs (NegLogSum and NegLogDiff as one operation each), a relative one for plain numbers, flags as NaN, exact comparisons; binary64 and fixed64 in Verif/Binary64.lean are instances. How accurate the components other than bigram models are is not bounded: for them only that the probabilities add up to one. The single-model and mixed replies both."
  },
  {
   "property": "C89",
   "status": "proved",
   "theorems": [
    "Mozolm.Ppm.C89_saves",
    "Mozolm.Ppm.C89_report",
    "Mozolm.Ppm.C89_reopen",
    "Mozolm.Ppm.C89_exact",
    "Mozolm.Ppm.C89_vocabulary",
    "Mozolm.Ppm.C89_sorted_file",
    "Mozolm.Ppm.C89_saved_sorted"
   ],
   "note": "Any arithmetic that meets the laws of counts (exact: C89_exact lifts the condition on the order of arcs). The file is the automaton with its symbols (OpenFst's Write and Read are the identity on them)."
  },
  {
   "property": "C90",
   "status": "proved",
   "theorems": [
    "Mozolm.Ppm.C90_bound",
    "Mozolm.Ppm.C90_safe",
    "Mozolm.Ppm.C90_overflow_false"
   ],
   "note": "Any arithmetic. Proved in the true form, with a refutation of the expected one. The counter is unbounded in the model; C90_safe says when that makes no difference."
  },
  {
   "property": "C91",
   "status": "proved",
   "theorems": [
    "Mozolm.Ppm.C91_accuracy",
    "Mozolm.Ppm.C91_parameters",
    "Mozolm.Ppm.C91_file",
    "Mozolm.Ppm.C91_million"
   ],
   "note": "Rounding as in C88 (each operation within an absolute error for costs, a relative one for plain numbers; flags as NaN). The exact model is the one of C22 and C23. Totals of contexts bound the error; observations bounds them by the calls made. Options outside (0, 1), which are replaced by quotients, are covered where the quotients are exact (hypotheses on initParameters)."
  },
  {
   "property": "C92",
   "status": "proved",
   "theorems": [
    "Mozolm.NGram.C92_read",
    "Mozolm.NGram.C92_accuracy",
    "Mozolm.NGram.C92_distribution",
    "Mozolm.NGram.C92_thousand"
   ],
   "note": "Rounding as in C88. Deep bounds the number of backoff steps (the order less one), Ends says that every string may end: every backoff weight and the final weight of every state without backoff is finite (without it all costs at a state could be infinite and the shares undefined)."
  },
  {
   "property": "C93",
   "status": "proved",
   "theorems": [
    "Mozolm.System.C93_service",
    "Mozolm.System.C93_vocabulary",
    "Mozolm.System.C93_bigram",
    "Mozolm.System.C93_char",
    "Mozolm.System.C93_million"
   ],
   "note": "Rounding as in C88. Mates says what the two servers are given as a component; AnswersMatch what the answers have in common. Word models are not covered. Where the server without rounding answers an undefined value (a mixture in which every cost is infinite) nothing is claimed about the value with rounding."
  },
  {
   "property": "C94",
   "status": "proved",
   "theorems": [
    "Mozolm.Word.C94_bound",
    "Mozolm.Word.C94_safe",
    "Mozolm.Word.C94_depth",
    "Mozolm.Word.C94_overflow_false"
   ],
   "note": "Any arithmetic. Proved in the true form, with a refutation of the expected one. The counter is unbounded in the model; C94_safe says when that makes no difference."
  },
  {
   "property": "C95",
   "status": "proved",
   "theorems": [
    "Mozolm.Word.C95_states"
   ],
   "note": "Any arithmetic. The bound counts a first word for every prefix length; distinct prefixes with the same first word and length are the same prefix."
  },
  {
   "property": "C96",
   "status": "proved",
   "theorems": [
    "Mozolm.System.C96_bits",
    "Mozolm.System.C96_learnt",
    "Mozolm.System.C96_unique",
    "Mozolm.System.C96_ends"
   ],
   "note": "What the file should cost is in System/PairCodeSpec.lean, on the tables of C84. Exact real arithmetic with real logarithms; the client and service as for C81. The bigram component is the first and is mixed alone (no mixture, or fewer than two weights)."
  },
  {
   "property": "C97",
   "status": "proved",
   "theorems": [
    "Mozolm.System.C97_chain",
    "Mozolm.System.C97_kbest"
   ],
   "note": "Exact real arithmetic; the random numbers are the infinite product of uniform measures on [0,1). The replies are those of the handlers of Server/Handlers.lean over any components (System/OfferedSpec.lean); one client, perfect transport. std::sort by its contract on numbers (C97_chain: any rearrangement)."
  },
  {
   "property": "C98",
   "status": "proved",
   "theorems": [
    "Mozolm.System.C98_generation",
    "Mozolm.System.C98_unique"
   ],
   "note": "What should be generated is in System/PairChanceSpec.lean, on the tables of C84. As for C97; loaded models as for C72. Room in the state table is needed for the given characters only."
  },
  {
   "property": "C99",
   "status": "proved",
   "theorems": [
    "Mozolm.System.C99_scores",
    "Mozolm.System.C99_update"
   ],
   "note": "Any arithmetic the loaded models have. Loaded models as for C72; characters are non-negative. Room: the directory of C79 fits max_hub_states."
  },
  {
   "property": "C100",
   "status": "proved",
   "theorems": [
    "Mozolm.System.C100_generation",
    "Mozolm.System.C100_kbest"
   ],
   "note": "How probable a text should be is in System/WeighedSpec.lean. Exact real arithmetic, random numbers and sort as for C97. Models for which C75_components holds and which do not learn (Fixed)."
  },
  {
   "property": "C101",
   "status": "proved",
   "theorems": [
    "Mozolm.System.C101_generation",
    "Mozolm.System.C101_kbest"
   ],
   "note": "What should be generated is in NGram/TextSpec.lean. Exact real arithmetic, random numbers and sort as for C97. The table (Telling): epsilon first, labels and strings not twice, no label -1, symbols not empty and none beginning another one; at every state something can follow. The start state used is state 0 (C59)."
  },
  {
   "property": "C102",
   "status": "proved",
   "theorems": [
    "Mozolm.System.C102_generation",
    "Mozolm.System.C102_kbest"
   ],
   "note": "What should be generated is in Word/TextSpec.lean. Exact real arithmetic, random numbers and sort as for C97. Words of probability 0 are left out (their prefixes may weigh nothing, see C32). The limit of 128 is counted in characters of the model (bytes in the code: the same for ASCII vocabularies). The starting text of generation ends between words; that of k-best anywhere but in an unknown word."
  },
  {
   "property": "C103",
   "status": "proved",
   "theorems": [
    "Mozolm.System.C103_bits",
    "Mozolm.System.C103_char",
    "Mozolm.System.C103_char_total",
    "Mozolm.System.C103_word"
   ],
   "note": "What should be measured is in System/MeasuredSpec.lean. Exact real arithmetic; the file is given as lists of characters as the client splits it. C103_bits and C103_word also state when the measurement fails. Texts at which a word model gives every continuation weight 0 are left out."
  },
  {
   "property": "C104",
   "status": "proved",
   "theorems": [
    "Mozolm.System.C104_states",
    "Mozolm.System.C104_mixture",
    "Mozolm.System.C104_adaptive"
   ],
   "note": "Replies of a server (answered, refused, directed) and the mixture of replies are in System/TogetherSpec.lean. Probabilities in exact real arithmetic; C104_states for any arithmetic."
  },
  {
   "property": "C105",
   "status": "proved",
   "theorems": [
    "Mozolm.System.C105_candidates",
    "Mozolm.System.C105_fresh",
    "Mozolm.System.C105_run",
    "Mozolm.System.C105_bigram"
   ],
   "note": "Ranked is in System/ExampleSpec.lean. Exact real arithmetic. C105_bigram also shows when fewer than five are shown; Props/ExampleDemo.lean has a server for either case."
  },
  {
   "property": "C106",
   "status": "proved",
   "theorems": [
    "Mozolm.Client.C106_configured",
    "Mozolm.Client.C106_nothing_sent",
    "Mozolm.Client.C106_exit",
    "Mozolm.Client.C106_generation",
    "Mozolm.Client.C106_kbest",
    "Mozolm.Client.C106_bits",
    "Mozolm.Client.C106_undefined",
    "Mozolm.System.C106_waits",
    "Mozolm.System.C106_kbest_learner",
    "Mozolm.System.C106_bits_learner"
   ],
   "note": "Waits and the printed lines are in Client/ProgramSpec.lean. The number formats are parameters of the program."
  },
  {
   "property": "C107",
   "status": "proved",
   "theorems": [
    "Mozolm.Relabel.C107_same",
    "Mozolm.Relabel.C107_characters",
    "Mozolm.Relabel.C107_server",
    "Mozolm.Relabel.C107_lost",
    "Mozolm.Relabel.C107_tool"
   ],
   "note": "Restated: the unconditional claim depends on what RelabelSymbolTable does with symbols that have no new label (keepUnmapped); C107_lost refutes it for a table of the pairs only. The library's verdicts on the two automata (canonical, normalized) are taken to be the same. Any arithmetic."
  },
  {
   "property": "C108",
   "status": "proved",
   "theorems": [
    "Mozolm.Server.C108_interchange"
   ],
   "note": "What it is to answer alike is in Hub/MimicSpec.lean; Indistinct in Props/Interchange.lean. Any arithmetic; requests handled one at a time (C39)."
  },
  {
   "property": "C109",
   "status": "proved",
   "theorems": [
    "Mozolm.System.C109_serves",
    "Mozolm.System.C109_exits",
    "Mozolm.System.C109_dies",
    "Mozolm.System.C109_service",
    "Mozolm.System.C109_default",
    "Mozolm.System.C109_bigrams",
    "Mozolm.System.C109_text",
    "Mozolm.System.C109_ppm_false"
   ],
   "note": "Loads, Refuses, Kills and Fine are in System/StartupSpec.lean. The file system and the readers of OpenFst and OpenGrm are functions of the file name (Disk). Any arithmetic; C109_text in exact arithmetic with the counter by its contract. The fates are given up to the point where the service runs; its end is C43 and C85. C109_service: the loader and the service are given enough steps for loops along backoff arcs."
  },
  {
   "property": "C110",
   "status": "proved",
   "theorems": [
    "Mozolm.System.C110_bits",
    "Mozolm.System.C110_kbest",
    "Mozolm.System.C110_fresh"
   ],
   "note": "Exact real arithmetic; the n-gram counter by its contract (C67); the number formats are parameters. One PPM model that learns, order at least 2. Room: max_hub_states (at least 10000) is not less than the characters requested before plus four times those of the corpus."
  },
  {
   "property": "C111",
   "status": "proved",
   "theorems": [
    "Mozolm.System.C111_characters",
    "Mozolm.System.C111_completes",
    "Mozolm.System.C111_run",
    "Mozolm.System.C111_vocabulary"
   ],
   "note": "Exact real arithmetic for the probabilities. protobuf-java is assumed to send a lone surrogate as a question mark. The literal text of the example is any text. C111_run and C111_vocabulary: one PPM model that learns, order at least 2, and a text of the Basic Multilingual Plane."
  },
  {
   "property": "C112",
   "status": "proved",
   "theorems": [
    "Mozolm.Ppm.C112_memory",
    "Mozolm.Ppm.C112_counts",
    "Mozolm.Ppm.C112_more",
    "Mozolm.Ppm.C112_order",
    "Mozolm.Ppm.C112_training",
    "Mozolm.Ppm.C112_copies",
    "Mozolm.System.C112_server",
    "Mozolm.System.C112_server_counts",
    "Mozolm.System.C112_servers"
   ],
   "note": "Exact real arithmetic. The counter of OpenGrm by its contract (CounterOk). The file itself is the vocabulary, so that both models number the characters alike; for any other vocabulary C112_memory, C112_more and C112_server say the same up to the numbering. C112_server: one PPM model that learns."
  },
  {
   "property": "C113",
   "status": "proved",
   "theorems": [
    "Mozolm.Ppm.C113_counts",
    "Mozolm.Ppm.C113_saturates",
    "Mozolm.Ppm.C113_no_more",
    "Mozolm.Ppm.C113_totals",
    "Mozolm.Ppm.vocabulary_totals",
    "Mozolm.Ppm.C113_still",
    "Mozolm.Ppm.C113_grid",
    "Mozolm.Ppm.C113_rounding",
    "Mozolm.Ppm.C113_float",
    "Mozolm.Ppm.C113_stalls",
    "Mozolm.Ppm.C113_exact"
   ],
   "note": "Any arithmetic in which the costs that counting reaches are finite and above beta (Counting; grid_counting shows it for costs on a grid, grid_full that counting stands still there). C113_grid has a uniform grid; C113_rounding and C113_float cover the finer one of floats at small costs, as any monotone rounding."
  }
 ]
}