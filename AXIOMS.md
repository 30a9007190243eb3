# Axioms of the property theorems

Output of `#print axioms` (lean/Verif/Audit.lean), written by tools/axioms.py.

| Theorem | Axioms |
|---|---|
| `C01_accepts_iff` | propext, Classical.choice, Quot.sound |
| `C01_accepts_in_order` | propext, Classical.choice, Quot.sound |
| `C01_insertString` | propext |
| `C02_rejection_has_no_effect` | propext, Classical.choice, Quot.sound |
| `C02_rejection_unobservable` | propext, Classical.choice, Quot.sound |
| `C03_reinsert_accepted` | propext |
| `C03_reinsert_overwrites` | propext, Classical.choice, Quot.sound |
| `C04_listing_sorted` | propext, Classical.choice, Quot.sound |
| `C04_sibling_labels_increase` | propext, Classical.choice, Quot.sound |
| `C04_walk_lists_accepted` | propext, Classical.choice, Quot.sound |
| `C05_number_of_states` | propext, Classical.choice, Quot.sound |
| `C05_states_differ` | propext, Classical.choice, Quot.sound |
| `C06_merging_iff` | propext, Classical.choice, Quot.sound |
| `C06_merging_is_state` | propext, Classical.choice, Quot.sound |
| `C06_number_of_merging` | propext, Classical.choice, Quot.sound |
| `C06_number_of_transitions` | propext, Classical.choice, Quot.sound |
| `C06_trie_counts` | propext, Classical.choice, Quot.sound |
| `C07_build_returns` | propext, Classical.choice, Quot.sound |
| `C08_size_zero_panics` | propext |
| `C08_table_size_unobservable` | propext, Classical.choice, Quot.sound |
| `C09_finish_empties_partial` | propext, Classical.choice, Quot.sound |
| `C09_reuse_panics` | propext, Classical.choice, Quot.sound |
| `C100_byte_order_false` | propext, Classical.choice, Quot.sound |
| `C100_equal_values_partial` | propext, Classical.choice, Quot.sound |
| `C101_same_result` | propext, Quot.sound |
| `C101_search_cost` | propext, Classical.choice, Quot.sound |
| `C101_search_units` | propext, Classical.choice, Quot.sound |
| `C102_dictionary` | propext, Quot.sound |
| `C102_guide` | propext, Quot.sound |
| `C102_index` | propext, Quot.sound |
| `C102_tool` | propext, Quot.sound |
| `C103_bounded_false` | propext, Classical.choice, Quot.sound |
| `C103_flood` | propext, Classical.choice, Quot.sound |
| `C103_quadratic` | propext, Classical.choice, Quot.sound |
| `C103_search` | propext, Quot.sound |
| `C103_worst_partial` | propext, Classical.choice, Quot.sound |
| `C104_dictionary` | propext, Classical.choice, Quot.sound |
| `C104_guide` | propext, Classical.choice, Quot.sound |
| `C104_index` | propext, Classical.choice, Quot.sound |
| `C104_needed` | propext, Classical.choice, Quot.sound |
| `C104_ranked` | propext, Classical.choice, Quot.sound |
| `C105_guide` | propext, Classical.choice, Quot.sound |
| `C105_index` | propext, Classical.choice, Quot.sound |
| `C105_ranked` | propext, Classical.choice, Quot.sound |
| `C105_rounds` | propext, Classical.choice, Quot.sound |
| `C105_same` | propext, Quot.sound |
| `C106_one_unit_each` | propext, Classical.choice, Quot.sound |
| `C106_shared` | propext, Classical.choice, Quot.sound |
| `C106_unused` | propext, Classical.choice, Quot.sound |
| `C107_blocks` | propext, Classical.choice, Quot.sound |
| `C107_blocks_used_partial` | propext, Classical.choice, Quot.sound |
| `C107_quarter_false` | propext, Classical.choice, Quot.sound |
| `C107_sparse` | propext, Classical.choice, Quot.sound |
| `C108_sorted_false` | propext, Classical.choice, Quot.sound |
| `C108_sorted_partial` | propext, Classical.choice, Quot.sound |
| `C108_sorted_utfc_partial` | propext, Classical.choice, Quot.sound |
| `C108_unsorted_partial` | propext, Classical.choice, Quot.sound |
| `C109_listing` | propext, Classical.choice, Quot.sound |
| `C109_same` | propext, Quot.sound |
| `C10_inserted_found` | propext, Classical.choice, Quot.sound |
| `C10_negative_value_found` | propext, Classical.choice, Quot.sound |
| `C10_nonnegative_value_found` | propext, Classical.choice, Quot.sound |
| `C110_any_number` | propext, Classical.choice, Quot.sound |
| `C110_false` | propext, Classical.choice, Quot.sound |
| `C110_partial` | propext, Classical.choice, Quot.sound |
| `C111_exact_partial` | propext, Quot.sound |
| `C111_false` | propext, Classical.choice, Quot.sound |
| `C111_used_partial` | propext, Classical.choice, Quot.sound |
| `C11_nothing_else_false` | propext, Classical.choice, Quot.sound |
| `C11_nothing_else_partial` | propext, Classical.choice, Quot.sound |
| `C12_prefixes_false` | propext, Classical.choice, Quot.sound |
| `C12_prefixes_followed_partial` | propext, Classical.choice, Quot.sound |
| `C12_prefixes_partial` | propext, Classical.choice, Quot.sound |
| `C13_find_panics` | propext, Classical.choice, Quot.sound |
| `C13_no_panic_false` | propext, Classical.choice, Quot.sound |
| `C13_no_panic_partial` | propext, Classical.choice, Quot.sound |
| `C14_build_total` | propext, Classical.choice, Quot.sound |
| `C14_small_builds` | propext, Classical.choice, Quot.sound |
| `C15_unused_exact` | propext, Classical.choice, Quot.sound |
| `C16_built_counterexample` | propext, Classical.choice, Quot.sound |
| `C16_built_partial` | propext, Classical.choice, Quot.sound |
| `C16_containsString_decides_partial` | propext, Quot.sound |
| `C16_findString_decides_partial` | propext, Quot.sound |
| `C16_literal_counterexample` | propext |
| `C17_len_variants` | propext, Quot.sound |
| `C18_count_is_longest_prefix` | propext, Classical.choice, Quot.sound |
| `C18_follow_append` | propext, Quot.sound |
| `C19_dictionary_roundtrip` | propext, Quot.sound |
| `C19_guide_roundtrip` | propext, Quot.sound |
| `C19_index_roundtrip` | propext, Quot.sound |
| `C19_stream_roundtrip` | propext, Quot.sound |
| `C20_file_size` | propext, Quot.sound |
| `C21_dictionary_truncated` | propext, Quot.sound |
| `C21_guide_truncated` | propext, Quot.sound |
| `C21_index_counterexample` | propext, Quot.sound |
| `C21_index_truncated_partial` | propext, Quot.sound |
| `C22_completions_false` | propext, Classical.choice, Quot.sound |
| `C22_completions_partial` | propext, Classical.choice, Quot.sound |
| `C23_exact_false` | propext, Classical.choice, Quot.sound |
| `C23_exact_partial` | propext, Classical.choice, Quot.sound |
| `C24_empty_key_repeats` | propext, Classical.choice, Quot.sound |
| `C24_ends_false` | propext, Classical.choice, Quot.sound |
| `C24_ends_partial` | propext, Classical.choice, Quot.sound |
| `C25_ranked_restart` | propext |
| `C25_restart` | propext, Quot.sound |
| `C26_guide` | propext, Classical.choice, Quot.sound |
| `C27_completions` | propext, Classical.choice, Quot.sound |
| `C27_ranked_guide` | propext, Classical.choice, Quot.sound |
| `C28_values_never_increase` | propext, Classical.choice, Quot.sound |
| `C29_agreeing_partial` | propext, Classical.choice, Quot.sound |
| `C29_best_first_partial` | propext, Classical.choice, Quot.sound |
| `C29_custom_order_false` | propext, Classical.choice, Quot.sound |
| `C29_exact_order_partial` | propext, Classical.choice, Quot.sound |
| `C30_counts_false` | propext, Classical.choice, Quot.sound |
| `C30_counts_partial` | propext, Classical.choice, Quot.sound |
| `C30_empty_panics` | propext, Classical.choice, Quot.sound |
| `C31_rank_false` | propext, Classical.choice, Quot.sound |
| `C31_rank_partial` | propext, Classical.choice, Quot.sound |
| `C32_select` | propext, Classical.choice, Quot.sound |
| `C33_counts_partial` | propext, Classical.choice, Quot.sound |
| `C33_ranked_index_false` | propext, Classical.choice, Quot.sound |
| `C33_ranks_partial` | propext, Classical.choice, Quot.sound |
| `C34_empty_false` | propext, Classical.choice, Quot.sound |
| `C34_empty_partial` | propext, Classical.choice, Quot.sound |
| `C34_follow_exact_partial` | propext, Classical.choice, Quot.sound |
| `C34_follow_false` | propext, Classical.choice, Quot.sound |
| `C34_index_false` | propext, Classical.choice, Quot.sound |
| `C35_nul_free_partial` | propext, Classical.choice, Quot.sound |
| `C35_nul_keys_false` | propext, Classical.choice, Quot.sound |
| `C36_roundtrip_false` | propext |
| `C36_roundtrip_iff_partial` | propext, Classical.choice, Quot.sound |
| `C36_roundtrip_partial` | propext, Classical.choice, Quot.sound |
| `C36_single_char_partial` | propext, Classical.choice, Quot.sound |
| `C37_no_nul` | propext, Classical.choice, Quot.sound |
| `C38_injective` | propext, Classical.choice, Quot.sound |
| `C38_prefix_iff` | propext, Classical.choice, Quot.sound |
| `C39_length` | propext, Classical.choice, Quot.sound |
| `C40_follow` | propext, Quot.sound |
| `C41_stable_false` | propext, Classical.choice, Quot.sound |
| `C41_until_next_call_partial` | propext, Classical.choice, Quot.sound |
| `C42_sorted_partial` | propext, Classical.choice, Quot.sound |
| `C42_tab_exact_partial` | propext, Classical.choice, Quot.sound |
| `C42_tab_false` | propext, Classical.choice, Quot.sound |
| `C42_tab_partial` | propext, Classical.choice, Quot.sound |
| `C42_utfc_false` | propext, Classical.choice, Quot.sound |
| `C42_utfc_partial` | propext, Classical.choice, Quot.sound |
| `C42_utfc_tab_partial` | propext, Classical.choice, Quot.sound |
| `C43_linkTable_is_map` | propext, Classical.choice, Quot.sound |
| `C44_bitPool_is_bit_array` | propext, Classical.choice, Quot.sound |
| `C45_answers_partial` | propext, Classical.choice, Quot.sound |
| `C45_ranked_roundtrip` | propext, Classical.choice, Quot.sound |
| `C45_roundtrip` | propext, Classical.choice, Quot.sound |
| `C45_tool_roundtrip` | propext, Classical.choice, Quot.sound |
| `C45_tool_writes` | propext, Classical.choice, Quot.sound |
| `C46_insert_uses_prefix` | propext, Quot.sound |
| `C46_too_long_panics` | propext |
| `C47_unsorted` | propext, Classical.choice, Quot.sound |
| `C48_no_values_partial` | propext, Classical.choice, Quot.sound |
| `C48_prefixes_false` | propext, Classical.choice, Quot.sound |
| `C48_prefixes_partial` | propext, Classical.choice, Quot.sound |
| `C49_completions_false` | propext, Classical.choice, Quot.sound |
| `C49_completions_partial` | propext, Classical.choice, Quot.sound |
| `C49_empty_query_hangs` | propext, Classical.choice, Quot.sound |
| `C50_exact_partial` | propext, Classical.choice, Quot.sound |
| `C50_ranked_false` | propext, Classical.choice, Quot.sound |
| `C50_ranked_partial` | propext, Classical.choice, Quot.sound |
| `C51_listing_false` | propext, Classical.choice, Quot.sound |
| `C51_listing_partial` | propext, Classical.choice, Quot.sound |
| `C51_no_guide_panics` | propext, Classical.choice, Quot.sound |
| `C52_ascii_partial` | propext, Classical.choice, Quot.sound |
| `C52_encoded_partial` | propext, Classical.choice, Quot.sound |
| `C52_exact_partial` | propext, Classical.choice, Quot.sound |
| `C52_utfc_false` | propext, Classical.choice, Quot.sound |
| `C53_completion_answers` | propext, Classical.choice, Quot.sound |
| `C53_file_answers` | propext, Classical.choice, Quot.sound |
| `C53_prefix_answers` | propext, Classical.choice, Quot.sound |
| `C54_malformed_false` | propext, Classical.choice, Quot.sound |
| `C54_no_panic_partial` | propext, Classical.choice, Quot.sound |
| `C54_nul_panics` | propext |
| `C55_injective_partial` | propext, Classical.choice, Quot.sound |
| `C55_invalid_false` | propext |
| `C55_utf8_lines` | propext, Classical.choice, Quot.sound |
| `C56_lines_partial` | propext, Quot.sound |
| `C56_long_line_false` | propext, Quot.sound |
| `C56_long_line_stops` | propext, Quot.sound |
| `C57_completion_answers` | propext, Classical.choice, Quot.sound |
| `C57_line` | propext, Classical.choice, Quot.sound |
| `C57_prefix_answers` | propext, Classical.choice, Quot.sound |
| `C57_ranked_answers` | propext, Classical.choice, Quot.sound |
| `C58_nul_free_partial` | propext, Classical.choice, Quot.sound |
| `C58_nul_panics_false` | propext, Quot.sound |
| `C59_utfc_dictionary` | propext, Classical.choice, Quot.sound |
| `C59_values` | propext, Classical.choice, Quot.sound |
| `C60_clear` | propext |
| `C60_from_new` | propext |
| `C60_pieces` | propext |
| `C60_refused` | propext |
| `C60_resume` | propext |
| `C61_only_truncated_partial` | propext, Classical.choice, Quot.sound |
| `C61_truncated_false` | propext |
| `C62_corrupt_false` | propext |
| `C62_cycle_hangs` | propext, Quot.sound |
| `C62_guide_partial` | propext, Classical.choice, Quot.sound |
| `C62_index_partial` | propext, Classical.choice, Quot.sound |
| `C62_indexer_partial` | propext, Classical.choice, Quot.sound |
| `C62_load_partial` | propext, Quot.sound |
| `C62_lookup_partial` | propext, Classical.choice, Quot.sound |
| `C62_ranked_partial` | propext, Classical.choice, Quot.sound |
| `C62_tool_partial` | propext, Classical.choice, Quot.sound |
| `C63_canonical` | propext, Classical.choice, Quot.sound |
| `C63_dawg` | propext, Classical.choice, Quot.sound |
| `C63_file` | propext, Classical.choice, Quot.sound |
| `C63_lines` | propext, Classical.choice, Quot.sound |
| `C63_order` | propext, Classical.choice, Quot.sound |
| `C64_ascii_partial` | propext, Classical.choice, Quot.sound |
| `C64_longer` | propext |
| `C64_no_ascii_partial` | propext, Classical.choice, Quot.sound |
| `C64_one_alphabet_partial` | propext, Classical.choice, Quot.sound |
| `C64_third_partial` | propext, Classical.choice, Quot.sound |
| `C64_third_tight` | propext, Classical.choice, Quot.sound |
| `C65_false_for_two` | propext, Classical.choice, Quot.sound |
| `C65_reachable_partial` | propext, Classical.choice, Quot.sound |
| `C66_failed_build_false` | propext, Classical.choice, Quot.sound |
| `C66_failed_build_partial` | propext, Classical.choice, Quot.sound |
| `C67_key_count_false` | propext, Classical.choice, Quot.sound |
| `C67_statistics_partial` | propext, Classical.choice, Quot.sound |
| `C68_newline_false` | propext, Classical.choice, Quot.sound |
| `C68_no_guide_partial` | propext, Classical.choice, Quot.sound |
| `C68_no_guide_text_partial` | propext, Classical.choice, Quot.sound |
| `C68_ranked_partial` | propext, Classical.choice, Quot.sound |
| `C68_ranked_text_partial` | propext, Classical.choice, Quot.sound |
| `C68_text_partial` | propext, Classical.choice, Quot.sound |
| `C69_guide_partial` | propext, Classical.choice, Quot.sound |
| `C69_no_guide_partial` | propext, Classical.choice, Quot.sound |
| `C69_prints_for_ever` | propext, Classical.choice, Quot.sound |
| `C69_runs_end_false` | propext, Classical.choice, Quot.sound |
| `C70_only_dictionary` | propext, Classical.choice, Quot.sound |
| `C71_lexicon_lost_false` | propext, Classical.choice, Quot.sound |
| `C71_lexicon_partial` | propext, Classical.choice, Quot.sound |
| `C72_meaning` | propext, Classical.choice, Quot.sound |
| `C72_options` | propext, Classical.choice, Quot.sound |
| `C72_settings` | propext, Classical.choice, Quot.sound |
| `C73_names_false` | propext, Classical.choice, Quot.sound |
| `C73_names_partial` | propext, Classical.choice, Quot.sound |
| `C74_completion_session` | propext, Classical.choice, Quot.sound |
| `C74_prefix_session` | propext, Classical.choice, Quot.sound |
| `C74_ranked_session` | propext, Classical.choice, Quot.sound |
| `C74_values_completion_session` | propext, Classical.choice, Quot.sound |
| `C74_values_session` | propext, Classical.choice, Quot.sound |
| `C75_nested_false` | propext |
| `C75_nested_partial` | propext, Classical.choice, Quot.sound |
| `C76_alone_partial` | propext, Quot.sound |
| `C76_concurrent_false` | propext |
| `C76_shared_partial` | propext, Quot.sound |
| `C77_reads` | propext, Quot.sound |
| `C78_first_difference_partial` | propext, Classical.choice, Quot.sound |
| `C78_order_false` | propext |
| `C78_row_partial` | propext, Classical.choice, Quot.sound |
| `C78_short_partial` | propext, Classical.choice, Quot.sound |
| `C79_size` | propext, Classical.choice, Quot.sound |
| `C80_spells_keys` | propext, Classical.choice, Quot.sound |
| `C80_spells_prefixes` | propext, Classical.choice, Quot.sound |
| `C81_files_determine` | propext, Classical.choice, Quot.sound |
| `C81_units_determine` | propext, Classical.choice, Quot.sound |
| `C82_nul_false` | propext, Classical.choice, Quot.sound |
| `C82_nul_hits` | propext, Classical.choice, Quot.sound |
| `C82_nul_partial` | propext, Classical.choice, Quot.sound |
| `C83_completions_right` | propext, Classical.choice, Quot.sound |
| `C83_contains` | propext, Classical.choice, Quot.sound |
| `C83_contains_right` | propext, Classical.choice, Quot.sound |
| `C83_find_right` | propext, Classical.choice, Quot.sound |
| `C83_follow` | propext, Classical.choice, Quot.sound |
| `C83_ranked_right` | propext, Classical.choice, Quot.sound |
| `C83_tool_right` | propext, Classical.choice, Quot.sound |
| `C84_base` | propext, Classical.choice, Quot.sound |
| `C84_extra` | propext, Classical.choice, Quot.sound |
| `C84_hasLeaf` | propext, Classical.choice, Quot.sound |
| `C84_label` | propext, Classical.choice, Quot.sound |
| `C84_offset_false` | propext |
| `C84_offset_partial` | propext, Classical.choice, Quot.sound |
| `C84_readers` | propext, Classical.choice, Quot.sound |
| `C84_value` | propext, Classical.choice, Quot.sound |
| `C85_alone` | propext, Quot.sound |
| `C85_order` | propext, Quot.sound |
| `C85_restart` | propext, Quot.sound |
| `C85_text` | propext, Classical.choice, Quot.sound |
| `C86_all` | propext, Classical.choice, Quot.sound |
| `C86_exact_partial` | propext, Classical.choice, Quot.sound |
| `C86_index` | propext, Classical.choice, Quot.sound |
| `C86_listing_false` | propext, Classical.choice, Quot.sound |
| `C86_listing_partial` | propext, Classical.choice, Quot.sound |
| `C86_run_partial` | propext, Classical.choice, Quot.sound |
| `C86_writes` | propext, Classical.choice, Quot.sound |
| `C87_load` | propext, Classical.choice, Quot.sound |
| `C87_options_false` | propext, Classical.choice, Quot.sound |
| `C87_order_false` | propext, Classical.choice, Quot.sound |
| `C87_plain_completer` | propext, Classical.choice, Quot.sound |
| `C87_plain_file_partial` | propext, Classical.choice, Quot.sound |
| `C87_ranked_completer` | propext, Classical.choice, Quot.sound |
| `C87_ranked_file_partial` | propext, Classical.choice, Quot.sound |
| `C87_same` | propext, Classical.choice, Quot.sound |
| `C88_exact_partial` | propext, Classical.choice, Quot.sound |
| `C88_inverse_false` | propext, Classical.choice, Quot.sound |
| `C88_inverse_partial` | propext, Classical.choice, Quot.sound |
| `C88_number_partial` | propext, Classical.choice, Quot.sound |
| `C88_rank` | propext, Classical.choice, Quot.sound |
| `C88_stored_partial` | propext, Classical.choice, Quot.sound |
| `C89_dictionary` | propext, Classical.choice, Quot.sound |
| `C89_guide` | propext, Classical.choice, Quot.sound |
| `C89_index` | propext, Classical.choice, Quot.sound |
| `C89_roundtrip` | propext, Classical.choice, Quot.sound |
| `C89_tool` | propext, Classical.choice, Quot.sound |
| `C90_lines_partial` | propext, Classical.choice, Quot.sound |
| `C90_read_error_false` | propext, Classical.choice, Quot.sound |
| `C90_read_error_partial` | propext, Classical.choice, Quot.sound |
| `C90_together` | propext, Classical.choice, Quot.sound |
| `C91_tool` | propext, Classical.choice, Quot.sound |
| `C91_write` | propext |
| `C92_ratio` | propext, Classical.choice, Quot.sound |
| `C92_tool` | propext, Classical.choice, Quot.sound |
| `C93_build` | propext, Classical.choice, Quot.sound |
| `C93_lexicon` | propext, Classical.choice, Quot.sound |
| `C93_load` | propext, Quot.sound |
| `C93_program` | propext, Classical.choice, Quot.sound |
| `C94_bound` | propext, Classical.choice, Quot.sound |
| `C94_table` | propext, Classical.choice, Quot.sound |
| `C94_units` | propext, Classical.choice, Quot.sound |
| `C95_build` | propext, Classical.choice, Quot.sound |
| `C95_dawg_false` | propext, Classical.choice, Quot.sound |
| `C95_dawg_partial` | propext, Classical.choice, Quot.sound |
| `C95_guide` | propext, Quot.sound |
| `C95_in_use` | propext, Quot.sound |
| `C96_heap` | propext, Quot.sound |
| `C96_next` | propext, Quot.sound |
| `C96_ranked` | propext, Classical.choice, Quot.sound |
| `C97_one_alphabet_partial` | propext, Classical.choice, Quot.sound |
| `C97_shortest_false` | propext, Classical.choice, Quot.sound |
| `C98_index_to_string` | propext, Quot.sound |
| `C98_string_to_index` | propext, Quot.sound |
| `C99_memory_false` | propext |
| `C99_read_partial` | propext, Quot.sound |
| `C99_tool_partial` | propext, Quot.sound |
