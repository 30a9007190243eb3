import Verif.Props.Alloc
import Verif.Props.Alone
import Verif.Props.Builder
import Verif.Props.Calls
import Verif.Props.Canonical
import Verif.Props.Claimed
import Verif.Props.Cleared
import Verif.Props.Compact
import Verif.Props.Corrupt
import Verif.Props.CorruptGuide
import Verif.Props.CorruptIndex
import Verif.Props.CorruptRanked
import Verif.Props.Cost
import Verif.Props.Depth
import Verif.Props.Dictionary
import Verif.Props.Empty
import Verif.Props.Exact
import Verif.Props.Finish
import Verif.Props.Flood
import Verif.Props.Format
import Verif.Props.Guide
import Verif.Props.Index
import Verif.Props.IndexCost
import Verif.Props.Lexicon
import Verif.Props.Lookup
import Verif.Props.Main
import Verif.Props.Memory
import Verif.Props.Message
import Verif.Props.Mixed
import Verif.Props.OneEach
import Verif.Props.Order
import Verif.Props.Output
import Verif.Props.Pipeline
import Verif.Props.Pools
import Verif.Props.Query
import Verif.Props.Ranked
import Verif.Props.RankedList
import Verif.Props.RankedRank
import Verif.Props.RankedStored
import Verif.Props.RankedText
import Verif.Props.Ratio
import Verif.Props.Repeated
import Verif.Props.Rounds
import Verif.Props.Search
import Verif.Props.Serialize
import Verif.Props.Settings
import Verif.Props.Shared
import Verif.Props.Shortest
import Verif.Props.Size
import Verif.Props.Small
import Verif.Props.Sparse
import Verif.Props.Steps
import Verif.Props.Stream
import Verif.Props.TabSort
import Verif.Props.Text
import Verif.Props.Ties
import Verif.Props.TiesText
import Verif.Props.Tool
import Verif.Props.Unicode
import Verif.Props.Units
import Verif.Props.Utfc
import Verif.Props.UtfcQuery
import Verif.Props.UtfcSort
import Verif.Props.View
import Verif.Props.ZeroByte
/-! # The axioms every property theorem depends on (printed by the build; generated by tools/manifest.py) -/
#print axioms Dawg.Props.C01_accepts_iff
#print axioms Dawg.Props.C01_accepts_in_order
#print axioms Dawg.Props.C01_insertString
#print axioms Dawg.Props.C02_rejection_has_no_effect
#print axioms Dawg.Props.C02_rejection_unobservable
#print axioms Dawg.Props.C03_reinsert_accepted
#print axioms Dawg.Props.C03_reinsert_overwrites
#print axioms Dawg.Props.C04_listing_sorted
#print axioms Dawg.Props.C04_sibling_labels_increase
#print axioms Dawg.Props.C04_walk_lists_accepted
#print axioms Dawg.Props.C05_number_of_states
#print axioms Dawg.Props.C05_states_differ
#print axioms Dawg.Props.C06_merging_iff
#print axioms Dawg.Props.C06_merging_is_state
#print axioms Dawg.Props.C06_number_of_merging
#print axioms Dawg.Props.C06_number_of_transitions
#print axioms Dawg.Props.C06_trie_counts
#print axioms Dawg.Props.C07_build_returns
#print axioms Dawg.Props.C08_size_zero_panics
#print axioms Dawg.Props.C08_table_size_unobservable
#print axioms Dawg.Props.C09_finish_empties_partial
#print axioms Dawg.Props.C09_reuse_panics
#print axioms Dawg.Props.C100_byte_order_false
#print axioms Dawg.Props.C100_equal_values_partial
#print axioms Dawg.Props.C101_same_result
#print axioms Dawg.Props.C101_search_cost
#print axioms Dawg.Props.C101_search_units
#print axioms Dawg.Props.C102_dictionary
#print axioms Dawg.Props.C102_guide
#print axioms Dawg.Props.C102_index
#print axioms Dawg.Props.C102_tool
#print axioms Dawg.Props.C103_bounded_false
#print axioms Dawg.Props.C103_flood
#print axioms Dawg.Props.C103_quadratic
#print axioms Dawg.Props.C103_search
#print axioms Dawg.Props.C103_worst_partial
#print axioms Dawg.Props.C104_dictionary
#print axioms Dawg.Props.C104_guide
#print axioms Dawg.Props.C104_index
#print axioms Dawg.Props.C104_needed
#print axioms Dawg.Props.C104_ranked
#print axioms Dawg.Props.C105_guide
#print axioms Dawg.Props.C105_index
#print axioms Dawg.Props.C105_ranked
#print axioms Dawg.Props.C105_rounds
#print axioms Dawg.Props.C105_same
#print axioms Dawg.Props.C106_one_unit_each
#print axioms Dawg.Props.C106_shared
#print axioms Dawg.Props.C106_unused
#print axioms Dawg.Props.C107_blocks
#print axioms Dawg.Props.C107_blocks_used_partial
#print axioms Dawg.Props.C107_quarter_false
#print axioms Dawg.Props.C107_sparse
#print axioms Dawg.Props.C108_sorted_false
#print axioms Dawg.Props.C108_sorted_partial
#print axioms Dawg.Props.C108_sorted_utfc_partial
#print axioms Dawg.Props.C108_unsorted_partial
#print axioms Dawg.Props.C109_listing
#print axioms Dawg.Props.C109_same
#print axioms Dawg.Props.C10_inserted_found
#print axioms Dawg.Props.C10_negative_value_found
#print axioms Dawg.Props.C10_nonnegative_value_found
#print axioms Dawg.Props.C110_any_number
#print axioms Dawg.Props.C110_false
#print axioms Dawg.Props.C110_partial
#print axioms Dawg.Props.C111_exact_partial
#print axioms Dawg.Props.C111_false
#print axioms Dawg.Props.C111_used_partial
#print axioms Dawg.Props.C11_nothing_else_false
#print axioms Dawg.Props.C11_nothing_else_partial
#print axioms Dawg.Props.C12_prefixes_false
#print axioms Dawg.Props.C12_prefixes_followed_partial
#print axioms Dawg.Props.C12_prefixes_partial
#print axioms Dawg.Props.C13_find_panics
#print axioms Dawg.Props.C13_no_panic_false
#print axioms Dawg.Props.C13_no_panic_partial
#print axioms Dawg.Props.C14_build_total
#print axioms Dawg.Props.C14_small_builds
#print axioms Dawg.Props.C15_unused_exact
#print axioms Dawg.Props.C16_built_counterexample
#print axioms Dawg.Props.C16_built_partial
#print axioms Dawg.Props.C16_containsString_decides_partial
#print axioms Dawg.Props.C16_findString_decides_partial
#print axioms Dawg.Props.C16_literal_counterexample
#print axioms Dawg.Props.C17_len_variants
#print axioms Dawg.Props.C18_count_is_longest_prefix
#print axioms Dawg.Props.C18_follow_append
#print axioms Dawg.Props.C19_dictionary_roundtrip
#print axioms Dawg.Props.C19_guide_roundtrip
#print axioms Dawg.Props.C19_index_roundtrip
#print axioms Dawg.Props.C19_stream_roundtrip
#print axioms Dawg.Props.C20_file_size
#print axioms Dawg.Props.C21_dictionary_truncated
#print axioms Dawg.Props.C21_guide_truncated
#print axioms Dawg.Props.C21_index_counterexample
#print axioms Dawg.Props.C21_index_truncated_partial
#print axioms Dawg.Props.C22_completions_false
#print axioms Dawg.Props.C22_completions_partial
#print axioms Dawg.Props.C23_exact_false
#print axioms Dawg.Props.C23_exact_partial
#print axioms Dawg.Props.C24_empty_key_repeats
#print axioms Dawg.Props.C24_ends_false
#print axioms Dawg.Props.C24_ends_partial
#print axioms Dawg.Props.C25_ranked_restart
#print axioms Dawg.Props.C25_restart
#print axioms Dawg.Props.C26_guide
#print axioms Dawg.Props.C27_completions
#print axioms Dawg.Props.C27_ranked_guide
#print axioms Dawg.Props.C28_values_never_increase
#print axioms Dawg.Props.C29_agreeing_partial
#print axioms Dawg.Props.C29_best_first_partial
#print axioms Dawg.Props.C29_custom_order_false
#print axioms Dawg.Props.C29_exact_order_partial
#print axioms Dawg.Props.C30_counts_false
#print axioms Dawg.Props.C30_counts_partial
#print axioms Dawg.Props.C30_empty_panics
#print axioms Dawg.Props.C31_rank_false
#print axioms Dawg.Props.C31_rank_partial
#print axioms Dawg.Props.C32_select
#print axioms Dawg.Props.C33_counts_partial
#print axioms Dawg.Props.C33_ranked_index_false
#print axioms Dawg.Props.C33_ranks_partial
#print axioms Dawg.Props.C34_empty_false
#print axioms Dawg.Props.C34_empty_partial
#print axioms Dawg.Props.C34_follow_exact_partial
#print axioms Dawg.Props.C34_follow_false
#print axioms Dawg.Props.C34_index_false
#print axioms Dawg.Props.C35_nul_free_partial
#print axioms Dawg.Props.C35_nul_keys_false
#print axioms Dawg.Props.C36_roundtrip_false
#print axioms Dawg.Props.C36_roundtrip_iff_partial
#print axioms Dawg.Props.C36_roundtrip_partial
#print axioms Dawg.Props.C36_single_char_partial
#print axioms Dawg.Props.C37_no_nul
#print axioms Dawg.Props.C38_injective
#print axioms Dawg.Props.C38_prefix_iff
#print axioms Dawg.Props.C39_length
#print axioms Dawg.Props.C40_follow
#print axioms Dawg.Props.C41_stable_false
#print axioms Dawg.Props.C41_until_next_call_partial
#print axioms Dawg.Props.C42_sorted_partial
#print axioms Dawg.Props.C42_tab_exact_partial
#print axioms Dawg.Props.C42_tab_false
#print axioms Dawg.Props.C42_tab_partial
#print axioms Dawg.Props.C42_utfc_false
#print axioms Dawg.Props.C42_utfc_partial
#print axioms Dawg.Props.C42_utfc_tab_partial
#print axioms Dawg.Props.C43_linkTable_is_map
#print axioms Dawg.Props.C44_bitPool_is_bit_array
#print axioms Dawg.Props.C45_answers_partial
#print axioms Dawg.Props.C45_ranked_roundtrip
#print axioms Dawg.Props.C45_roundtrip
#print axioms Dawg.Props.C45_tool_roundtrip
#print axioms Dawg.Props.C45_tool_writes
#print axioms Dawg.Props.C46_insert_uses_prefix
#print axioms Dawg.Props.C46_too_long_panics
#print axioms Dawg.Props.C47_unsorted
#print axioms Dawg.Props.C48_no_values_partial
#print axioms Dawg.Props.C48_prefixes_false
#print axioms Dawg.Props.C48_prefixes_partial
#print axioms Dawg.Props.C49_completions_false
#print axioms Dawg.Props.C49_completions_partial
#print axioms Dawg.Props.C49_empty_query_hangs
#print axioms Dawg.Props.C50_exact_partial
#print axioms Dawg.Props.C50_ranked_false
#print axioms Dawg.Props.C50_ranked_partial
#print axioms Dawg.Props.C51_listing_false
#print axioms Dawg.Props.C51_listing_partial
#print axioms Dawg.Props.C51_no_guide_panics
#print axioms Dawg.Props.C52_ascii_partial
#print axioms Dawg.Props.C52_encoded_partial
#print axioms Dawg.Props.C52_exact_partial
#print axioms Dawg.Props.C52_utfc_false
#print axioms Dawg.Props.C53_completion_answers
#print axioms Dawg.Props.C53_file_answers
#print axioms Dawg.Props.C53_prefix_answers
#print axioms Dawg.Props.C54_malformed_false
#print axioms Dawg.Props.C54_no_panic_partial
#print axioms Dawg.Props.C54_nul_panics
#print axioms Dawg.Props.C55_injective_partial
#print axioms Dawg.Props.C55_invalid_false
#print axioms Dawg.Props.C55_utf8_lines
#print axioms Dawg.Props.C56_lines_partial
#print axioms Dawg.Props.C56_long_line_false
#print axioms Dawg.Props.C56_long_line_stops
#print axioms Dawg.Props.C57_completion_answers
#print axioms Dawg.Props.C57_line
#print axioms Dawg.Props.C57_prefix_answers
#print axioms Dawg.Props.C57_ranked_answers
#print axioms Dawg.Props.C58_nul_free_partial
#print axioms Dawg.Props.C58_nul_panics_false
#print axioms Dawg.Props.C59_utfc_dictionary
#print axioms Dawg.Props.C59_values
#print axioms Dawg.Props.C60_clear
#print axioms Dawg.Props.C60_from_new
#print axioms Dawg.Props.C60_pieces
#print axioms Dawg.Props.C60_refused
#print axioms Dawg.Props.C60_resume
#print axioms Dawg.Props.C61_only_truncated_partial
#print axioms Dawg.Props.C61_truncated_false
#print axioms Dawg.Props.C62_corrupt_false
#print axioms Dawg.Props.C62_cycle_hangs
#print axioms Dawg.Props.C62_guide_partial
#print axioms Dawg.Props.C62_index_partial
#print axioms Dawg.Props.C62_indexer_partial
#print axioms Dawg.Props.C62_load_partial
#print axioms Dawg.Props.C62_lookup_partial
#print axioms Dawg.Props.C62_ranked_partial
#print axioms Dawg.Props.C62_tool_partial
#print axioms Dawg.Props.C63_canonical
#print axioms Dawg.Props.C63_dawg
#print axioms Dawg.Props.C63_file
#print axioms Dawg.Props.C63_lines
#print axioms Dawg.Props.C63_order
#print axioms Dawg.Props.C64_ascii_partial
#print axioms Dawg.Props.C64_longer
#print axioms Dawg.Props.C64_no_ascii_partial
#print axioms Dawg.Props.C64_one_alphabet_partial
#print axioms Dawg.Props.C64_third_partial
#print axioms Dawg.Props.C64_third_tight
#print axioms Dawg.Props.C65_false_for_two
#print axioms Dawg.Props.C65_reachable_partial
#print axioms Dawg.Props.C66_failed_build_false
#print axioms Dawg.Props.C66_failed_build_partial
#print axioms Dawg.Props.C67_key_count_false
#print axioms Dawg.Props.C67_statistics_partial
#print axioms Dawg.Props.C68_newline_false
#print axioms Dawg.Props.C68_no_guide_partial
#print axioms Dawg.Props.C68_no_guide_text_partial
#print axioms Dawg.Props.C68_ranked_partial
#print axioms Dawg.Props.C68_ranked_text_partial
#print axioms Dawg.Props.C68_text_partial
#print axioms Dawg.Props.C69_guide_partial
#print axioms Dawg.Props.C69_no_guide_partial
#print axioms Dawg.Props.C69_prints_for_ever
#print axioms Dawg.Props.C69_runs_end_false
#print axioms Dawg.Props.C70_only_dictionary
#print axioms Dawg.Props.C71_lexicon_lost_false
#print axioms Dawg.Props.C71_lexicon_partial
#print axioms Dawg.Props.C72_meaning
#print axioms Dawg.Props.C72_options
#print axioms Dawg.Props.C72_settings
#print axioms Dawg.Props.C73_names_false
#print axioms Dawg.Props.C73_names_partial
#print axioms Dawg.Props.C74_completion_session
#print axioms Dawg.Props.C74_prefix_session
#print axioms Dawg.Props.C74_ranked_session
#print axioms Dawg.Props.C74_values_completion_session
#print axioms Dawg.Props.C74_values_session
#print axioms Dawg.Props.C75_nested_false
#print axioms Dawg.Props.C75_nested_partial
#print axioms Dawg.Props.C76_alone_partial
#print axioms Dawg.Props.C76_concurrent_false
#print axioms Dawg.Props.C76_shared_partial
#print axioms Dawg.Props.C77_reads
#print axioms Dawg.Props.C78_first_difference_partial
#print axioms Dawg.Props.C78_order_false
#print axioms Dawg.Props.C78_row_partial
#print axioms Dawg.Props.C78_short_partial
#print axioms Dawg.Props.C79_size
#print axioms Dawg.Props.C80_spells_keys
#print axioms Dawg.Props.C80_spells_prefixes
#print axioms Dawg.Props.C81_files_determine
#print axioms Dawg.Props.C81_units_determine
#print axioms Dawg.Props.C82_nul_false
#print axioms Dawg.Props.C82_nul_hits
#print axioms Dawg.Props.C82_nul_partial
#print axioms Dawg.Props.C83_completions_right
#print axioms Dawg.Props.C83_contains
#print axioms Dawg.Props.C83_contains_right
#print axioms Dawg.Props.C83_find_right
#print axioms Dawg.Props.C83_follow
#print axioms Dawg.Props.C83_ranked_right
#print axioms Dawg.Props.C83_tool_right
#print axioms Dawg.Props.C84_base
#print axioms Dawg.Props.C84_extra
#print axioms Dawg.Props.C84_hasLeaf
#print axioms Dawg.Props.C84_label
#print axioms Dawg.Props.C84_offset_false
#print axioms Dawg.Props.C84_offset_partial
#print axioms Dawg.Props.C84_readers
#print axioms Dawg.Props.C84_value
#print axioms Dawg.Props.C85_alone
#print axioms Dawg.Props.C85_order
#print axioms Dawg.Props.C85_restart
#print axioms Dawg.Props.C85_text
#print axioms Dawg.Props.C86_all
#print axioms Dawg.Props.C86_exact_partial
#print axioms Dawg.Props.C86_index
#print axioms Dawg.Props.C86_listing_false
#print axioms Dawg.Props.C86_listing_partial
#print axioms Dawg.Props.C86_run_partial
#print axioms Dawg.Props.C86_writes
#print axioms Dawg.Props.C87_load
#print axioms Dawg.Props.C87_options_false
#print axioms Dawg.Props.C87_order_false
#print axioms Dawg.Props.C87_plain_completer
#print axioms Dawg.Props.C87_plain_file_partial
#print axioms Dawg.Props.C87_ranked_completer
#print axioms Dawg.Props.C87_ranked_file_partial
#print axioms Dawg.Props.C87_same
#print axioms Dawg.Props.C88_exact_partial
#print axioms Dawg.Props.C88_inverse_false
#print axioms Dawg.Props.C88_inverse_partial
#print axioms Dawg.Props.C88_number_partial
#print axioms Dawg.Props.C88_rank
#print axioms Dawg.Props.C88_stored_partial
#print axioms Dawg.Props.C89_dictionary
#print axioms Dawg.Props.C89_guide
#print axioms Dawg.Props.C89_index
#print axioms Dawg.Props.C89_roundtrip
#print axioms Dawg.Props.C89_tool
#print axioms Dawg.Props.C90_lines_partial
#print axioms Dawg.Props.C90_read_error_false
#print axioms Dawg.Props.C90_read_error_partial
#print axioms Dawg.Props.C90_together
#print axioms Dawg.Props.C91_tool
#print axioms Dawg.Props.C91_write
#print axioms Dawg.Props.C92_ratio
#print axioms Dawg.Props.C92_tool
#print axioms Dawg.Props.C93_build
#print axioms Dawg.Props.C93_lexicon
#print axioms Dawg.Props.C93_load
#print axioms Dawg.Props.C93_program
#print axioms Dawg.Props.C94_bound
#print axioms Dawg.Props.C94_table
#print axioms Dawg.Props.C94_units
#print axioms Dawg.Props.C95_build
#print axioms Dawg.Props.C95_dawg_false
#print axioms Dawg.Props.C95_dawg_partial
#print axioms Dawg.Props.C95_guide
#print axioms Dawg.Props.C95_in_use
#print axioms Dawg.Props.C96_heap
#print axioms Dawg.Props.C96_next
#print axioms Dawg.Props.C96_ranked
#print axioms Dawg.Props.C97_one_alphabet_partial
#print axioms Dawg.Props.C97_shortest_false
#print axioms Dawg.Props.C98_index_to_string
#print axioms Dawg.Props.C98_string_to_index
#print axioms Dawg.Props.C99_memory_false
#print axioms Dawg.Props.C99_read_partial
#print axioms Dawg.Props.C99_tool_partial
