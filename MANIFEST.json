{
 "claims": [
  {
   "property": "C01",
   "status": "proved",
   "theorems": [
    "Dawg.Props.C01_accepts_in_order",
    "Dawg.Props.C01_accepts_iff",
    "Dawg.Props.C01_insertString"
   ],
   "note": "All admissible histories (NUL-free keys, total size < 2^30), sizes 1 to 2^32-1."
  },
  {
   "property": "C02",
   "status": "proved",
   "theorems": [
    "Dawg.Props.C02_rejection_has_no_effect",
    "Dawg.Props.C02_rejection_unobservable"
   ],
   "note": "The builder itself is unchanged; the finished Dawg and all other verdicts are too."
  },
  {
   "property": "C03",
   "status": "proved",
   "theorems": [
    "Dawg.Props.C03_reinsert_overwrites",
    "Dawg.Props.C03_reinsert_accepted"
   ],
   "note": ""
  },
  {
   "property": "C04",
   "status": "proved",
   "theorems": [
    "Dawg.Props.C04_walk_lists_accepted",
    "Dawg.Props.C04_listing_sorted",
    "Dawg.Props.C04_sibling_labels_increase"
   ],
   "note": "Values are stored modulo 2^31, so exactly for non-negative ones."
  },
  {
   "property": "C05",
   "status": "proved",
   "theorems": [
    "Dawg.Props.C05_states_differ",
    "Dawg.Props.C05_number_of_states"
   ],
   "note": ""
  },
  {
   "property": "C06",
   "status": "proved",
   "theorems": [
    "Dawg.Props.C06_trie_counts",
    "Dawg.Props.C06_number_of_transitions",
    "Dawg.Props.C06_number_of_merging",
    "Dawg.Props.C06_merging_iff",
    "Dawg.Props.C06_merging_is_state"
   ],
   "note": ""
  },
  {
   "property": "C07",
   "status": "proved",
   "theorems": [
    "Dawg.Props.C07_build_returns"
   ],
   "note": ""
  },
  {
   "property": "C08",
   "status": "proved",
   "theorems": [
    "Dawg.Props.C08_table_size_unobservable",
    "Dawg.Props.C08_size_zero_panics"
   ],
   "note": "Size 0 is excluded: a panic is proved for it."
  },
  {
   "property": "C09",
   "status": "partial",
   "theorems": [
    "Dawg.Props.C09_reuse_panics",
    "Dawg.Props.C09_finish_empties_partial"
   ],
   "note": "The property is false: every use of a finished builder panics (proved for all builders), since clear leaves a hash table of length one. Proved part: the builder is otherwise empty."
  },
  {
   "property": "C10",
   "status": "proved",
   "theorems": [
    "Dawg.Props.C10_inserted_found",
    "Dawg.Props.C10_nonnegative_value_found",
    "Dawg.Props.C10_negative_value_found"
   ],
   "note": "All dictionaries returned by Build for admissible histories."
  },
  {
   "property": "C11",
   "status": "partial",
   "theorems": [
    "Dawg.Props.C11_nothing_else_false",
    "Dawg.Props.C11_nothing_else_partial"
   ],
   "note": "The property is false (proved with a computed dictionary): dictLabel drops the leaf bit, so value units answer to the low byte of the value. Proved for queries that do not leave the key set with such a byte."
  },
  {
   "property": "C12",
   "status": "partial",
   "theorems": [
    "Dawg.Props.C12_prefixes_false",
    "Dawg.Props.C12_prefixes_followed_partial",
    "Dawg.Props.C12_prefixes_partial"
   ],
   "note": "False for the same reason. Proved: prefixes of keys can always be followed; the equivalence for queries that do not leave the key set with the low byte of a stored value."
  },
  {
   "property": "C13",
   "status": "partial",
   "theorems": [
    "Dawg.Props.C13_no_panic_false",
    "Dawg.Props.C13_find_panics",
    "Dawg.Props.C13_no_panic_partial"
   ],
   "note": "False for the same reason: a panic is proved. Proved for queries that do not leave the key set with the low byte of a stored value."
  },
  {
   "property": "C14",
   "status": "proved",
   "theorems": [
    "Dawg.Props.C14_build_total",
    "Dawg.Props.C14_small_builds"
   ],
   "note": "All admissible histories."
  },
  {
   "property": "C15",
   "status": "proved",
   "theorems": [
    "Dawg.Props.C15_unused_exact"
   ],
   "note": ""
  },
  {
   "property": "C16",
   "status": "partial",
   "theorems": [
    "Dawg.Props.C16_findString_decides_partial",
    "Dawg.Props.C16_containsString_decides_partial",
    "Dawg.Props.C16_literal_counterexample",
    "Dawg.Props.C16_built_counterexample",
    "Dawg.Props.C16_built_partial"
   ],
   "note": "Holds for all unit arrays and keys whenever FindString returns; on a malformed array ContainsString can be true while FindString panics, and also on some built dictionaries (counterexamples proved). Proved in full for built dictionaries and queries without low-byte clash."
  },
  {
   "property": "C17",
   "status": "proved",
   "theorems": [
    "Dawg.Props.C17_len_variants"
   ],
   "note": "All unit arrays, keys, lengths <= len(key)."
  },
  {
   "property": "C18",
   "status": "proved",
   "theorems": [
    "Dawg.Props.C18_follow_append",
    "Dawg.Props.C18_count_is_longest_prefix"
   ],
   "note": "All unit arrays, keys and start indices."
  },
  {
   "property": "C19",
   "status": "proved",
   "theorems": [
    "Dawg.Props.C19_dictionary_roundtrip",
    "Dawg.Props.C19_guide_roundtrip",
    "Dawg.Props.C19_index_roundtrip",
    "Dawg.Props.C19_stream_roundtrip"
   ],
   "note": "All objects with fewer than 2^32 units; RankedGuide and Guide share the file format and model."
  },
  {
   "property": "C20",
   "status": "proved",
   "theorems": [
    "Dawg.Props.C20_file_size"
   ],
   "note": ""
  },
  {
   "property": "C21",
   "status": "partial",
   "theorems": [
    "Dawg.Props.C21_dictionary_truncated",
    "Dawg.Props.C21_guide_truncated",
    "Dawg.Props.C21_index_truncated_partial",
    "Dawg.Props.C21_index_counterexample"
   ],
   "note": "Dictionary and guides in full; for Index the receiver is destroyed by a failed Read (negation proved), rejection is proved."
  },
  {
   "property": "C22",
   "status": "partial",
   "theorems": [
    "Dawg.Props.C22_completions_false",
    "Dawg.Props.C22_completions_partial"
   ],
   "note": "The property is false at the root of a dictionary with the empty key (the empty key is returned for ever). Proved for all other key sets and prefixes, with any string given to StartString."
  },
  {
   "property": "C23",
   "status": "partial",
   "theorems": [
    "Dawg.Props.C23_exact_false",
    "Dawg.Props.C23_exact_partial"
   ],
   "note": "The property is false: Key() ends in a NUL byte. Proved: without that byte it is the completion, and Length() does not count it."
  },
  {
   "property": "C24",
   "status": "partial",
   "theorems": [
    "Dawg.Props.C24_ends_false",
    "Dawg.Props.C24_empty_key_repeats",
    "Dawg.Props.C24_ends_partial"
   ],
   "note": "The property is false at the root of a dictionary with the empty key: proved for all such dictionaries. Proved for all other prefixes."
  },
  {
   "property": "C25",
   "status": "proved",
   "theorems": [
    "Dawg.Props.C25_restart",
    "Dawg.Props.C25_ranked_restart"
   ],
   "note": "All dictionaries, guides, completer states, indices, prefixes and lengths."
  },
  {
   "property": "C26",
   "status": "proved",
   "theorems": [
    "Dawg.Props.C26_guide"
   ],
   "note": "All dictionaries returned by Build for admissible histories; for every index of a prefix of a key."
  },
  {
   "property": "C30",
   "status": "partial",
   "theorems": [
    "Dawg.Props.C30_counts_false",
    "Dawg.Props.C30_empty_panics",
    "Dawg.Props.C30_counts_partial"
   ],
   "note": "The property is false for the empty key set: BuildIndex panics on the empty guide (proved for all dictionaries without keys). Proved for all other key sets."
  },
  {
   "property": "C31",
   "status": "partial",
   "theorems": [
    "Dawg.Props.C31_rank_false",
    "Dawg.Props.C31_rank_partial"
   ],
   "note": "The property is false: with a=354, i=256 StringToIndex(\"b\") is 1. Proved for all inserted keys, and NotFound for all other queries that do not leave the key set with the low byte of a stored value."
  },
  {
   "property": "C32",
   "status": "proved",
   "theorems": [
    "Dawg.Props.C32_select"
   ],
   "note": "All indices that BuildIndex returns, all i."
  },
  {
   "property": "C27",
   "status": "proved",
   "theorems": [
    "Dawg.Props.C27_ranked_guide",
    "Dawg.Props.C27_completions"
   ],
   "note": "All admissible histories, every comparator, every sorting routine that permutes its input, every prefix (the root and the empty key included). Key() ends in a NUL byte as for the plain completer (C23); each key comes once, with its value."
  },
  {
   "property": "C28",
   "status": "proved",
   "theorems": [
    "Dawg.Props.C28_values_never_increase"
   ],
   "note": "All admissible histories and prefixes; for every sorting routine with the contract of sort.SliceStable."
  },
  {
   "property": "C29",
   "status": "partial",
   "theorems": [
    "Dawg.Props.C29_custom_order_false",
    "Dawg.Props.C29_best_first_partial",
    "Dawg.Props.C29_agreeing_partial",
    "Dawg.Props.C29_exact_order_partial"
   ],
   "note": "The property is false: with aa=1, ab=3, b=2 and the comparator > the values come as 1, 3, 2, because the candidate heap always uses <. Proved: the first completion is the best one for every strict total order, and the whole order is right when the comparator agrees with < on the stored values; and the exact order for every strict total order, as a function of the keys and values."
  },
  {
   "property": "C33",
   "status": "partial",
   "theorems": [
    "Dawg.Props.C33_ranked_index_false",
    "Dawg.Props.C33_counts_partial",
    "Dawg.Props.C33_ranks_partial"
   ],
   "note": "The property is false: with a=1, ab=1 the total count over a ranked guide is 1. Proved: the counts are right when keys have larger values than their proper prefixes, ranks and selection when values also fall in byte order."
  },
  {
   "property": "C34",
   "status": "partial",
   "theorems": [
    "Dawg.Props.C34_follow_false",
    "Dawg.Props.C34_index_false",
    "Dawg.Props.C34_empty_false",
    "Dawg.Props.C34_empty_partial",
    "Dawg.Props.C34_follow_exact_partial"
   ],
   "note": "The property is false: on an empty dictionary FollowString(\"a\") succeeds and BuildIndex panics. Proved: look-ups miss and both completers list nothing; and exactly which strings FollowString accepts (NUL bytes, and possibly one byte other than 1 at the end)."
  },
  {
   "property": "C35",
   "status": "partial",
   "theorems": [
    "Dawg.Props.C35_nul_keys_false",
    "Dawg.Props.C35_nul_free_partial"
   ],
   "note": "The property is false: a computed dictionary is exhibited. NUL-free keys are found."
  },
  {
   "property": "C36",
   "status": "partial",
   "theorems": [
    "Dawg.Props.C36_roundtrip_false",
    "Dawg.Props.C36_roundtrip_iff_partial",
    "Dawg.Props.C36_roundtrip_partial",
    "Dawg.Props.C36_single_char_partial"
   ],
   "note": "The property is false (U+2601 U+2600 makes the decoder panic). Proved: an exact characterisation of the strings that survive, and that strings without U+2600, U+A600, U+12600, ... survive."
  },
  {
   "property": "C37",
   "status": "proved",
   "theorems": [
    "Dawg.Props.C37_no_nul"
   ],
   "note": "All strings."
  },
  {
   "property": "C38",
   "status": "proved",
   "theorems": [
    "Dawg.Props.C38_prefix_iff",
    "Dawg.Props.C38_injective"
   ],
   "note": "All strings."
  },
  {
   "property": "C39",
   "status": "proved",
   "theorems": [
    "Dawg.Props.C39_length"
   ],
   "note": "All strings."
  },
  {
   "property": "C40",
   "status": "proved",
   "theorems": [
    "Dawg.Props.C40_follow"
   ],
   "note": "All strings and all followers."
  },
  {
   "property": "C41",
   "status": "partial",
   "theorems": [
    "Dawg.Props.C41_stable_false",
    "Dawg.Props.C41_until_next_call_partial"
   ],
   "note": "The property is false (shared buffer). Proved: what the slice holds at return and after the next call, for every growth strategy of append."
  },
  {
   "property": "C42",
   "status": "partial",
   "theorems": [
    "Dawg.Props.C42_utfc_false",
    "Dawg.Props.C42_tab_false",
    "Dawg.Props.C42_sorted_partial",
    "Dawg.Props.C42_tab_partial",
    "Dawg.Props.C42_utfc_partial",
    "Dawg.Props.C42_tab_exact_partial",
    "Dawg.Props.C42_utfc_tab_partial"
   ],
   "note": "The property is false with -u (comparator only compares lengths) and with -t and control characters. Proved without -u and -t for all lexicons of NUL-free lines; with -t, with -u and with both, exactly which lexicons are accepted (with -t: no key is another key followed by a byte below 9), and that all others end with an error; for every sorting routine with the contract of sort.SliceStable."
  },
  {
   "property": "C43",
   "status": "proved",
   "theorems": [
    "Dawg.Props.C43_linkTable_is_map"
   ],
   "note": "For every sequence of Insert/Find operations over at most as many distinct non-zero indices as slots."
  },
  {
   "property": "C44",
   "status": "proved",
   "theorems": [
    "Dawg.Props.C44_bitPool_is_bit_array"
   ],
   "note": "For every sequence of allocations and in-range writes."
  },
  {
   "property": "C45",
   "status": "partial",
   "theorems": [
    "Dawg.Props.C45_roundtrip",
    "Dawg.Props.C45_ranked_roundtrip",
    "Dawg.Props.C45_answers_partial",
    "Dawg.Props.C45_tool_roundtrip",
    "Dawg.Props.C45_tool_writes"
   ],
   "note": "Proved in full: what is read back (library and dawgtool, all options) is identical to the in-memory objects. The answers equal those of the key set except for the queries for which C11, C22 and C31 are false."
  },
  {
   "property": "C46",
   "status": "proved",
   "theorems": [
    "Dawg.Props.C46_insert_uses_prefix",
    "Dawg.Props.C46_too_long_panics"
   ],
   "note": "For every builder state."
  },
  {
   "property": "C47",
   "status": "proved",
   "theorems": [
    "Dawg.Props.C47_unsorted"
   ],
   "note": "All lexicons whose lines parse; total size below 2^30."
  },
  {
   "property": "C48",
   "status": "partial",
   "theorems": [
    "Dawg.Props.C48_prefixes_false",
    "Dawg.Props.C48_prefixes_partial",
    "Dawg.Props.C48_no_values_partial"
   ],
   "note": "The property is false: with the line \"a<tab>354\" the query \"b\" panics. Proved for queries that do not leave the key set with the low byte of a stored value, and for all NUL-free queries when all values are 0."
  },
  {
   "property": "C49",
   "status": "partial",
   "theorems": [
    "Dawg.Props.C49_completions_false",
    "Dawg.Props.C49_empty_query_hangs",
    "Dawg.Props.C49_completions_partial"
   ],
   "note": "The property is false: printed keys end with a NUL byte, and the empty query prints for ever when the empty key is stored. Proved up to that byte from the file to all answers, except for those two kinds of query (low-byte clash, empty query with empty key)."
  },
  {
   "property": "C50",
   "status": "partial",
   "theorems": [
    "Dawg.Props.C50_ranked_false",
    "Dawg.Props.C50_ranked_partial",
    "Dawg.Props.C50_exact_partial"
   ],
   "note": "The property is false: printed keys end with a NUL byte. Proved up to that byte from the file to all answers (without -i), for queries without low-byte clash; also with the exact order of the lines."
  },
  {
   "property": "C51",
   "status": "partial",
   "theorems": [
    "Dawg.Props.C51_listing_false",
    "Dawg.Props.C51_no_guide_panics",
    "Dawg.Props.C51_listing_partial"
   ],
   "note": "The property is false: -i without -g or -r panics after the queries. Proved with -g."
  },
  {
   "property": "C52",
   "status": "partial",
   "theorems": [
    "Dawg.Props.C52_utfc_false",
    "Dawg.Props.C52_ascii_partial",
    "Dawg.Props.C52_exact_partial",
    "Dawg.Props.C52_encoded_partial"
   ],
   "note": "The property is false: the queries are not encoded. Proved for the ASCII lines of any lexicon, and for every lexicon and NUL-free query exactly what is found without a guide: the prefixes of the query that are encodings of lines."
  },
  {
   "property": "C53",
   "status": "proved",
   "theorems": [
    "Dawg.Props.C53_prefix_answers",
    "Dawg.Props.C53_completion_answers",
    "Dawg.Props.C53_file_answers"
   ],
   "note": "All lexicons of NUL-free lines below 2^21 bytes, in any order; completions are printed with the trailing NUL byte of C23."
  },
  {
   "property": "C54",
   "status": "partial",
   "theorems": [
    "Dawg.Props.C54_malformed_false",
    "Dawg.Props.C54_nul_panics",
    "Dawg.Props.C54_no_panic_partial"
   ],
   "note": "The property is false: with -t a line without a tab panics, and so do some keys with NUL bytes. Proved for all options and all other lexicons of NUL-free keys (total size below 2^30)."
  },
  {
   "property": "C55",
   "status": "partial",
   "theorems": [
    "Dawg.Props.C55_invalid_false",
    "Dawg.Props.C55_utf8_lines",
    "Dawg.Props.C55_injective_partial"
   ],
   "note": "The property is false: bytes that are not UTF-8 are all encoded as U+FFFD. Proved for all lines of UTF-8 text."
  },
  {
   "property": "C56",
   "status": "partial",
   "theorems": [
    "Dawg.Props.C56_long_line_false",
    "Dawg.Props.C56_long_line_stops",
    "Dawg.Props.C56_lines_partial"
   ],
   "note": "The property is false: at a line of 65536 bytes or more the tool silently stops reading. Proved for all lists of shorter lines. That bufio.Scanner yields these lines is proved from its code in C90."
  },
  {
   "property": "C57",
   "status": "proved",
   "theorems": [
    "Dawg.Props.C57_line",
    "Dawg.Props.C57_prefix_answers",
    "Dawg.Props.C57_completion_answers",
    "Dawg.Props.C57_ranked_answers"
   ],
   "note": "All lexicons and queries as quantified; completions are printed with the trailing NUL byte of C23, and the empty query together with the empty key is excluded for -g (C49_empty_query_hangs)."
  },
  {
   "property": "C58",
   "status": "partial",
   "theorems": [
    "Dawg.Props.C58_nul_panics_false",
    "Dawg.Props.C58_nul_free_partial"
   ],
   "note": "The property is false: after \"a\" with the value 574 the insertion of \"a\\0b\" panics. Proved for all keys without NUL bytes (total size below 2^30)."
  },
  {
   "property": "C59",
   "status": "proved",
   "theorems": [
    "Dawg.Props.C59_utfc_dictionary",
    "Dawg.Props.C59_values"
   ],
   "note": "All lists of Unicode strings inserted in the order of their encodings. C59_values also allows values, for queries without low-byte clash."
  },
  {
   "property": "C60",
   "status": "proved",
   "theorems": [
    "Dawg.Props.C60_pieces",
    "Dawg.Props.C60_from_new",
    "Dawg.Props.C60_refused",
    "Dawg.Props.C60_resume",
    "Dawg.Props.C60_clear"
   ],
   "note": "All strings, followers and states."
  },
  {
   "property": "C61",
   "status": "partial",
   "theorems": [
    "Dawg.Props.C61_truncated_false",
    "Dawg.Props.C61_only_truncated_partial"
   ],
   "note": "The property is false: [0x80] panics. Proved: the decoder panics only when the array ends within a character, and it never hangs."
  },
  {
   "property": "C62",
   "status": "partial",
   "theorems": [
    "Dawg.Props.C62_corrupt_false",
    "Dawg.Props.C62_cycle_hangs",
    "Dawg.Props.C62_load_partial",
    "Dawg.Props.C62_lookup_partial",
    "Dawg.Props.C62_tool_partial",
    "Dawg.Props.C62_guide_partial",
    "Dawg.Props.C62_ranked_partial",
    "Dawg.Props.C62_indexer_partial",
    "Dawg.Props.C62_index_partial"
   ],
   "note": "The property is false: Read checks nothing but the length, so that a query can leave the units (panic) and a guide can have cycles (the completer does not end). Proved: loading always returns; look-ups and dawgtool without a guide return when the units that can be reached lead into the dictionary; dawgtool with a guide also returns when, besides, the guide is as large as the dictionary and has no cycles, and the root has no value. Built dictionaries without the empty key satisfy these conditions (made_orderly). The same for ranked guides, when the nodes that completions need can be numbered with 32 bits (built ranked guides satisfy this, made_tame), and for indexes, whatever numbers they contain, when they are as large as the dictionary."
  },
  {
   "property": "C63",
   "status": "proved",
   "theorems": [
    "Dawg.Props.C63_canonical",
    "Dawg.Props.C63_order",
    "Dawg.Props.C63_dawg",
    "Dawg.Props.C63_file",
    "Dawg.Props.C63_lines"
   ],
   "note": "C63_canonical is an equivalence. C63_order and C63_lines also say that the outcome (error or file) is the same; C63_file is for all options and needs that both lexicons can be built (with -u see C42) and one value for each key."
  },
  {
   "property": "C64",
   "status": "partial",
   "theorems": [
    "Dawg.Props.C64_longer",
    "Dawg.Props.C64_third_partial",
    "Dawg.Props.C64_third_tight",
    "Dawg.Props.C64_no_ascii_partial",
    "Dawg.Props.C64_ascii_partial",
    "Dawg.Props.C64_one_alphabet_partial"
   ],
   "note": "The property is false: alpha and ! take 4 bytes, 3 in UTF-8. Proved: at most a third longer, and this bound is reached by texts of any length; never longer for texts without ASCII characters; the statements about ASCII text and about one alphabet hold."
  },
  {
   "property": "C65",
   "status": "partial",
   "theorems": [
    "Dawg.Props.C65_false_for_two",
    "Dawg.Props.C65_reachable_partial"
   ],
   "note": "The property is false exactly for the rows Armenian (0x0530) and Latin-1 Supplement (0x0080), which are never used: current alphabets begin at multiples of 128, and at 0 for everything below 0x0300. Proved for all other rows and for all alphabets that are not listed."
  },
  {
   "property": "C66",
   "status": "partial",
   "theorems": [
    "Dawg.Props.C66_failed_build_false",
    "Dawg.Props.C66_failed_build_partial"
   ],
   "note": "The property is false: the file is created before the lexicon is read, so that a failed build leaves it empty or incomplete. Proved for NUL-free keys (below 2^30 bytes): a build that ends normally leaves a complete file; after a failed one every run with this file and the same options stops with an error before it answers anything."
  },
  {
   "property": "C67",
   "status": "partial",
   "theorems": [
    "Dawg.Props.C67_key_count_false",
    "Dawg.Props.C67_statistics_partial"
   ],
   "note": "The property is false: the number of keys counts the non-empty lines, so repeated keys too. Proved for all lexicons of NUL-free keys (below 2^30 bytes): the whole printed text, with all other numbers as in the property. The text of the ratio of unused units is a parameter here; see C92."
  },
  {
   "property": "C68",
   "status": "partial",
   "theorems": [
    "Dawg.Props.C68_newline_false",
    "Dawg.Props.C68_no_guide_partial",
    "Dawg.Props.C68_text_partial",
    "Dawg.Props.C68_ranked_partial",
    "Dawg.Props.C68_ranked_text_partial",
    "Dawg.Props.C68_no_guide_text_partial"
   ],
   "note": "The property is false: with -u a key can contain a newline. Proved without a guide for every dictionary file, and with -g or -r when no key contains a newline, for queries without low-byte clash and, with -g, without the empty query when the empty key is stored. The exact text is proved without a guide, with -g, and with -r without -i."
  },
  {
   "property": "C69",
   "status": "partial",
   "theorems": [
    "Dawg.Props.C69_runs_end_false",
    "Dawg.Props.C69_prints_for_ever",
    "Dawg.Props.C69_no_guide_partial",
    "Dawg.Props.C69_guide_partial"
   ],
   "note": "The property is false: with -g and the empty key in the dictionary, the empty query prints for ever. Proved without a guide for every dictionary file whatever its bytes, and with a guide (-g, or -r; -r -i in C86) for queries without low-byte clash."
  },
  {
   "property": "C70",
   "status": "proved",
   "theorems": [
    "Dawg.Props.C70_only_dictionary"
   ],
   "note": "All command lines and files. Different names are supposed to be different files; the flag package is modelled from its documentation."
  },
  {
   "property": "C71",
   "status": "partial",
   "theorems": [
    "Dawg.Props.C71_lexicon_lost_false",
    "Dawg.Props.C71_lexicon_partial"
   ],
   "note": "The property is false: with -b words words the lexicon is emptied before it is read. Proved when the names differ, for all command lines; when they are equal, the file becomes the dictionary of no keys."
  },
  {
   "property": "C72",
   "status": "proved",
   "theorems": [
    "Dawg.Props.C72_options",
    "Dawg.Props.C72_settings",
    "Dawg.Props.C72_meaning"
   ],
   "note": "All sets of boolean options and all spellings, also with options that are switched off again. C72_meaning says which flag each option sets."
  },
  {
   "property": "C73",
   "status": "partial",
   "theorems": [
    "Dawg.Props.C73_names_false",
    "Dawg.Props.C73_names_partial"
   ],
   "note": "The property is false: after -l x the argument y is ignored and the dictionary is looked for in the file named \"-\". Proved for -d y x and for both flags."
  },
  {
   "property": "C74",
   "status": "proved",
   "theorems": [
    "Dawg.Props.C74_prefix_session",
    "Dawg.Props.C74_completion_session",
    "Dawg.Props.C74_values_session",
    "Dawg.Props.C74_values_completion_session",
    "Dawg.Props.C74_ranked_session"
   ],
   "note": "Under the conditions of C53 and C57; completions are printed with the trailing NUL byte of C23."
  },
  {
   "property": "C75",
   "status": "partial",
   "theorems": [
    "Dawg.Props.C75_nested_false",
    "Dawg.Props.C75_nested_partial"
   ],
   "note": "The property is false: the inner call resets the shared states. Proved for followers without inner calls, and when all strings consist of the characters U+0001 to U+007F."
  },
  {
   "property": "C76",
   "status": "partial",
   "theorems": [
    "Dawg.Props.C76_concurrent_false",
    "Dawg.Props.C76_shared_partial",
    "Dawg.Props.C76_alone_partial"
   ],
   "note": "The property is false: calls for \"a\" and \"b\" can both return \"ab\". Proved for all interleavings: what the calls return is that of one shared variable for the state and one for the bytes; a call with which no other is interleaved returns its encoding. Interruptions within one character are not modelled."
  },
  {
   "property": "C77",
   "status": "proved",
   "theorems": [
    "Dawg.Props.C77_reads"
   ],
   "note": "All dictionaries, also corrupt ones, and all keys."
  },
  {
   "property": "C78",
   "status": "partial",
   "theorems": [
    "Dawg.Props.C78_order_false",
    "Dawg.Props.C78_first_difference_partial",
    "Dawg.Props.C78_short_partial",
    "Dawg.Props.C78_row_partial"
   ],
   "note": "The property is false: the encoding of U+044F is after that of U+0451; so dawgtool -b -u refuses sorted lexicons. Proved for all strings: the first characters that differ decide, by their encodings in the state reached. Proved to be the order of code points for texts of U+0001 to U+007F and U+0410 to U+044F, and for texts of one row of 128 characters."
  },
  {
   "property": "C79",
   "status": "proved",
   "theorems": [
    "Dawg.Props.C79_size"
   ],
   "note": "All admissible histories."
  },
  {
   "property": "C80",
   "status": "proved",
   "theorems": [
    "Dawg.Props.C80_spells_keys",
    "Dawg.Props.C80_spells_prefixes"
   ],
   "note": "All admissible histories, all strings, also those for which the look-ups of the package are wrong (C11, C12). For prefixes the dictionary must have a key."
  },
  {
   "property": "C81",
   "status": "proved",
   "theorems": [
    "Dawg.Props.C81_units_determine",
    "Dawg.Props.C81_files_determine"
   ],
   "note": "All pairs of admissible histories."
  },
  {
   "property": "C82",
   "status": "partial",
   "theorems": [
    "Dawg.Props.C82_nul_false",
    "Dawg.Props.C82_nul_hits",
    "Dawg.Props.C82_nul_partial"
   ],
   "note": "The property is false in every dictionary with a key whose value has the low byte 0, such as 0: key + NUL is followed, key + NUL + any byte panics (with at most 2^21 units), and key + NUL is contained if bit 8 of the value is set. Proved when no value has the low byte 0, for queries without low-byte clash before the first NUL byte."
  },
  {
   "property": "C83",
   "status": "proved",
   "theorems": [
    "Dawg.Props.C83_follow",
    "Dawg.Props.C83_find_right",
    "Dawg.Props.C83_contains",
    "Dawg.Props.C83_contains_right",
    "Dawg.Props.C83_tool_right",
    "Dawg.Props.C83_completions_right",
    "Dawg.Props.C83_ranked_right"
   ],
   "note": "All admissible histories and all strings. For FollowString the dictionary must have a key. Dictionaries of up to 8191 bytes of keys and terminators have at most 2^21 units (small_units)."
  },
  {
   "property": "C84",
   "status": "partial",
   "theorems": [
    "Dawg.Props.C84_readers",
    "Dawg.Props.C84_label",
    "Dawg.Props.C84_hasLeaf",
    "Dawg.Props.C84_value",
    "Dawg.Props.C84_offset_false",
    "Dawg.Props.C84_offset_partial",
    "Dawg.Props.C84_extra",
    "Dawg.Props.C84_base"
   ],
   "note": "The property is false for dictSetOffset: the offset 2^21 + 1 is accepted, but 2^21 is read and the label is changed. Proved exactly for which offsets it is true (below 2^21, or below 2^29 and multiples of 256; the builder asks for no others, see C80) and everything else as stated."
  },
  {
   "property": "C85",
   "status": "proved",
   "theorems": [
    "Dawg.Props.C85_restart",
    "Dawg.Props.C85_alone",
    "Dawg.Props.C85_text",
    "Dawg.Props.C85_order"
   ],
   "note": "All files and options. With -i the list of all keys is printed once, at the end."
  },
  {
   "property": "C86",
   "status": "partial",
   "theorems": [
    "Dawg.Props.C86_listing_false",
    "Dawg.Props.C86_index",
    "Dawg.Props.C86_listing_partial",
    "Dawg.Props.C86_writes",
    "Dawg.Props.C86_all",
    "Dawg.Props.C86_run_partial",
    "Dawg.Props.C86_exact_partial"
   ],
   "note": "The property is false: with \"a\" = 1 and \"ab\" = 1 only \"a\" is listed. Proved exactly which keys an index over a ranked guide sees (every key that is a proper prefix must have a smaller value than some key that goes on with the same byte), in which order they are listed, when all are listed, when a file is written, and for queries without low-byte clash the exact text of the run: the completions in their order, \"not found\" for strings that are no keys, and for listed keys the number of C88. For stored keys that are not listed C88_stored_partial and C88_number_partial give the number."
  },
  {
   "property": "C87",
   "status": "partial",
   "theorems": [
    "Dawg.Props.C87_options_false",
    "Dawg.Props.C87_order_false",
    "Dawg.Props.C87_load",
    "Dawg.Props.C87_same",
    "Dawg.Props.C87_ranked_completer",
    "Dawg.Props.C87_plain_completer",
    "Dawg.Props.C87_plain_file_partial",
    "Dawg.Props.C87_ranked_file_partial"
   ],
   "note": "The property is false: a file of \"a\" = 1 and \"ab\" = 1 written with -r gives only \"a\" when queried with -g, and a file of \"a\" = 1 and \"b\" = 2 written with -g gives \"a\" first when queried with -r. Proved what is loaded for all pairs of options, when the options of the build do not matter, that -r gets every key with the prefix once from a file written with -g, and exactly which keys -g gets from a file written with -r and in which order (except for the empty query when the empty key is stored, see C24)."
  },
  {
   "property": "C88",
   "status": "partial",
   "theorems": [
    "Dawg.Props.C88_inverse_false",
    "Dawg.Props.C88_rank",
    "Dawg.Props.C88_inverse_partial",
    "Dawg.Props.C88_exact_partial",
    "Dawg.Props.C88_stored_partial",
    "Dawg.Props.C88_number_partial"
   ],
   "note": "The property is false: with \"a\" = 5, \"ab\" = 3 and \"b\" = 7, \"a\" has the number 1 and StringToIndex gives 0, the number of \"b\". Proved that the number is never too great, that it is right exactly if all keys with smaller numbers are smaller as strings, for which key sets it is right for all keys, exactly which of the keys before a listed key are counted, and that strings that are no keys are not found if they do not clash with a low byte (for those that do see C31). For stored keys, listed or not: exactly which are not found, that the number is at most the number of smaller keys, and in dictionaries of at most 2^21 units exactly which keys are counted. Not proved: which keys are counted for unlisted keys in dictionaries of more than 2^21 units."
  },
  {
   "property": "C89",
   "status": "proved",
   "theorems": [
    "Dawg.Props.C89_dictionary",
    "Dawg.Props.C89_guide",
    "Dawg.Props.C89_index",
    "Dawg.Props.C89_roundtrip",
    "Dawg.Props.C89_tool"
   ],
   "note": "All readers that deliver the bytes and keep to the contract of io.Reader. For the queries of the tool: not more than 100 empty reads in a row (the limit of bufio.Scanner), and either the reader gives its error alone, as an os.File does, or no query has 65536 bytes or more (C90_together shows that one of the two is needed)."
  },
  {
   "property": "C90",
   "status": "partial",
   "theorems": [
    "Dawg.Props.C90_read_error_false",
    "Dawg.Props.C90_lines_partial",
    "Dawg.Props.C90_read_error_partial",
    "Dawg.Props.C90_together"
   ],
   "note": "The property is false: the tool does not look at scanner.Err, so a lexicon \"a\", \"b\" that cannot be read beyond its first line gives a dictionary of \"a\" and the tool ends normally. Proved for all readers that give their error alone, and for all readers when no line has 65536 bytes or more: the lines are those of the bytes delivered (bufio.Scanner is modelled with its buffer), and the tool prints, writes and ends as if the lexicon ended at the error. C90_together: when the error comes together with the last bytes, a last line of exactly 65536 bytes is a line, otherwise it is too long."
  },
  {
   "property": "C91",
   "status": "proved",
   "theorems": [
    "Dawg.Props.C91_write",
    "Dawg.Props.C91_tool"
   ],
   "note": "All writers that keep to the contract of io.Writer. Errors that the system reports only when the file is closed are not modelled (the tool ignores them)."
  },
  {
   "property": "C92",
   "status": "proved",
   "theorems": [
    "Dawg.Props.C92_ratio",
    "Dawg.Props.C92_tool"
   ],
   "note": "All numbers. The division of float64s and the formatting of strconv are modelled from IEEE 754 and the documentation; halves may be rounded to either side."
  },
  {
   "property": "C93",
   "status": "proved",
   "theorems": [
    "Dawg.Props.C93_lexicon",
    "Dawg.Props.C93_build",
    "Dawg.Props.C93_load",
    "Dawg.Props.C93_program"
   ],
   "note": "The texts of the errors of the library (strconv, os) are parameters, the date before a message is left out, and writes do not fail here (see C91). C93_lexicon and C93_build are for NUL-free keys below 1 GB."
  },
  {
   "property": "C94",
   "status": "proved",
   "theorems": [
    "Dawg.Props.C94_units",
    "Dawg.Props.C94_bound",
    "Dawg.Props.C94_table"
   ],
   "note": "All admissible histories. Capacities of slices, which may be up to twice as large as their lengths, are not modelled."
  },
  {
   "property": "C95",
   "status": "partial",
   "theorems": [
    "Dawg.Props.C95_dawg_false",
    "Dawg.Props.C95_dawg_partial",
    "Dawg.Props.C95_build",
    "Dawg.Props.C95_guide",
    "Dawg.Props.C95_in_use"
   ],
   "note": "The property is false for Dawgs: Clear keeps NumOfMergedTransitions and NumOfMergingStates. Proved: nothing else is kept, so that a cleared Dawg is as new exactly if no two prefixes of its keys had the same suffixes; what is built from a cleared Dawg is as from one without keys, although the kept number sets the size of the link table; guides in full. A completer in use panics when its guide is cleared."
  },
  {
   "property": "C96",
   "status": "proved",
   "theorems": [
    "Dawg.Props.C96_next",
    "Dawg.Props.C96_ranked",
    "Dawg.Props.C96_heap"
   ],
   "note": "C96_next holds for all dictionaries and guides, also those from arbitrary files. Rounds and queue lengths are counted; the rounds within a heap operation are bounded by the logarithm of the queue length in C96_heap, for all queues."
  },
  {
   "property": "C97",
   "status": "partial",
   "theorems": [
    "Dawg.Props.C97_shortest_false",
    "Dawg.Props.C97_one_alphabet_partial"
   ],
   "note": "The property is false, and what is wasted has no bound: text in which Kanji and Hiragana alternate takes 5 bytes for a pair where 4 would do. Proved for texts of ASCII characters and one alphabet of 128 code points (below U+2000, Hiragana, Katakana)."
  },
  {
   "property": "C98",
   "status": "proved",
   "theorems": [
    "Dawg.Props.C98_string_to_index",
    "Dawg.Props.C98_index_to_string"
   ],
   "note": "All arrays, also corrupt ones. Stated by the units on which the results depend: all other units may be changed."
  },
  {
   "property": "C99",
   "status": "partial",
   "theorems": [
    "Dawg.Props.C99_memory_false",
    "Dawg.Props.C99_read_partial",
    "Dawg.Props.C99_tool_partial"
   ],
   "note": "The property is false: for a file of the four bytes FF FF FF FF, 17 GB are asked for. Proved: exactly for the files that are not accepted more is asked for than there is; when a file is accepted, as much is asked for as is read; and never more than one object of 2^32 - 1 units beyond the size of the file. The buffer that encoding/binary makes, as large again, is not counted."
  },
  {
   "property": "C100",
   "status": "partial",
   "theorems": [
    "Dawg.Props.C100_byte_order_false",
    "Dawg.Props.C100_equal_values_partial"
   ],
   "note": "The property is false: aa, ab and b, all with value 0, are listed as aa, b, ab, because of two candidates with equal values the heap prefers the one that was queued later. Proved instead, for all lexicons: the exact order when all keys with the prefix have the same value. For arbitrary values and comparators see C29_exact_order_partial."
  },
  {
   "property": "C101",
   "status": "proved",
   "theorems": [
    "Dawg.Props.C101_same_result",
    "Dawg.Props.C101_search_cost",
    "Dawg.Props.C101_search_units"
   ],
   "note": "Counted are the calls of isGoodOffset, in copies of the functions of the builder with a counter (Model/Probes.lean), which are proved to give the same results for every Dawg. A call looks at no more units than the state has transitions."
  },
  {
   "property": "C102",
   "status": "proved",
   "theorems": [
    "Dawg.Props.C102_dictionary",
    "Dawg.Props.C102_guide",
    "Dawg.Props.C102_index",
    "Dawg.Props.C102_tool"
   ],
   "note": "For all byte sequences."
  },
  {
   "property": "C103",
   "status": "partial",
   "theorems": [
    "Dawg.Props.C103_search",
    "Dawg.Props.C103_flood",
    "Dawg.Props.C103_quadratic",
    "Dawg.Props.C103_bounded_false",
    "Dawg.Props.C103_worst_partial"
   ],
   "note": "The property is false for every bound below 19990, whatever the size of the table: the hash of a state is the exclusive or of the hashes of its transitions, so a key whose value gives the same word as one of the other transitions makes both disappear; 3(m + 2) keys of this kind give m states with the same hash. Proved instead that no search looks at more slots than there are states so far. The witness is limited to 19990 only because its keys grow and their total length must stay below 1 GB."
  },
  {
   "property": "C104",
   "status": "proved",
   "theorems": [
    "Dawg.Props.C104_dictionary",
    "Dawg.Props.C104_guide",
    "Dawg.Props.C104_ranked",
    "Dawg.Props.C104_index",
    "Dawg.Props.C104_needed"
   ],
   "note": "More nested calls than the limit are the fault hang in the model. The size of stack frames and the limit of the Go runtime are not modelled."
  },
  {
   "property": "C105",
   "status": "proved",
   "theorems": [
    "Dawg.Props.C105_same",
    "Dawg.Props.C105_guide",
    "Dawg.Props.C105_ranked",
    "Dawg.Props.C105_index",
    "Dawg.Props.C105_rounds"
   ],
   "note": "Counted in copies of the functions with a counter (Model/Calls.lean), which are proved to give the same results for every input. The rounds of findMaxValue are limited in a copy of the ranked builder (Props/Rounds.lean), which gives the same guide."
  },
  {
   "property": "C106",
   "status": "proved",
   "theorems": [
    "Dawg.Props.C106_shared",
    "Dawg.Props.C106_one_unit_each",
    "Dawg.Props.C106_unused"
   ],
   "note": "All admissible histories. Beyond 2^21 units a recorded place can be too far away to be encoded, and the state is placed again; C79 gives the bounds there."
  },
  {
   "property": "C107",
   "status": "partial",
   "theorems": [
    "Dawg.Props.C107_blocks",
    "Dawg.Props.C107_blocks_used_partial",
    "Dawg.Props.C107_sparse",
    "Dawg.Props.C107_quarter_false"
   ],
   "note": "The property is false: two states whose bytes have all 256 differences can never lie in the same block of 256 units, and 31 bytes are enough for that (those with a hexadecimal digit 1). So the dictionary of sparse m has at least m blocks of which at most 61 m + 2 units are in use, for every m for which it can be built; m = 256 is the witness. Proved instead: the number of blocks is at least that of states of this kind, at most that of the units in use, and in dictionaries of at most 2^21 units at most NumOfStates."
  },
  {
   "property": "C108",
   "status": "partial",
   "theorems": [
    "Dawg.Props.C108_unsorted_partial",
    "Dawg.Props.C108_sorted_partial",
    "Dawg.Props.C108_sorted_utfc_partial",
    "Dawg.Props.C108_sorted_false"
   ],
   "note": "The property holds without -s, for all other options. With -s it is false: the lines are sorted as text, so of \"a 9\" and \"a 10\" (with tabs) the value 9 is stored whatever their order. Proved instead: with -s and without -u the textually greatest of the lines with the key decides; with -s -u the last of those with the longest encoding."
  },
  {
   "property": "C109",
   "status": "proved",
   "theorems": [
    "Dawg.Props.C109_same",
    "Dawg.Props.C109_listing"
   ],
   "note": "Counted in copies of the functions with counters (Model/Steps.lean), which are proved to give the same results for every input. Starting at the root when the empty key is stored is excluded, since listing does not end there (C24)."
  },
  {
   "property": "C110",
   "status": "partial",
   "theorems": [
    "Dawg.Props.C110_any_number",
    "Dawg.Props.C110_false",
    "Dawg.Props.C110_partial"
   ],
   "note": "The property is false: TotalCount is the first unit of the index, and nothing compares it with the dictionary. Changing four bytes of any file written with -g -i makes dawgtool print any number of words below 2^32, the keys and then empty words. Proved instead: the number of words is always this unit, and for files that dawgtool wrote with -g -i the list has all keys in order, each of them once."
  },
  {
   "property": "C111",
   "status": "partial",
   "theorems": [
    "Dawg.Props.C111_exact_partial",
    "Dawg.Props.C111_used_partial",
    "Dawg.Props.C111_false"
   ],
   "note": "The property is false for the zero value Dawg{}: Finish hands its pools to the builder and clears them, and the pointer to the bit pool is nil there; Finish panics after the Dawg has been filled in. Proved for every variable whose bit pool is not nil: those from NewDawg, used ones and cleared ones."
  }
 ]
}