CLAIMS = [
 ('C01', 'proved', ['C01_accepts_in_order', 'C01_accepts_iff', 'C01_insertString'], 'All admissible histories (NUL-free keys, total size < 2^30), sizes 1 to 2^32-1.'),
 ('C02', 'proved', ['C02_rejection_has_no_effect', 'C02_rejection_unobservable'], 'The builder itself is unchanged; the finished Dawg and all other verdicts are too.'),
 ('C03', 'proved', ['C03_reinsert_overwrites', 'C03_reinsert_accepted'], ''),
 ('C04', 'proved', ['C04_walk_lists_accepted', 'C04_listing_sorted', 'C04_sibling_labels_increase'], 'Values are stored modulo 2^31, so exactly for non-negative ones.'),
 ('C05', 'proved', ['C05_states_differ', 'C05_number_of_states'], ''),
 ('C06', 'proved', ['C06_trie_counts', 'C06_number_of_transitions', 'C06_number_of_merging', 'C06_merging_iff', 'C06_merging_is_state'], ''),
 ('C07', 'proved', ['C07_build_returns'], ''),
 ('C08', 'proved', ['C08_table_size_unobservable', 'C08_size_zero_panics'], 'Size 0 is excluded: a panic is proved for it.'),
 ('C09', 'partial', ['C09_reuse_panics', 'C09_finish_empties_partial'], 'The property is false: every use of a finished builder panics (proved for all builders), since clear leaves a hash table of length one. Proved part: the builder is otherwise empty.'),
 ('C10', 'proved', ['C10_inserted_found', 'C10_nonnegative_value_found', 'C10_negative_value_found'], 'All dictionaries returned by Build for admissible histories.'),
 ('C11', 'partial', ['C11_nothing_else_false', 'C11_nothing_else_partial'], 'The property is false (proved with a computed dictionary): dictLabel drops the leaf bit, so value units answer to the low byte of the value. Proved for queries that do not leave the key set with such a byte.'),
 ('C12', 'partial', ['C12_prefixes_false', 'C12_prefixes_followed_partial', 'C12_prefixes_partial'], 'False for the same reason. Proved: prefixes of keys can always be followed; the equivalence for queries that do not leave the key set with the low byte of a stored value.'),
 ('C13', 'partial', ['C13_no_panic_false', 'C13_find_panics', 'C13_no_panic_partial'], 'False for the same reason: a panic is proved. Proved for queries that do not leave the key set with the low byte of a stored value.'),
 ('C14', 'proved', ['C14_build_total', 'C14_small_builds'], 'All admissible histories.'),
 ('C15', 'proved', ['C15_unused_exact'], ''),
 ('C16', 'partial', ['C16_findString_decides_partial', 'C16_containsString_decides_partial', 'C16_literal_counterexample', 'C16_built_counterexample', 'C16_built_partial'],
  'Holds for all unit arrays and keys whenever FindString returns; on a malformed array ContainsString can be true while FindString panics, and also on some built dictionaries (counterexamples proved). Proved in full for built dictionaries and queries without low-byte clash.'),
 ('C17', 'proved', ['C17_len_variants'], 'All unit arrays, keys, lengths <= len(key).'),
 ('C18', 'proved', ['C18_follow_append', 'C18_count_is_longest_prefix'], 'All unit arrays, keys and start indices.'),
 ('C19', 'proved', ['C19_dictionary_roundtrip', 'C19_guide_roundtrip', 'C19_index_roundtrip', 'C19_stream_roundtrip'], 'All objects with fewer than 2^32 units; RankedGuide and Guide share the file format and model.'),
 ('C20', 'proved', ['C20_file_size'], ''),
 ('C21', 'partial', ['C21_dictionary_truncated', 'C21_guide_truncated', 'C21_index_truncated_partial', 'C21_index_counterexample'], 'Dictionary and guides in full; for Index the receiver is destroyed by a failed Read (negation proved), rejection is proved.'),
 ('C22', 'partial', ['C22_completions_false', 'C22_completions_partial'], 'The property is false at the root of a dictionary with the empty key (the empty key is returned for ever). Proved for all other key sets and prefixes, with any string given to StartString.'),
 ('C23', 'partial', ['C23_exact_false', 'C23_exact_partial'], 'The property is false: Key() ends in a NUL byte. Proved: without that byte it is the completion, and Length() does not count it.'),
 ('C24', 'partial', ['C24_ends_false', 'C24_empty_key_repeats', 'C24_ends_partial'], 'The property is false at the root of a dictionary with the empty key: proved for all such dictionaries. Proved for all other prefixes.'),
 ('C25', 'proved', ['C25_restart', 'C25_ranked_restart'], 'All dictionaries, guides, completer states, indices, prefixes and lengths.'),
 ('C26', 'proved', ['C26_guide'], 'All dictionaries returned by Build for admissible histories; for every index of a prefix of a key.'),
 ('C30', 'partial', ['C30_counts_false', 'C30_empty_panics', 'C30_counts_partial'], 'The property is false for the empty key set: BuildIndex panics on the empty guide (proved for all dictionaries without keys). Proved for all other key sets.'),
 ('C31', 'partial', ['C31_rank_false', 'C31_rank_partial'], 'The property is false: with a=354, i=256 StringToIndex("b") is 1. Proved for all inserted keys, and NotFound for all other queries that do not leave the key set with the low byte of a stored value.'),
 ('C32', 'proved', ['C32_select'], 'All indices that BuildIndex returns, all i.'),
 ('C27', 'proved', ['C27_ranked_guide', 'C27_completions'], 'All admissible histories, every comparator, every sorting routine that permutes its input, every prefix (the root and the empty key included). Key() ends in a NUL byte as for the plain completer (C23); each key comes once, with its value.'),
 ('C28', 'proved', ['C28_values_never_increase'], 'All admissible histories and prefixes; for every sorting routine with the contract of sort.SliceStable.'),
 ('C29', 'partial', ['C29_custom_order_false', 'C29_best_first_partial', 'C29_agreeing_partial', 'C29_exact_order_partial'], 'The property is false: with aa=1, ab=3, b=2 and the comparator > the values come as 1, 3, 2, because the candidate heap always uses <. Proved: the first completion is the best one for every strict total order, and the whole order is right when the comparator agrees with < on the stored values; and the exact order for every strict total order, as a function of the keys and values.'),
 ('C33', 'partial', ['C33_ranked_index_false', 'C33_counts_partial', 'C33_ranks_partial'], 'The property is false: with a=1, ab=1 the total count over a ranked guide is 1. Proved: the counts are right when keys have larger values than their proper prefixes, ranks and selection when values also fall in byte order.'),
 ('C34', 'partial', ['C34_follow_false', 'C34_index_false', 'C34_empty_false', 'C34_empty_partial', 'C34_follow_exact_partial'], 'The property is false: on an empty dictionary FollowString("a") succeeds and BuildIndex panics. Proved: look-ups miss and both completers list nothing; and exactly which strings FollowString accepts (NUL bytes, and possibly one byte other than 1 at the end).'),
 ('C35', 'partial', ['C35_nul_keys_false', 'C35_nul_free_partial'], 'The property is false: a computed dictionary is exhibited. NUL-free keys are found.'),
 ('C36', 'partial', ['C36_roundtrip_false', 'C36_roundtrip_iff_partial', 'C36_roundtrip_partial', 'C36_single_char_partial'], 'The property is false (U+2601 U+2600 makes the decoder panic). Proved: an exact characterisation of the strings that survive, and that strings without U+2600, U+A600, U+12600, ... survive.'),
 ('C37', 'proved', ['C37_no_nul'], 'All strings.'),
 ('C38', 'proved', ['C38_prefix_iff', 'C38_injective'], 'All strings.'),
 ('C39', 'proved', ['C39_length'], 'All strings.'),
 ('C40', 'proved', ['C40_follow'], 'All strings and all followers.'),
 ('C41', 'partial', ['C41_stable_false', 'C41_until_next_call_partial'], 'The property is false (shared buffer). Proved: what the slice holds at return and after the next call, for every growth strategy of append.'),
 ('C42', 'partial', ['C42_utfc_false', 'C42_tab_false', 'C42_sorted_partial', 'C42_tab_partial', 'C42_utfc_partial', 'C42_tab_exact_partial', 'C42_utfc_tab_partial'], 'The property is false with -u (comparator only compares lengths) and with -t and control characters. Proved without -u and -t for all lexicons of NUL-free lines; with -t, with -u and with both, exactly which lexicons are accepted (with -t: no key is another key followed by a byte below 9), and that all others end with an error; for every sorting routine with the contract of sort.SliceStable.'),
 ('C43', 'proved', ['C43_linkTable_is_map'], 'For every sequence of Insert/Find operations over at most as many distinct non-zero indices as slots.'),
 ('C44', 'proved', ['C44_bitPool_is_bit_array'], 'For every sequence of allocations and in-range writes.'),
 ('C45', 'partial', ['C45_roundtrip', 'C45_ranked_roundtrip', 'C45_answers_partial', 'C45_tool_roundtrip', 'C45_tool_writes'], 'Proved in full: what is read back (library and dawgtool, all options) is identical to the in-memory objects. The answers equal those of the key set except for the queries for which C11, C22 and C31 are false.'),
 ('C46', 'proved', ['C46_insert_uses_prefix', 'C46_too_long_panics'], 'For every builder state.'),
 ('C47', 'proved', ['C47_unsorted'], 'All lexicons whose lines parse; total size below 2^30.'),
 ('C48', 'partial', ['C48_prefixes_false', 'C48_prefixes_partial', 'C48_no_values_partial'], 'The property is false: with the line "a<tab>354" the query "b" panics. Proved for queries that do not leave the key set with the low byte of a stored value, and for all NUL-free queries when all values are 0.'),
 ('C49', 'partial', ['C49_completions_false', 'C49_empty_query_hangs', 'C49_completions_partial'], 'The property is false: printed keys end with a NUL byte, and the empty query prints for ever when the empty key is stored. Proved up to that byte from the file to all answers, except for those two kinds of query (low-byte clash, empty query with empty key).'),
 ('C50', 'partial', ['C50_ranked_false', 'C50_ranked_partial', 'C50_exact_partial'], 'The property is false: printed keys end with a NUL byte. Proved up to that byte from the file to all answers (without -i), for queries without low-byte clash; also with the exact order of the lines.'),
 ('C51', 'partial', ['C51_listing_false', 'C51_no_guide_panics', 'C51_listing_partial'], 'The property is false: -i without -g or -r panics after the queries. Proved with -g.'),
 ('C52', 'partial', ['C52_utfc_false', 'C52_ascii_partial', 'C52_exact_partial', 'C52_encoded_partial'], 'The property is false: the queries are not encoded. Proved for the ASCII lines of any lexicon, and for every lexicon and NUL-free query exactly what is found without a guide: the prefixes of the query that are encodings of lines.'),
 ('C53', 'proved', ['C53_prefix_answers', 'C53_completion_answers', 'C53_file_answers'], 'All lexicons of NUL-free lines below 2^21 bytes, in any order; completions are printed with the trailing NUL byte of C23.'),
 ('C54', 'partial', ['C54_malformed_false', 'C54_nul_panics', 'C54_no_panic_partial'], 'The property is false: with -t a line without a tab panics, and so do some keys with NUL bytes. Proved for all options and all other lexicons of NUL-free keys (total size below 2^30).'),
 ('C55', 'partial', ['C55_invalid_false', 'C55_utf8_lines', 'C55_injective_partial'], 'The property is false: bytes that are not UTF-8 are all encoded as U+FFFD. Proved for all lines of UTF-8 text.'),
 ('C56', 'partial', ['C56_long_line_false', 'C56_long_line_stops', 'C56_lines_partial'], 'The property is false: at a line of 65536 bytes or more the tool silently stops reading. Proved for all lists of shorter lines. That bufio.Scanner yields these lines is proved from its code in C90.'),
 ('C57', 'proved', ['C57_line', 'C57_prefix_answers', 'C57_completion_answers', 'C57_ranked_answers'], 'All lexicons and queries as quantified; completions are printed with the trailing NUL byte of C23, and the empty query together with the empty key is excluded for -g (C49_empty_query_hangs).'),
 ('C58', 'partial', ['C58_nul_panics_false', 'C58_nul_free_partial'], 'The property is false: after "a" with the value 574 the insertion of "a\\0b" panics. Proved for all keys without NUL bytes (total size below 2^30).'),
 ('C59', 'proved', ['C59_utfc_dictionary', 'C59_values'], 'All lists of Unicode strings inserted in the order of their encodings. C59_values also allows values, for queries without low-byte clash.'),
 ('C60', 'proved', ['C60_pieces', 'C60_from_new', 'C60_refused', 'C60_resume', 'C60_clear'], 'All strings, followers and states.'),
 ('C61', 'partial', ['C61_truncated_false', 'C61_only_truncated_partial'], 'The property is false: [0x80] panics. Proved: the decoder panics only when the array ends within a character, and it never hangs.'),
 ('C62', 'partial', ['C62_corrupt_false', 'C62_cycle_hangs', 'C62_load_partial', 'C62_lookup_partial', 'C62_tool_partial', 'C62_guide_partial', 'C62_ranked_partial', 'C62_indexer_partial', 'C62_index_partial'], 'The property is false: Read checks nothing but the length, so that a query can leave the units (panic) and a guide can have cycles (the completer does not end). Proved: loading always returns; look-ups and dawgtool without a guide return when the units that can be reached lead into the dictionary; dawgtool with a guide also returns when, besides, the guide is as large as the dictionary and has no cycles, and the root has no value. Built dictionaries without the empty key satisfy these conditions (made_orderly). The same for ranked guides, when the nodes that completions need can be numbered with 32 bits (built ranked guides satisfy this, made_tame), and for indexes, whatever numbers they contain, when they are as large as the dictionary.'),
 ('C63', 'proved', ['C63_canonical', 'C63_order', 'C63_dawg', 'C63_file', 'C63_lines'], 'C63_canonical is an equivalence. C63_order and C63_lines also say that the outcome (error or file) is the same; C63_file is for all options and needs that both lexicons can be built (with -u see C42) and one value for each key.'),
 ('C64', 'partial', ['C64_longer', 'C64_third_partial', 'C64_third_tight', 'C64_no_ascii_partial', 'C64_ascii_partial', 'C64_one_alphabet_partial'], 'The property is false: alpha and ! take 4 bytes, 3 in UTF-8. Proved: at most a third longer, and this bound is reached by texts of any length; never longer for texts without ASCII characters; the statements about ASCII text and about one alphabet hold.'),
 ('C65', 'partial', ['C65_false_for_two', 'C65_reachable_partial'], 'The property is false exactly for the rows Armenian (0x0530) and Latin-1 Supplement (0x0080), which are never used: current alphabets begin at multiples of 128, and at 0 for everything below 0x0300. Proved for all other rows and for all alphabets that are not listed.'),
 ('C66', 'partial', ['C66_failed_build_false', 'C66_failed_build_partial'], 'The property is false: the file is created before the lexicon is read, so that a failed build leaves it empty or incomplete. Proved for NUL-free keys (below 2^30 bytes): a build that ends normally leaves a complete file; after a failed one every run with this file and the same options stops with an error before it answers anything.'),
 ('C67', 'partial', ['C67_key_count_false', 'C67_statistics_partial'], 'The property is false: the number of keys counts the non-empty lines, so repeated keys too. Proved for all lexicons of NUL-free keys (below 2^30 bytes): the whole printed text, with all other numbers as in the property. The text of the ratio of unused units is a parameter here; see C92.'),
 ('C68', 'partial', ['C68_newline_false', 'C68_no_guide_partial', 'C68_text_partial', 'C68_ranked_partial', 'C68_ranked_text_partial', 'C68_no_guide_text_partial'], 'The property is false: with -u a key can contain a newline. Proved without a guide for every dictionary file, and with -g or -r when no key contains a newline, for queries without low-byte clash and, with -g, without the empty query when the empty key is stored. The exact text is proved without a guide, with -g, and with -r without -i.'),
 ('C69', 'partial', ['C69_runs_end_false', 'C69_prints_for_ever', 'C69_no_guide_partial', 'C69_guide_partial'], 'The property is false: with -g and the empty key in the dictionary, the empty query prints for ever. Proved without a guide for every dictionary file whatever its bytes, and with a guide (-g, or -r; -r -i in C86) for queries without low-byte clash.'),
 ('C70', 'proved', ['C70_only_dictionary'], 'All command lines and files. Different names are supposed to be different files; the flag package is modelled from its documentation.'),
 ('C71', 'partial', ['C71_lexicon_lost_false', 'C71_lexicon_partial'], 'The property is false: with -b words words the lexicon is emptied before it is read. Proved when the names differ, for all command lines; when they are equal, the file becomes the dictionary of no keys.'),
 ('C72', 'proved', ['C72_options', 'C72_settings', 'C72_meaning'], 'All sets of boolean options and all spellings, also with options that are switched off again. C72_meaning says which flag each option sets.'),
 ('C73', 'partial', ['C73_names_false', 'C73_names_partial'], 'The property is false: after -l x the argument y is ignored and the dictionary is looked for in the file named "-". Proved for -d y x and for both flags.'),
 ('C74', 'proved', ['C74_prefix_session', 'C74_completion_session', 'C74_values_session', 'C74_values_completion_session', 'C74_ranked_session'], 'Under the conditions of C53 and C57; completions are printed with the trailing NUL byte of C23.'),
 ('C75', 'partial', ['C75_nested_false', 'C75_nested_partial'], 'The property is false: the inner call resets the shared states. Proved for followers without inner calls, and when all strings consist of the characters U+0001 to U+007F.'),
 ('C76', 'partial', ['C76_concurrent_false', 'C76_shared_partial', 'C76_alone_partial'], 'The property is false: calls for "a" and "b" can both return "ab". Proved for all interleavings: what the calls return is that of one shared variable for the state and one for the bytes; a call with which no other is interleaved returns its encoding. Interruptions within one character are not modelled.'),
 ('C77', 'proved', ['C77_reads'], 'All dictionaries, also corrupt ones, and all keys.'),
 ('C78', 'partial', ['C78_order_false', 'C78_first_difference_partial', 'C78_short_partial', 'C78_row_partial'], 'The property is false: the encoding of U+044F is after that of U+0451; so dawgtool -b -u refuses sorted lexicons. Proved for all strings: the first characters that differ decide, by their encodings in the state reached. Proved to be the order of code points for texts of U+0001 to U+007F and U+0410 to U+044F, and for texts of one row of 128 characters.'),
 ('C79', 'proved', ['C79_size'], 'All admissible histories.'),
 ('C80', 'proved', ['C80_spells_keys', 'C80_spells_prefixes'], 'All admissible histories, all strings, also those for which the look-ups of the package are wrong (C11, C12). For prefixes the dictionary must have a key.'),
 ('C81', 'proved', ['C81_units_determine', 'C81_files_determine'], 'All pairs of admissible histories.'),
 ('C82', 'partial', ['C82_nul_false', 'C82_nul_hits', 'C82_nul_partial'], 'The property is false in every dictionary with a key whose value has the low byte 0, such as 0: key + NUL is followed, key + NUL + any byte panics (with at most 2^21 units), and key + NUL is contained if bit 8 of the value is set. Proved when no value has the low byte 0, for queries without low-byte clash before the first NUL byte.'),
 ('C83', 'proved', ['C83_follow', 'C83_find_right', 'C83_contains', 'C83_contains_right', 'C83_tool_right', 'C83_completions_right', 'C83_ranked_right'], 'All admissible histories and all strings. For FollowString the dictionary must have a key. Dictionaries of up to 8191 bytes of keys and terminators have at most 2^21 units (small_units).'),
 ('C84', 'partial', ['C84_readers', 'C84_label', 'C84_hasLeaf', 'C84_value', 'C84_offset_false', 'C84_offset_partial', 'C84_extra', 'C84_base'], 'The property is false for dictSetOffset: the offset 2^21 + 1 is accepted, but 2^21 is read and the label is changed. Proved exactly for which offsets it is true (below 2^21, or below 2^29 and multiples of 256; the builder asks for no others, see C80) and everything else as stated.'),
 ('C85', 'proved', ['C85_restart', 'C85_alone', 'C85_text', 'C85_order'], 'All files and options. With -i the list of all keys is printed once, at the end.'),
 ('C86', 'partial', ['C86_listing_false', 'C86_index', 'C86_listing_partial', 'C86_writes', 'C86_all', 'C86_run_partial', 'C86_exact_partial'], 'The property is false: with "a" = 1 and "ab" = 1 only "a" is listed. Proved exactly which keys an index over a ranked guide sees (every key that is a proper prefix must have a smaller value than some key that goes on with the same byte), in which order they are listed, when all are listed, when a file is written, and for queries without low-byte clash the exact text of the run: the completions in their order, "not found" for strings that are no keys, and for listed keys the number of C88. For stored keys that are not listed C88_stored_partial and C88_number_partial give the number.'),
 ('C87', 'partial', ['C87_options_false', 'C87_order_false', 'C87_load', 'C87_same', 'C87_ranked_completer', 'C87_plain_completer', 'C87_plain_file_partial', 'C87_ranked_file_partial'], 'The property is false: a file of "a" = 1 and "ab" = 1 written with -r gives only "a" when queried with -g, and a file of "a" = 1 and "b" = 2 written with -g gives "a" first when queried with -r. Proved what is loaded for all pairs of options, when the options of the build do not matter, that -r gets every key with the prefix once from a file written with -g, and exactly which keys -g gets from a file written with -r and in which order (except for the empty query when the empty key is stored, see C24).'),
 ('C88', 'partial', ['C88_inverse_false', 'C88_rank', 'C88_inverse_partial', 'C88_exact_partial', 'C88_stored_partial', 'C88_number_partial'], 'The property is false: with "a" = 5, "ab" = 3 and "b" = 7, "a" has the number 1 and StringToIndex gives 0, the number of "b". Proved that the number is never too great, that it is right exactly if all keys with smaller numbers are smaller as strings, for which key sets it is right for all keys, exactly which of the keys before a listed key are counted, and that strings that are no keys are not found if they do not clash with a low byte (for those that do see C31). For stored keys, listed or not: exactly which are not found, that the number is at most the number of smaller keys, and in dictionaries of at most 2^21 units exactly which keys are counted. Not proved: which keys are counted for unlisted keys in dictionaries of more than 2^21 units.'),
 ('C89', 'proved', ['C89_dictionary', 'C89_guide', 'C89_index', 'C89_roundtrip', 'C89_tool'], 'All readers that deliver the bytes and keep to the contract of io.Reader. For the queries of the tool: not more than 100 empty reads in a row (the limit of bufio.Scanner), and either the reader gives its error alone, as an os.File does, or no query has 65536 bytes or more (C90_together shows that one of the two is needed).'),
 ('C90', 'partial', ['C90_read_error_false', 'C90_lines_partial', 'C90_read_error_partial', 'C90_together'], 'The property is false: the tool does not look at scanner.Err, so a lexicon "a", "b" that cannot be read beyond its first line gives a dictionary of "a" and the tool ends normally. Proved for all readers that give their error alone, and for all readers when no line has 65536 bytes or more: the lines are those of the bytes delivered (bufio.Scanner is modelled with its buffer), and the tool prints, writes and ends as if the lexicon ended at the error. C90_together: when the error comes together with the last bytes, a last line of exactly 65536 bytes is a line, otherwise it is too long.'),
 ('C91', 'proved', ['C91_write', 'C91_tool'], 'All writers that keep to the contract of io.Writer. Errors that the system reports only when the file is closed are not modelled (the tool ignores them).'),
 ('C92', 'proved', ['C92_ratio', 'C92_tool'], 'All numbers. The division of float64s and the formatting of strconv are modelled from IEEE 754 and the documentation; halves may be rounded to either side.'),
 ('C93', 'proved', ['C93_lexicon', 'C93_build', 'C93_load', 'C93_program'], 'The texts of the errors of the library (strconv, os) are parameters, the date before a message is left out, and writes do not fail here (see C91). C93_lexicon and C93_build are for NUL-free keys below 1 GB.'),
 ('C94', 'proved', ['C94_units', 'C94_bound', 'C94_table'], 'All admissible histories. Capacities of slices, which may be up to twice as large as their lengths, are not modelled.'),
 ('C95', 'partial', ['C95_dawg_false', 'C95_dawg_partial', 'C95_build', 'C95_guide', 'C95_in_use'], 'The property is false for Dawgs: Clear keeps NumOfMergedTransitions and NumOfMergingStates. Proved: nothing else is kept, so that a cleared Dawg is as new exactly if no two prefixes of its keys had the same suffixes; what is built from a cleared Dawg is as from one without keys, although the kept number sets the size of the link table; guides in full. A completer in use panics when its guide is cleared.'),
 ('C96', 'proved', ['C96_next', 'C96_ranked', 'C96_heap'], 'C96_next holds for all dictionaries and guides, also those from arbitrary files. Rounds and queue lengths are counted; the rounds within a heap operation are bounded by the logarithm of the queue length in C96_heap, for all queues.'),
 ('C97', 'partial', ['C97_shortest_false', 'C97_one_alphabet_partial'], 'The property is false, and what is wasted has no bound: text in which Kanji and Hiragana alternate takes 5 bytes for a pair where 4 would do. Proved for texts of ASCII characters and one alphabet of 128 code points (below U+2000, Hiragana, Katakana).'),
 ('C98', 'proved', ['C98_string_to_index', 'C98_index_to_string'], 'All arrays, also corrupt ones. Stated by the units on which the results depend: all other units may be changed.'),
 ('C99', 'partial', ['C99_memory_false', 'C99_read_partial', 'C99_tool_partial'], 'The property is false: for a file of the four bytes FF FF FF FF, 17 GB are asked for. Proved: exactly for the files that are not accepted more is asked for than there is; when a file is accepted, as much is asked for as is read; and never more than one object of 2^32 - 1 units beyond the size of the file. The buffer that encoding/binary makes, as large again, is not counted.'),
 ('C100', 'partial', ['C100_byte_order_false', 'C100_equal_values_partial'], 'The property is false: aa, ab and b, all with value 0, are listed as aa, b, ab, because of two candidates with equal values the heap prefers the one that was queued later. Proved instead, for all lexicons: the exact order when all keys with the prefix have the same value. For arbitrary values and comparators see C29_exact_order_partial.'),
 ('C101', 'proved', ['C101_same_result', 'C101_search_cost', 'C101_search_units'], 'Counted are the calls of isGoodOffset, in copies of the functions of the builder with a counter (Model/Probes.lean), which are proved to give the same results for every Dawg. A call looks at no more units than the state has transitions.'),
 ('C102', 'proved', ['C102_dictionary', 'C102_guide', 'C102_index', 'C102_tool'], 'For all byte sequences.'),
 ('C103', 'partial', ['C103_search', 'C103_flood', 'C103_quadratic', 'C103_bounded_false', 'C103_worst_partial'], 'The property is false for every bound below 19990, whatever the size of the table: the hash of a state is the exclusive or of the hashes of its transitions, so a key whose value gives the same word as one of the other transitions makes both disappear; 3(m + 2) keys of this kind give m states with the same hash. Proved instead that no search looks at more slots than there are states so far. The witness is limited to 19990 only because its keys grow and their total length must stay below 1 GB.'),
 ('C104', 'proved', ['C104_dictionary', 'C104_guide', 'C104_ranked', 'C104_index', 'C104_needed'], 'More nested calls than the limit are the fault hang in the model. The size of stack frames and the limit of the Go runtime are not modelled.'),
 ('C105', 'proved', ['C105_same', 'C105_guide', 'C105_ranked', 'C105_index', 'C105_rounds'], 'Counted in copies of the functions with a counter (Model/Calls.lean), which are proved to give the same results for every input. The rounds of findMaxValue are limited in a copy of the ranked builder (Props/Rounds.lean), which gives the same guide.'),
 ('C106', 'proved', ['C106_shared', 'C106_one_unit_each', 'C106_unused'], 'All admissible histories. Beyond 2^21 units a recorded place can be too far away to be encoded, and the state is placed again; C79 gives the bounds there.'),
 ('C107', 'partial', ['C107_blocks', 'C107_blocks_used_partial', 'C107_sparse', 'C107_quarter_false'], 'The property is false: two states whose bytes have all 256 differences can never lie in the same block of 256 units, and 31 bytes are enough for that (those with a hexadecimal digit 1). So the dictionary of sparse m has at least m blocks of which at most 61 m + 2 units are in use, for every m for which it can be built; m = 256 is the witness. Proved instead: the number of blocks is at least that of states of this kind, at most that of the units in use, and in dictionaries of at most 2^21 units at most NumOfStates.'),
 ('C108', 'partial', ['C108_unsorted_partial', 'C108_sorted_partial', 'C108_sorted_utfc_partial', 'C108_sorted_false'], 'The property holds without -s, for all other options. With -s it is false: the lines are sorted as text, so of "a 9" and "a 10" (with tabs) the value 9 is stored whatever their order. Proved instead: with -s and without -u the textually greatest of the lines with the key decides; with -s -u the last of those with the longest encoding.'),
 ('C109', 'proved', ['C109_same', 'C109_listing'], 'Counted in copies of the functions with counters (Model/Steps.lean), which are proved to give the same results for every input. Starting at the root when the empty key is stored is excluded, since listing does not end there (C24).'),
 ('C110', 'partial', ['C110_any_number', 'C110_false', 'C110_partial'], 'The property is false: TotalCount is the first unit of the index, and nothing compares it with the dictionary. Changing four bytes of any file written with -g -i makes dawgtool print any number of words below 2^32, the keys and then empty words. Proved instead: the number of words is always this unit, and for files that dawgtool wrote with -g -i the list has all keys in order, each of them once.'),
 ('C111', 'partial', ['C111_exact_partial', 'C111_used_partial', 'C111_false'], 'The property is false for the zero value Dawg{}: Finish hands its pools to the builder and clears them, and the pointer to the bit pool is nil there; Finish panics after the Dawg has been filled in. Proved for every variable whose bit pool is not nil: those from NewDawg, used ones and cleared ones.'),
]
