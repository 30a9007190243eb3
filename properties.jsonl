{"id": "C01", "title": "Insertion is accepted exactly in byte order", "statement": "On a builder fed with any history of insertions of NUL-free keys, InsertKeyValue/InsertString returns true if and only if no key was accepted before or the new key is greater than or equal, bytewise lexicographically, to the last accepted key. It never panics or hangs.", "quantifier": "all insertion histories of NUL-free byte keys of any length and number, all int32 values, all initial hash table sizes from 1 to 2^32-1, total size of the keys below 2^30", "why_tests_cant": "The decision depends on the whole private path left by previous insertions; tests sample a few orders.", "anchors": ["dawg_builder.go:DawgBuilder.InsertKeyValue", "dawg_builder.go:DawgBuilder.fixUnits", "dawg_builder.go:DawgBuilder.InsertString"]}
{"id": "C02", "title": "A rejected insertion has no effect", "statement": "When InsertKeyValue returns false, the finished Dawg and the verdict on every later insertion are the same as if that call had not been made.", "quantifier": "all histories and all out-of-order keys at any position in them", "why_tests_cant": "Requires comparing all continuations of all histories.", "anchors": ["dawg_builder.go:DawgBuilder.InsertKeyValue"]}
{"id": "C03", "title": "Re-inserting the last key overwrites its value", "statement": "Inserting again a key equal to the last accepted key returns true and only replaces the value: the finished Dawg is the same as if only the second insertion had been made.", "quantifier": "all histories, keys and value pairs", "why_tests_cant": "Universal over histories.", "anchors": ["dawg_builder.go:DawgBuilder.InsertKeyValue", "dawg_unit.go:DawgUnit.setValue"]}
{"id": "C04", "title": "The finished Dawg contains exactly the accepted keys and values", "statement": "After any insertion history and Finish, walking the Dawg with Root, Child, Sibling, Label, IsLeaf and Value spells exactly the accepted keys, each with its last value, and siblings are met in strictly increasing label order.", "quantifier": "all insertion histories of NUL-free keys with non-negative values whose total length stays below 2^30", "why_tests_cant": "Merging of equivalent states through a hash table makes the result depend on the entire key set.", "anchors": ["dawg_builder.go:DawgBuilder.Finish", "dawg_builder.go:DawgBuilder.fixUnits", "dawg.go:Dawg.Child", "dawg.go:Dawg.Sibling"]}
{"id": "C05", "title": "The finished Dawg is minimal", "statement": "No two states of the finished Dawg accept the same set of (suffix, value) pairs, and NumOfStates equals one plus the number of distinct non-empty suffix maps of the accepted keys.", "quantifier": "all insertion histories", "why_tests_cant": "Minimality is a statement about all pairs of states for all key sets.", "anchors": ["dawg_builder.go:DawgBuilder.findUnit", "dawg_builder.go:DawgBuilder.areEqual", "dawg_builder.go:DawgBuilder.expandHashTable", "dawg.go:Dawg.NumOfStates"]}
{"id": "C06", "title": "The Dawg statistics add up", "statement": "NumOfTransitions + NumOfMergedTransitions is the number of edges of the plain trie of the accepted keys (one terminal edge per key); NumOfMergedStates is the number of trie nodes minus NumOfStates; NumOfMergingStates is the number of states on which IsMerging holds, and these are exactly the states with more than one incoming transition in the trie-to-Dawg merge.", "quantifier": "all insertion histories", "why_tests_cant": "Counting identities over unbounded key sets.", "anchors": ["dawg.go:Dawg.NumOfTransitions", "dawg.go:Dawg.NumOfMergedTransitions", "dawg.go:Dawg.NumOfMergedStates", "dawg.go:Dawg.NumOfMergingStates", "dawg_builder.go:DawgBuilder.numOfMergedStates"]}
{"id": "C07", "title": "Building never panics or hangs", "statement": "For any initial hash table size between 1 and 2^32-1, any history of insertions of NUL-free keys followed by Finish runs to completion: no index out of range, no division by zero, and the open-addressing probe loops always find a free slot.", "quantifier": "all histories of total size below 2^30, all initial table sizes from 1 to 2^32-1 (powers of two or not)", "why_tests_cant": "Non-termination of probing depends on table occupancy after arbitrarily many resizes.", "anchors": ["dawg_builder.go:DawgBuilder.findUnit", "dawg_builder.go:DawgBuilder.findTransition", "dawg_builder.go:DawgBuilder.expandHashTable", "dawg_builder.go:NewDawgBuilderWithSize"]}
{"id": "C08", "title": "The initial hash table size is unobservable", "statement": "Two builders created with any two initial hash table sizes between 1 and 2^32-1 and fed the same insertions return the same verdicts and finish into the same Dawg (same units, labels, flags and statistics).", "quantifier": "all pairs of sizes from 1 to 2^32-1 and all histories of total size below 2^30", "why_tests_cant": "Depends on completeness of the hash index under every collision and resize pattern.", "anchors": ["dawg_builder.go:NewDawgBuilderWithSize", "dawg_builder.go:DawgBuilder.expandHashTable"]}
{"id": "C09", "title": "A builder can be used again after Finish", "statement": "After Finish a builder is empty and can be used to build another Dawg.", "quantifier": "all builders that have been finished", "why_tests_cant": "Universal over histories; no unit test reuses a builder.", "anchors": ["dawg_builder.go:DawgBuilder.clear", "dawg_builder.go:DawgBuilder.Finish"]}
{"id": "C10", "title": "Every inserted key is found with its value", "statement": "For every accepted (key, value) with a non-negative value, the dictionary returned by Build answers ContainsString(key) = true, FindString(key) = value, and FindStringValue(key) = true with that value; negative values come back as value mod 2^31.", "quantifier": "all accepted key sets of NUL-free keys, all values", "why_tests_cant": "Placement in the double array depends on the whole key set.", "anchors": ["dictionary_builder.go:DictionaryBuilder.BuildDictionary", "dictionary.go:Dictionary.FindString", "dictionary.go:Dictionary.ContainsString", "dictionary.go:Dictionary.FindStringValue"]}
{"id": "C11", "title": "Nothing else is found", "statement": "For every NUL-free string that was not inserted, ContainsString returns false, FindString returns -1 and FindStringValue returns false.", "quantifier": "all key sets, all queries", "why_tests_cant": "False positives depend on accidental neighbours in the double array.", "anchors": ["dictionary.go:Dictionary.Follow", "dictionary_unit.go:dictLabel", "dictionary_builder.go:DictionaryBuilder.fixBlock"]}
{"id": "C12", "title": "FollowString recognises exactly the prefixes of keys", "statement": "From the root, FollowString(p) returns true if and only if the NUL-free string p is a prefix of an inserted key; the index then reached is accepted by HasValue iff p itself was inserted.", "quantifier": "all key sets and all queries", "why_tests_cant": "As above.", "anchors": ["dictionary.go:Dictionary.FollowString", "dictionary.go:Dictionary.Follow", "dictionary.go:Dictionary.HasValue"]}
{"id": "C13", "title": "Lookups in a built dictionary never panic", "statement": "On a dictionary returned by Build every exact-match and prefix query with any NUL-free string runs without index-out-of-range.", "quantifier": "all key sets, all queries", "why_tests_cant": "Every offset in the double array must stay in bounds for every byte.", "anchors": ["dictionary.go:Dictionary.Follow", "dictionary.go:Dictionary.Value"]}
{"id": "C14", "title": "Build terminates, never panics, and fails only for size", "statement": "Build on a finished Dawg always terminates without panicking, and returns nil only if more than 2^29 units would be needed.", "quantifier": "all finished Dawgs", "why_tests_cant": "Concerns a circular free list threaded through recycled blocks for arbitrarily many blocks.", "anchors": ["dictionary_builder.go:DictionaryBuilder.findGoodOffset", "dictionary_builder.go:DictionaryBuilder.reserveUnit", "dictionary_builder.go:DictionaryBuilder.expandDictionary", "dictionary_builder.go:DictionaryBuilder.fixBlock", "link_table.go:LinkTable.findId"]}
{"id": "C15", "title": "The reported number of unused units is exact", "statement": "BuildWithUnused reports exactly the number of units of the dictionary that are not part of any transition of a key; Size is a multiple of 256.", "quantifier": "all finished Dawgs", "why_tests_cant": "Counting invariant over arbitrarily many blocks.", "anchors": ["dictionary_builder.go:Dawg.BuildWithUnused", "dictionary_builder.go:DictionaryBuilder.fixAllBlocks"]}
{"id": "C16", "title": "The exact-match entry points agree on every dictionary", "statement": "On every dictionary, built or loaded from arbitrary bytes, and for every key: ContainsString is true iff FindString is non-negative iff FindStringValue returns true, the values agree, FindString is -1 otherwise, and FindStringValue leaves its output untouched on failure.", "quantifier": "all unit arrays, all keys", "why_tests_cant": "Ranges over arbitrary unit arrays.", "anchors": ["dictionary.go:Dictionary.ContainsString", "dictionary.go:Dictionary.FindString", "dictionary.go:Dictionary.FindStringValue", "dictionary_unit.go:dictValue"]}
{"id": "C17", "title": "The ...Len entry points look at the prefix of that length", "statement": "ContainsStringLen, FindStringLen, FindStringLenValue, FollowStringLen with 0 <= length <= len(key) equal the versions without Len applied to key[:length]; a non-positive length acts as the empty key.", "quantifier": "all unit arrays, keys and lengths", "why_tests_cant": "Ranges over arbitrary unit arrays.", "anchors": ["dictionary.go:Dictionary.FollowStringLen", "dictionary.go:Dictionary.FindStringLen", "dictionary.go:Dictionary.ContainsStringLen", "dictionary.go:Dictionary.FindStringLenValue"]}
{"id": "C18", "title": "Following is compositional and counts matched bytes", "statement": "FollowString(a+b) from an index equals FollowString(a) then FollowString(b) from the index reached; FollowStringCount adds to the counter exactly the number of bytes followed, and on failure index and counter describe the longest prefix that could be followed.", "quantifier": "all unit arrays, keys and start indices", "why_tests_cant": "Ranges over arbitrary unit arrays.", "anchors": ["dictionary.go:Dictionary.FollowString", "dictionary.go:Dictionary.FollowStringCount", "dictionary.go:Dictionary.FollowStringLenCount"]}
{"id": "C19", "title": "Dictionary, guide and index files round-trip", "statement": "Writing a Dictionary, Guide, RankedGuide or Index and reading the bytes back gives the same object, and reading consumes exactly the bytes written, so that objects written one after another to a stream are read back one after another.", "quantifier": "all objects with fewer than 2^32 units, all following stream contents", "why_tests_cant": "Ranges over all unit arrays.", "anchors": ["dictionary.go:Dictionary.Write", "dictionary.go:Dictionary.Read", "guide.go:Guide.Write", "guide.go:Guide.Read", "ranked_guide.go:RankedGuide.Read", "index.go:Index.Write", "index.go:Index.Read"]}
{"id": "C20", "title": "FileSize is the number of bytes written", "statement": "For every Dictionary, Guide, RankedGuide and Index, Write produces exactly FileSize() bytes, and FileSize() = 4 + TotalSize().", "quantifier": "all objects", "why_tests_cant": "Ranges over all unit arrays.", "anchors": ["dictionary.go:Dictionary.FileSize", "guide.go:Guide.FileSize", "index.go:Index.FileSize"]}
{"id": "C21", "title": "Truncated files are rejected", "statement": "Reading any strict prefix of a written file returns false (nil from the Read... functions), and the receiver of a failed Read keeps its previous contents.", "quantifier": "all objects and all truncation points", "why_tests_cant": "Every crash point of the writer.", "anchors": ["dictionary.go:Dictionary.Read", "guide.go:Guide.Read", "index.go:Index.Read"]}
{"id": "C22", "title": "The Completer lists exactly the completions, in order", "statement": "After FollowString(p, &index) on a built dictionary and Start(index), successive Next calls return true once for every inserted key with prefix p, in increasing byte order, with Key() spelling the rest of the key and Value() its value, and then false.", "quantifier": "all key sets, all prefixes", "why_tests_cant": "Universal over key sets; enumeration order and completeness over an unbounded tree.", "anchors": ["completer.go:Completer.Next", "completer.go:Completer.FindTerminal", "completer.go:Completer.Start", "guide_builder.go:GuideBuilder.Build"]}
{"id": "C23", "title": "Completer keys are exact strings", "statement": "After a successful Next, Key() is exactly the completion and Length() its length.", "quantifier": "all key sets, prefixes, and enumeration steps", "why_tests_cant": "Universal over enumeration steps.", "anchors": ["completer.go:Completer.Key", "completer.go:Completer.Length", "ranked_completer.go:RankedCompleter.Key", "ranked_completer.go:RankedCompleter.Length"]}
{"id": "C24", "title": "Enumeration ends", "statement": "After finitely many Next calls a Completer returns false, and stays at false.", "quantifier": "all key sets and start indices", "why_tests_cant": "Liveness for all key sets.", "anchors": ["completer.go:Completer.Next"]}
{"id": "C25", "title": "A completer can be restarted at any time", "statement": "Calling Start in the middle of an enumeration makes the completer behave like a fresh one started there.", "quantifier": "all completer states", "why_tests_cant": "Universal over histories of Start/Next calls.", "anchors": ["completer.go:Completer.StartStringLen", "ranked_completer.go:RankedCompleter.StartStringLen"]}
{"id": "C26", "title": "Guide building succeeds on every built dictionary", "statement": "BuildGuide on a finished Dawg and the dictionary built from it never panics, never hangs and never returns nil, and the guide then names, for every index, the smallest non-terminal child label and the next sibling label.", "quantifier": "all finished Dawgs", "why_tests_cant": "Recursion over shared states of unbounded automata.", "anchors": ["guide_builder.go:GuideBuilder.buildIndices", "guide.go:Guide.Child", "guide.go:Guide.Sibling"]}
{"id": "C27", "title": "The RankedCompleter lists every completion exactly once", "statement": "After Start(index) at the index of prefix p, a RankedCompleter over BuildRankedGuide or BuildRankedGuideCmp with any comparator returns every inserted key with prefix p exactly once, with its value, and then false.", "quantifier": "all key sets, prefixes, and comparators", "why_tests_cant": "Lazily expanded best-first search with a heap; universal over key sets.", "anchors": ["ranked_completer.go:RankedCompleter.Next", "ranked_guide_builder.go:RankedGuideBuilder.Build"]}
{"id": "C28", "title": "The RankedCompleter lists completions by non-increasing value", "statement": "With the guide of BuildRankedGuide the values returned by successive Next calls never increase.", "quantifier": "all key sets and prefixes", "why_tests_cant": "Depends on heap order and on the max-first order of every state's children.", "anchors": ["ranked_completer.go:RankedCompleter.Next", "ranked_completer_candidate.go:RankedCompleterCandidateQueue.Less", "ranked_guide_builder.go:RankedGuideBuilder.turnLinksToUnits"]}
{"id": "C29", "title": "A custom comparator determines the ranked order", "statement": "With a guide of BuildRankedGuideCmp the RankedCompleter returns completions in the order of the given comparator.", "quantifier": "all comparators that are strict weak orders", "why_tests_cant": "Universal over comparators.", "anchors": ["ranked_guide_builder.go:BuildRankedGuideCmp", "ranked_completer_candidate.go:RankedCompleterCandidateQueue.Less"]}
{"id": "C30", "title": "The index counts the keys", "statement": "BuildIndex over a dictionary and its guide succeeds; TotalCount is the number of keys and ChildCount(i) is the number of keys below the prefix whose index is i.", "quantifier": "all key sets with fewer than 2^32 keys", "why_tests_cant": "Counting over shared states of unbounded automata.", "anchors": ["index_builder.go:IndexBuilder.buildIndices", "index.go:Index.TotalCount", "index.go:Index.ChildCount"]}
{"id": "C31", "title": "StringToIndex is the rank of a key", "statement": "StringToIndex(k) is the number of inserted keys smaller than k if k was inserted, and NotFound otherwise; it never returns Failed.", "quantifier": "all key sets, all NUL-free queries", "why_tests_cant": "Universal over key sets and queries.", "anchors": ["indexer.go:Indexer.BytesToIndex", "indexer.go:Indexer.StringToIndex"]}
{"id": "C32", "title": "IndexToString selects the i-th key", "statement": "IndexToString(i) is the i-th inserted key in byte order for i < TotalCount and nil/empty otherwise; StringToIndex and IndexToString are mutually inverse and order preserving.", "quantifier": "all key sets, all 32-bit i", "why_tests_cant": "Universal over key sets and indices.", "anchors": ["indexer.go:Indexer.IndexToBytes", "indexer.go:Indexer.IndexToString"]}
{"id": "C33", "title": "An index can be built over either kind of guide", "statement": "BuildIndex and Indexer accept any SomeGuide: with a RankedGuide the same counts and ranks are obtained as with a Guide.", "quantifier": "all key sets and values", "why_tests_cant": "Universal over key sets.", "anchors": ["index_builder.go:BuildIndex", "indexer.go:NewIndexer", "ranked_guide.go:RankedGuide"]}
{"id": "C34", "title": "The empty dictionary behaves like an empty set", "statement": "With no key inserted, Build succeeds, every lookup misses, no prefix can be followed, completers enumerate nothing and BuildIndex yields TotalCount 0.", "quantifier": "all queries on the empty dictionary", "why_tests_cant": "Universal over queries.", "anchors": ["dictionary_builder.go:DictionaryBuilder.BuildDictionary", "guide_builder.go:GuideBuilder.Build", "index_builder.go:IndexBuilder.Build"]}
{"id": "C35", "title": "Keys containing NUL bytes behave like other keys", "statement": "A key containing NUL bytes that InsertKeyValue accepted is found again and does not disturb other keys.", "quantifier": "all accepted keys", "why_tests_cant": "Universal over key sets.", "anchors": ["dawg_builder.go:DawgBuilder.InsertKeyValue", "dawg_unit.go:DawgUnit.base"]}
{"id": "C36", "title": "UTF-C round-trips", "statement": "UtfcDecode(UtfcEncode(s)) = s for every valid string s, without panicking.", "quantifier": "all sequences of Unicode scalar values", "why_tests_cant": "The coder is a state machine with three modes; tests sample strings.", "anchors": ["utfc.go:UtfcEncode", "utfc.go:UtfcDecode", "utfc.go:UtfcState.Follow"]}
{"id": "C37", "title": "UTF-C output contains no NUL byte", "statement": "No byte of UtfcEncode(s) is zero, so UTF-C keys are always admissible dictionary keys.", "quantifier": "all sequences of Unicode scalar values, all coder states", "why_tests_cant": "Universal over strings.", "anchors": ["utfc.go:UtfcState.Follow"]}
{"id": "C38", "title": "UTF-C is injective and prefix-faithful", "statement": "Distinct strings have distinct encodings, and UtfcEncode(s) is a byte prefix of UtfcEncode(t) exactly when s is a prefix of t, so prefix search on encoded keys is prefix search on strings.", "quantifier": "all pairs of strings", "why_tests_cant": "Universal over pairs of strings.", "anchors": ["utfc.go:UtfcEncode", "utfc.go:UtfcFollow"]}
{"id": "C39", "title": "UTF-C encodes every character in one to three bytes", "statement": "UtfcEncode of a string of n characters has at least n and at most 3n bytes.", "quantifier": "all strings", "why_tests_cant": "Universal over strings and coder states.", "anchors": ["utfc.go:UtfcState.Follow"]}
{"id": "C40", "title": "UtfcFollow stops at the first refusal", "statement": "UtfcFollow(s, f) feeds f the bytes of UtfcEncode(s) in order up to and including the first one refused, and returns true iff none was refused.", "quantifier": "all strings and all (stateful) followers", "why_tests_cant": "Universal over followers.", "anchors": ["utfc.go:UtfcFollow", "utfc.go:UtfcState.Follow"]}
{"id": "C41", "title": "The result of UtfcEncode is stable", "statement": "The byte slice returned by UtfcEncode keeps its contents when UtfcEncode is called again.", "quantifier": "all pairs of calls", "why_tests_cant": "Aliasing: universal over later calls.", "anchors": ["utfc.go:UtfcEncode", "utfc.go:sharedBuffer"]}
{"id": "C42", "title": "dawgtool -s builds from any lexicon", "statement": "With -s every lexicon of distinct non-empty lines is sorted so that all insertions succeed, with or without -u.", "quantifier": "all lexicons", "why_tests_cant": "Universal over lexicons.", "anchors": ["cmd/dawgtool/main.go:handleBuildDict", "cmd/dawgtool/main.go:processLine"]}
{"id": "C43", "title": "LinkTable behaves as a map", "statement": "As long as no more distinct non-zero indices than slots are used, Insert and Find behave like a map from indices to offsets with default 0, and always terminate.", "quantifier": "all operation sequences, all table sizes", "why_tests_cant": "Depends on all collision patterns of the hash.", "anchors": ["link_table.go:LinkTable.Insert", "link_table.go:LinkTable.Find", "link_table.go:LinkTable.findId"]}
{"id": "C44", "title": "BitPool behaves as a bit array", "statement": "After any sequence of allocations and writes, get returns the last bit written at that index, false if none; writing one index does not disturb another.", "quantifier": "all operation sequences", "why_tests_cant": "Universal over sequences and indices; bit-level packing.", "anchors": ["bit_pool.go:BitPool.get", "bit_pool.go:BitPool.set", "bit_pool.go:BitPool.allocate"]}
{"id": "C45", "title": "Whole pipeline through files", "statement": "Building from a lexicon, writing the dictionary, guide and index one after another, and reading them back in another process gives lookups, completions and ranks identical to those of the in-memory objects, hence equal to those of the inserted key set.", "quantifier": "all key sets, all queries", "why_tests_cant": "Composition of all the above over all key sets.", "anchors": ["cmd/dawgtool/main.go:handleBuildDict", "cmd/dawgtool/main.go:handleLoadDict"]}
{"id": "C46", "title": "InsertKeyValue looks at the prefix of the given length", "statement": "InsertKeyValue(key, length, value) with 0 <= length <= len(key) behaves exactly like InsertStringValue(key[:length], value).", "quantifier": "all builders in any state, all keys, lengths and values", "why_tests_cant": "Universal over builder states.", "anchors": ["dawg_builder.go:DawgBuilder.InsertKeyValue", "dawg_builder.go:DawgBuilder.InsertStringValue"]}
{"id": "C47", "title": "dawgtool -b without -s accepts exactly the sorted lexicons", "statement": "Without -s, with or without -t and -u, a lexicon whose keys are in non-decreasing byte order (after encoding) gives the Dawg of its lines, and every other lexicon ends the program with an error.", "quantifier": "all lexicons whose lines parse, NUL-free keys, total size below 2^30", "why_tests_cant": "Universal over lexicons and over where the first inversion is.", "anchors": ["cmd/dawgtool/main.go:processLine", "cmd/dawgtool/main.go:handleBuildDict"]}
{"id": "C48", "title": "dawgtool answers a query with the keys that are its prefixes", "statement": "Without a guide, every NUL-free query is answered with exactly the non-empty keys that are prefixes of the query, shortest first, each with its stored value.", "quantifier": "all dictionaries, all NUL-free queries", "why_tests_cant": "Universal over dictionaries and queries.", "anchors": ["cmd/dawgtool/main.go:handleLoadDict", "dictionary.go:Dictionary.Follow", "dictionary.go:Dictionary.HasValue"]}
{"id": "C49", "title": "dawgtool -g answers a query with its completions", "statement": "With -g every query is answered with exactly the keys that start with it, in increasing order, each with its stored value (and with -i the rank of the query), after reading the file back.", "quantifier": "all dictionaries, all lists of NUL-free queries", "why_tests_cant": "Universal over dictionaries and queries; passes through the file format.", "anchors": ["cmd/dawgtool/main.go:handleLoadDict", "completer.go:Completer.Next"]}
{"id": "C50", "title": "dawgtool -r answers a query with its completions by value", "statement": "With -r every query is answered with exactly the keys that start with it, values never increasing, each key once with its stored value, after reading the file back.", "quantifier": "all dictionaries, all lists of NUL-free queries", "why_tests_cant": "Universal over dictionaries and queries; passes through the file format.", "anchors": ["cmd/dawgtool/main.go:handleLoadDict", "ranked_completer.go:RankedCompleter.Next"]}
{"id": "C51", "title": "dawgtool -i lists all keys by rank", "statement": "With -i, after the queries, the tool lists all keys in increasing order by their rank.", "quantifier": "all dictionaries", "why_tests_cant": "Universal over dictionaries.", "anchors": ["cmd/dawgtool/main.go:handleLoadDict", "index.go:Index.IndexToString"]}
{"id": "C52", "title": "dawgtool -u finds the lines of its lexicon", "statement": "A dictionary built with -u answers each line of its lexicon, given as a query to dawgtool -u, with at least that line.", "quantifier": "all lexicons", "why_tests_cant": "Universal over lexicons.", "anchors": ["cmd/dawgtool/main.go:processLine", "cmd/dawgtool/main.go:handleLoadDict"]}
{"id": "C53", "title": "dawgtool -s from a lexicon to its answers", "statement": "dawgtool -b -s on any lexicon of NUL-free lines in any order, with duplicates and empty lines, writes a file from which every NUL-free query is answered with exactly those of its prefixes that are lines (without -g), or exactly the lines that start with it in increasing order (with -g).", "quantifier": "all lexicons below 2^21 bytes, all NUL-free queries", "why_tests_cant": "End-to-end composition over all lexicons and all queries.", "anchors": ["cmd/dawgtool/main.go:handleBuildDict", "cmd/dawgtool/main.go:handleLoadDict"]}
{"id": "C54", "title": "No lexicon makes dawgtool -b panic", "statement": "Whatever the lexicon, dawgtool -b ends with a Dawg or with an error message; it neither panics nor hangs.", "quantifier": "all lexicons, all options", "why_tests_cant": "Universal over malformed inputs.", "anchors": ["cmd/dawgtool/main.go:processLine", "cmd/dawgtool/main.go:handleBuildDict"]}
{"id": "C55", "title": "dawgtool -u keeps different lines apart", "statement": "With -u, the key inserted for a line of UTF-8 text is the UTF-C encoding of that text, and different lines of the lexicon are inserted as different keys.", "quantifier": "all lines (byte strings)", "why_tests_cant": "Universal over byte strings, including invalid UTF-8.", "anchors": ["cmd/dawgtool/main.go:processLine", "utfc.go:UtfcEncode"]}
{"id": "C56", "title": "dawgtool reads all lines of its input files", "statement": "For every list of lines, the tool reads exactly these lines from the file that contains them, with newline or CR newline after each, and with or without a newline at the end.", "quantifier": "all lists of lines without newline", "why_tests_cant": "Universal over files, in particular over line lengths.", "anchors": ["cmd/dawgtool/main.go:handleBuildDict", "cmd/dawgtool/main.go:handleLoadDict", "cmd/dawgtool/main.go:main"]}
{"id": "C57", "title": "dawgtool -t from a lexicon file with values to its answers", "statement": "With -s and -t, a file of lines key, tab, decimal number (in any order) gives a dictionary file from which queries are answered with the right keys and the values cut to 0..2^31-1: prefixes without a guide, completions in key order with -g, by value with -r.", "quantifier": "all lexicons of different keys with bytes above 10 below 2^21 bytes, all queries that do not leave the key set with the low byte of a stored value and, for -g, are not empty when the empty key is stored; completions are compared up to the trailing NUL byte of Completer.Key", "why_tests_cant": "End-to-end composition over all lexicons, values and queries, starting from and ending in bytes.", "anchors": ["cmd/dawgtool/main.go:processLine", "cmd/dawgtool/main.go:handleBuildDict", "cmd/dawgtool/main.go:handleLoadDict"]}
{"id": "C58", "title": "Insertions return whatever bytes the keys have", "statement": "Every sequence of InsertKeyValue calls followed by Finish returns, for keys of arbitrary bytes.", "quantifier": "all histories of keys (arbitrary bytes) and values below 2^30 bytes", "why_tests_cant": "Universal over keys and values, including keys with NUL bytes.", "anchors": ["dawg_builder.go:DawgBuilder.InsertKeyValue", "dawg_builder.go:DawgBuilder.Finish"]}
{"id": "C59", "title": "Dictionaries of UTF-C strings are queried by Unicode strings", "statement": "In a dictionary of UTF-C encoded strings inserted without values, UtfcFollow with Dictionary.Follow from the root accepts exactly the prefixes, as Unicode strings, of the stored strings, and HasValue at the reached index tells whether the whole string is stored.", "quantifier": "all lists of Unicode strings in the order of their encodings, all queries", "why_tests_cant": "Universal over Unicode strings; combines the state of the coder with the walk through the dictionary.", "anchors": ["utfc.go:UtfcFollow", "utfc.go:UtfcState.Follow", "dictionary.go:Dictionary.Follow"]}
{"id": "C60", "title": "UtfcState can be used piecewise, copied, continued and cleared", "statement": "Following a string in two pieces with the same UtfcState is following it as a whole; a copy of the state after a prefix continues with any suffix as if the whole string had been followed; a refused character does not change the state; after Clear the state behaves as a new one.", "quantifier": "all strings, all ways to cut them, all followers, all states", "why_tests_cant": "Universal over strings, followers and coder states.", "anchors": ["utfc.go:UtfcState.Follow", "utfc.go:UtfcState.Copy", "utfc.go:UtfcState.Clear"]}
{"id": "C61", "title": "UtfcDecode returns for every byte array", "statement": "UtfcDecode returns a string for every byte array, also for arrays that are no encodings.", "quantifier": "all byte arrays", "why_tests_cant": "Universal over byte arrays.", "anchors": ["utfc.go:UtfcDecode"]}
{"id": "C62", "title": "dawgtool survives every dictionary file", "statement": "Whatever bytes the dictionary file contains, dawgtool reports an error or answers all queries; it neither panics nor hangs.", "quantifier": "all dictionary files (byte strings), all files of queries", "why_tests_cant": "Universal over files, including files that no builder has written.", "anchors": ["dictionary.go:Dictionary.Read", "dictionary.go:Dictionary.Follow", "completer.go:Completer.Next", "cmd/dawgtool/main.go:handleLoadDict"]}
{"id": "C63", "title": "The dictionary depends on the keys and values only", "statement": "Two histories of insertions give the same Dawg exactly when they leave the same keys with the same stored values, whatever was rejected or overwritten and whatever the table sizes; dawgtool writes the same dictionary file for two lexicons with the same keys and values, and with -s (without -u) the order of the lines and the sorting routine never matter.", "quantifier": "all insertion histories with NUL-free keys (total size below 2^30), all table sizes; all lexicon files, all stable sorting routines, all options", "why_tests_cant": "Relates all pairs of histories and all pairs of files.", "anchors": ["dawg_builder.go:InsertKeyValue", "dawg_builder.go:Finish", "ranked_guide_builder.go:buildIndices", "cmd/dawgtool/main.go:handleBuildDict"]}
{"id": "C64", "title": "UTF-C is not longer than UTF-8", "statement": "The UTF-C encoding of a string never has more bytes than its UTF-8 form; ASCII text is its own encoding, and a text of plain ASCII characters and one alphabet takes one byte for each character and one more.", "quantifier": "all Unicode strings", "why_tests_cant": "Universal over strings; the length depends on the whole history of alphabets.", "anchors": ["utfc.go:UtfcEncode", "utfc.go:UtfcState.Follow"]}
{"id": "C65", "title": "The previous alphabet stays reachable by one byte", "statement": "When a text goes from a listed alphabet to another one, the 64 code points that the table auxOffset names for the first alphabet take one byte each.", "quantifier": "all listed alphabets, all texts around the switch", "why_tests_cant": "Universal over texts; the table is a Go map whose unused rows no test can notice.", "anchors": ["utfc.go:auxOffset", "utfc.go:getAuxOffset", "utfc.go:UtfcState.Follow"]}
{"id": "C66", "title": "A failed build leaves the dictionary file as it was", "statement": "When dawgtool -b ends with an error or a panic, the dictionary file has the contents it had before.", "quantifier": "all lexicon files, old dictionary files and options", "why_tests_cant": "Universal over lexicons and over the points where a build can fail.", "anchors": ["cmd/dawgtool/main.go:handleBuildDict", "cmd/dawgtool/main.go:main"]}
{"id": "C67", "title": "dawgtool -b reports the true numbers", "statement": "The statistics that dawgtool -b prints are those of the key set: number of keys, states and transitions of the minimal automaton, nodes and edges of the trie saved, units of the dictionary and unused ones, sizes in bytes of what is written.", "quantifier": "all lexicon files and options with which a build succeeds", "why_tests_cant": "Relates printed text to cardinalities of sets of strings, for all lexicons.", "anchors": ["cmd/dawgtool/main.go:handleBuildDict", "dawg.go:Dawg.NumOfTransitions", "dictionary_builder.go:Dawg.BuildWithUnused"]}
{"id": "C68", "title": "dawgtool prints one line for each query", "statement": "A run of dawgtool without -b and -i that ends normally prints exactly as many lines as there are queries.", "quantifier": "all dictionary files that the tool builds, all files of queries and all options", "why_tests_cant": "Universal over lexicons and queries, with the text printed byte for byte.", "anchors": ["cmd/dawgtool/main.go:handleLoadDict"]}
{"id": "C69", "title": "Every run of dawgtool ends", "statement": "With a dictionary file that the tool itself has built, and the same options, every run over every file of queries ends.", "quantifier": "all lexicons, all files of queries and all options", "why_tests_cant": "Termination over all inputs.", "anchors": ["cmd/dawgtool/main.go:handleLoadDict", "completer.go:Completer.Next"]}
{"id": "C70", "title": "dawgtool changes no file but the dictionary", "statement": "A run of dawgtool changes at most one file, only when -b is among its arguments, and its name is one of the arguments, the value of -d, or '-'.", "quantifier": "all argument lists, all contents of all files", "why_tests_cant": "Universal over command lines and files.", "anchors": ["cmd/dawgtool/main.go:main"]}
{"id": "C71", "title": "dawgtool -b keeps the lexicon", "statement": "A run of dawgtool -b x y leaves the file x as it was.", "quantifier": "all names x and y, all contents of all files", "why_tests_cant": "Universal over names and files, including equal names.", "anchors": ["cmd/dawgtool/main.go:main"]}
{"id": "C72", "title": "The order and the spelling of the boolean options do not matter", "statement": "Two command lines that give the same set of boolean options, in any order, repeated or not, with one or two dashes, with or without an explicit true value, and then the same arguments, do the same. When options are also switched off again (-b=false), the last setting of each option counts.", "quantifier": "all sets of options, all spellings, all remaining arguments, all files", "why_tests_cant": "Universal over command lines.", "anchors": ["cmd/dawgtool/main.go:main"]}
{"id": "C73", "title": "Arguments name the files that no flag has named", "statement": "dawgtool -l x y and dawgtool -d y x do what dawgtool x y does.", "quantifier": "all names x and y other than '-', all files", "why_tests_cant": "Universal over names and files.", "anchors": ["cmd/dawgtool/main.go:main"]}
{"id": "C74", "title": "From two command lines to the printed answers", "statement": "dawgtool -b -s words dict and then dawgtool queries dict print, byte for byte, the stored prefixes of every query; with -g in both, the completions in order; with -t in the first, the same with the values; with -t and -r, the completions by value. No other file changes.", "quantifier": "all lexicons and queries as in the properties of the tool's building and answering, all names of the files", "why_tests_cant": "End to end from command lines and files to the printed text.", "anchors": ["cmd/dawgtool/main.go:main", "cmd/dawgtool/main.go:handleBuildDict", "cmd/dawgtool/main.go:handleLoadDict"]}
{"id": "C75", "title": "A follower may itself call UtfcEncode", "statement": "When the function that UtfcFollow calls for each byte calls UtfcEncode itself, UtfcFollow still hands it the bytes of its own string.", "quantifier": "all strings, all followers, all strings of the inner calls", "why_tests_cant": "Universal over strings and over the points where inner calls occur.", "anchors": ["utfc.go:UtfcFollow", "utfc.go:UtfcEncode", "utfc.go:sharedState"]}
{"id": "C76", "title": "UtfcEncode may be called by several goroutines", "statement": "Of several calls of UtfcEncode that run at the same time, each returns the encoding of its string.", "quantifier": "all numbers of calls, all strings, all interleavings of their steps", "why_tests_cant": "Universal over interleavings.", "anchors": ["utfc.go:UtfcEncode", "utfc.go:sharedState", "utfc.go:sharedBuffer"]}
{"id": "C77", "title": "A look-up reads at most len(key)+2 units", "statement": "The results of FollowString, ContainsString, FindString and FindStringValue for a key depend on at most len(key)+2 units of the dictionary; whatever the other units are, the results are the same, panics included.", "quantifier": "all arrays of units, built, read or corrupt, and all keys", "why_tests_cant": "Universal over pairs of dictionaries.", "anchors": ["dictionary.go:Dictionary.FindString", "dictionary.go:Dictionary.ContainsString", "dictionary.go:Dictionary.FollowString", "dictionary.go:Dictionary.Follow"]}
{"id": "C78", "title": "UTF-C keeps the order of strings", "statement": "The UTF-C encodings of two strings are ordered, byte by byte, as the strings are by code points.", "quantifier": "all pairs of strings", "why_tests_cant": "Universal over pairs of strings.", "anchors": ["utfc.go:UtfcState.Follow", "utfc.go:UtfcEncode"]}
{"id": "C79", "title": "The dictionary is at least as large as the minimal automaton and at most as large as the trie", "statement": "The number of used units of a built dictionary, without the root, is at least the number of transitions of the minimal automaton and at most the number of edges of the trie of the keys; the number of all units is a multiple of 256, at most 256 times one plus the total length of the keys with their terminators, and at most 2^29; the file has 4 bytes per unit and 4 more.", "quantifier": "all admissible insertion histories for which Build succeeds", "why_tests_cant": "Relates the array to cardinalities of sets of strings, for all key sets.", "anchors": ["dictionary_builder.go:DictionaryBuilder.BuildDictionary", "dictionary_builder.go:DictionaryBuilder.arrangeChildNodes", "dictionary_builder.go:DictionaryBuilder.expandDictionary", "dictionary.go:Dictionary.FileSize"]}
{"id": "C80", "title": "The units of a built dictionary spell exactly the inserted pairs", "statement": "A reader that starts at unit 0 and goes from unit to unit by the offset in bits 10 to 30 (times 256 if bit 9 is set), xor the byte, skipping every unit with bit 31 set or with another label, reaches a unit with bit 8 set for exactly the inserted keys, and finds their values in the low 31 bits of the first child; it reaches some unit for exactly the prefixes of keys.", "quantifier": "all admissible insertion histories for which Build succeeds, all strings and all values, without exception", "why_tests_cant": "Universal over key sets and queries; separates the content of the array from what the look-ups make of it.", "anchors": ["dictionary_builder.go:DictionaryBuilder.BuildDictionary", "dictionary_builder.go:DictionaryBuilder.arrangeChildNodes", "dictionary_unit.go:dictLabel", "dictionary_unit.go:dictOffset", "dictionary_unit.go:dictSetValue"]}
{"id": "C81", "title": "Dictionaries and key sets determine each other", "statement": "Two built dictionaries are equal if and only if the accepted keys and their values (low 31 bits) are the same, and if and only if their Dawgs are equal; if two files begin with written dictionaries and are equal, the keys and values are the same and so is what follows.", "quantifier": "all pairs of admissible insertion histories for which Build succeeds, all builder sizes, all rests of files", "why_tests_cant": "Universal over pairs of key sets.", "anchors": ["dictionary_builder.go:DictionaryBuilder.BuildDictionary", "dawg_builder.go:DawgBuilder.Finish", "dictionary.go:Dictionary.Write"]}
{"id": "C82", "title": "Strings with NUL bytes are not found", "statement": "A string with a NUL byte, which is never a key, is not contained, has no value and cannot be followed; no look-up of it panics.", "quantifier": "all admissible insertion histories with at least one key, all strings with a NUL byte", "why_tests_cant": "Universal over key sets, values and queries.", "anchors": ["dictionary.go:Dictionary.FollowString", "dictionary.go:Dictionary.ContainsString", "dictionary.go:Dictionary.FindString", "dictionary_unit.go:dictLabel"]}
{"id": "C83", "title": "In dictionaries of at most 2^21 units, Find and the tool are right or panic", "statement": "If the dictionary has at most 2^21 units (a file of at most 8 MiB), FindString and FindStringValue return the value of a key, and for any other string that there is none, unless they panic; ContainsString is wrong only for strings one byte longer than a prefix of a key, that byte being the low byte of a stored value with bit 8 set; FollowString follows nothing but prefixes of keys and such strings; dawgtool without -i answers all queries rightly (prefixes, completions with -g except for the empty query when the empty key is stored, completions by value with -r), or panics.", "quantifier": "all admissible insertion histories for which Build gives at most 2^21 units, all strings", "why_tests_cant": "Universal over key sets, values and queries, with the low bytes of values included.", "anchors": ["dictionary.go:Dictionary.FindString", "dictionary.go:Dictionary.ContainsString", "dictionary.go:Dictionary.FollowString", "dictionary_unit.go:dictOffset", "cmd/dawgtool/main.go:handleLoadDict", "completer.go:Completer.Next", "ranked_completer.go:RankedCompleter.Next"]}
{"id": "C84", "title": "The fields of units are independent", "statement": "Each function that reads a dictionary unit yields its field of the word (label: bits 0-7, leaf flag: 8, extension flag: 9, offset: 10-30, leaf: 31), for all 32-bit words; setting the label or the leaf flag changes nothing else; whenever dictSetOffset returns true, the offset that was given is read again and the other fields are unchanged; leaves keep values below 2^31; extra units keep two 31-bit links and two flags independently; units of a Dawg keep a child below 2^30, or a value below 2^31, and their flags.", "quantifier": "all 32-bit words, labels, offsets, values and links", "why_tests_cant": "2^32 words times 2^32 offsets.", "anchors": ["dictionary_unit.go:dictSetOffset", "dictionary_unit.go:dictOffset", "dictionary_unit.go:dictSetLabel", "dictionary_unit.go:dictSetHasLeaf", "dictionary_unit.go:dictHasExtBit", "dictionary_extra_unit.go:DictionaryExtraUnit.setNext", "dawg_unit.go:DawgUnit.base", "dawg_unit.go:DawgUnit.value", "base_unit.go:BaseUnit.child"]}
{"id": "C85", "title": "Queries do not influence each other", "statement": "A completer that is started again behaves like a new one; dawgtool answers each query of a file as if it were the only one, so that cutting a file of queries at the end of a line cuts the output (up to the list of keys of -i), and permuting the queries permutes the answers.", "quantifier": "all dictionary files, also corrupt ones, all options, all files of queries with complete lines of less than 65536 bytes before the cut", "why_tests_cant": "Universal over histories of a completer and over corrupt files.", "anchors": ["cmd/dawgtool/main.go:handleLoadDict", "completer.go:Completer.StartStringLen", "ranked_completer.go:RankedCompleter.StartStringLen"]}
{"id": "C86", "title": "With -r -i every key is listed and every query ends", "statement": "dawgtool -b -r -i writes a file for every lexicon with a key; with -r -i every run ends, every query is answered with a number and with the keys that start with it, by descending values, and at the end every key is listed once.", "quantifier": "all admissible insertion histories with at least one key, all stable sorting functions, all files of queries without low-byte clash", "why_tests_cant": "Universal over key sets with values: which keys an index over a ranked guide sees depends on the values of their prefixes.", "anchors": ["index_builder.go:IndexBuilder.buildIndices", "indexer.go:Indexer.IndexToBytes", "indexer.go:Indexer.BytesToIndex", "ranked_guide_builder.go:RankedGuideBuilder.Build", "cmd/dawgtool/main.go:handleLoadDict"]}
{"id": "C87", "title": "The options of the build do not matter for queries", "statement": "Whatever the options with which dawgtool wrote a dictionary file, a query with given options gets the same answers, provided that the file has a guide when the query needs one (and an index for -i); otherwise the tool stops with an error. In particular a guide file written with -g can be queried with -r, and one written with -r can be queried with -g.", "quantifier": "all admissible insertion histories for which Build succeeds, all pairs of options, all stable sorting functions, all queries without low-byte clash", "why_tests_cant": "Universal over key sets with values and over pairs of options; guides of both kinds have the same file format.", "anchors": ["cmd/dawgtool/main.go:handleLoadDict", "completer.go:Completer.Next", "ranked_completer.go:RankedCompleter.Next", "guide.go:Guide.Read", "ranked_guide.go:RankedGuide.Read"]}
{"id": "C88", "title": "StringToIndex inverts IndexToString over ranked guides, too", "statement": "With an index over a RankedGuide, StringToIndex gives every key that IndexToString yields the number with which IndexToString yields it.", "quantifier": "all admissible insertion histories with at least one key, all stable sorting functions, all numbers", "why_tests_cant": "Universal over key sets with values: BytesToIndex skips the siblings as if they were in byte order, but a ranked guide orders them by value.", "anchors": ["indexer.go:Indexer.BytesToIndex", "indexer.go:Indexer.IndexToBytes", "ranked_guide_builder.go:RankedGuideBuilder.Build"]}
{"id": "C89", "title": "Reading does not depend on how the bytes arrive", "statement": "From any reader that keeps to the contract of io.Reader, whatever the sizes of the pieces in which it delivers its bytes, whether the error at the end comes with the last bytes or after them, and whichever error it is, the Read methods give the same as from the bytes at once, and leave to the next Read exactly what follows; dawgtool prints the same for a dictionary file and a file of queries however they are read.", "quantifier": "all readers that keep to the contract, all byte sequences, all receivers", "why_tests_cant": "Universal over readers: all ways to cut a stream into pieces, with empty reads in between.", "anchors": ["dictionary.go:Dictionary.Read", "guide.go:Guide.Read", "ranked_guide.go:RankedGuide.Read", "index.go:Index.Read", "cmd/dawgtool/main.go:handleLoadDict"]}
{"id": "C90", "title": "A lexicon that cannot be read to its end is reported", "statement": "When reading the lexicon ends with an error other than the end of the file, dawgtool -b stops with an error.", "quantifier": "all readers that keep to the contract, all lexicons, all options", "why_tests_cant": "Universal over readers and over the place of the error; I/O errors are hard to provoke in tests.", "anchors": ["cmd/dawgtool/main.go:handleBuildDict"]}
{"id": "C91", "title": "A dictionary that cannot be written completely is reported, and not mistaken for a complete one", "statement": "Write returns true only if the writer has taken the complete file format; otherwise it has taken a beginning of it. When dawgtool -b ends normally, the file is complete; when a write fails, the tool stops with an error, and unless the file is complete nevertheless, every later run with this file and the same options stops with an error before it answers anything.", "quantifier": "all writers that keep to the contract, all readers of the lexicon, all lexicons of NUL-free keys below 1 GB, all options", "why_tests_cant": "Universal over the place at which a disk becomes full.", "anchors": ["dictionary.go:Dictionary.Write", "guide.go:Guide.Write", "ranked_guide.go:RankedGuide.Write", "index.go:Index.Write", "cmd/dawgtool/main.go:handleBuildDict", "cmd/dawgtool/main.go:handleLoadDict"]}
{"id": "C92", "title": "The percentage of unused elements is rounded correctly", "statement": "The percentage of unused elements that dawgtool -b prints is the exact ratio, rounded to two decimals: the printed number differs from it by at most half a hundredth.", "quantifier": "all numbers of elements below 2^32, all numbers of unused ones, all lexicons of NUL-free keys", "why_tests_cant": "2^63 pairs of numbers, with two roundings (to a float64, and to two decimals).", "anchors": ["cmd/dawgtool/main.go:handleBuildDict", "dictionary_builder.go:Dawg.BuildWithUnused"]}
{"id": "C93", "title": "An error message names the first mistake", "statement": "When dawgtool stops with an error, the message on the standard error names the first mistake: for a lexicon the first line, in the order in which the lines are inserted, that has a bad value or a bad key; for a dictionary file the first part that cannot be read; for a file that is missing, its name. There is a message exactly if the tool stops with an error and not with a panic.", "quantifier": "all lexicons of NUL-free keys below 1 GB, all options, all dictionary files, all command lines", "why_tests_cant": "Universal over lexicons and over files; which line is reported depends on the order of insertion, i.e. on sorting and encoding.", "anchors": ["cmd/dawgtool/main.go:processLine", "cmd/dawgtool/main.go:handleBuildDict", "cmd/dawgtool/main.go:handleLoadDict", "cmd/dawgtool/main.go:main"]}
{"id": "C94", "title": "The builder needs working memory for one key only", "statement": "Besides the finished transitions, the builder has one unit for the root and as many units as there have been transitions at most at a time in the states on the path of the last key; so it has at most 1 + 256 (L + 1) units for keys of at most L bytes, however many keys there are. No unit is lost. The stack has an element for each byte of the last key and two more. The hash table has its initial length times a power of two, which is at most 8/3 of the number of states unless it is still the initial length, and less than three quarters of it are occupied.", "quantifier": "all admissible insertion histories, all initial sizes of the hash table from 1 to 2^32 - 1", "why_tests_cant": "Universal over insertion histories: a leak of units or a table that grows too soon does not change any result.", "anchors": ["dawg_builder.go:DawgBuilder.allocateUnit", "dawg_builder.go:DawgBuilder.freeUnit", "dawg_builder.go:DawgBuilder.fixUnits", "dawg_builder.go:DawgBuilder.expandHashTable", "dawg_builder.go:DawgBuilder.InsertKeyValue"]}
{"id": "C95", "title": "An object that has been cleared is as a new one", "statement": "After Clear, a Dawg or a guide of either kind is as a new one: its sizes and statistics are those of a new object; a dictionary and guides built from a cleared Dawg are those of a Dawg without keys; completers over a cleared guide list nothing.", "quantifier": "all Dawgs built from admissible insertion histories, all guides", "why_tests_cant": "Universal over the earlier contents; no test calls Clear.", "anchors": ["dawg.go:Dawg.Clear", "guide.go:Guide.Clear", "ranked_guide.go:RankedGuide.Clear", "dictionary_builder.go:DictionaryBuilder.BuildDictionary"]}
{"id": "C96", "title": "The cost of the next completion does not depend on the number of keys", "statement": "A call of Next of a completer takes at most as many rounds in each of its loops as the key before or the key after the call is longer than the prefix, counting its NUL. A ranked completer has, after its first k + 1 results, created at most 2 + M + k (M + 1)^2 nodes, one for each transition followed, and queued at most k M candidates, when no key is more than M bytes longer than the prefix.", "quantifier": "completers: all dictionaries and guides, also from arbitrary files, all starting indices and prefixes, after any number of calls; ranked completers: all admissible insertion histories, all comparators, all prefixes of keys", "why_tests_cant": "Universal over dictionaries; a completer that looks at more of the dictionary than needed returns the same keys.", "anchors": ["completer.go:Completer.Next", "completer.go:Completer.FindTerminal", "ranked_completer.go:RankedCompleter.Next", "ranked_completer.go:RankedCompleter.enqueueNode", "ranked_completer.go:RankedCompleter.findTerminal"]}
{"id": "C97", "title": "UtfcEncode gives a shortest encoding", "statement": "No byte array that UtfcDecode decodes to a string is shorter than the array that UtfcEncode gives for it.", "quantifier": "all strings, all byte arrays", "why_tests_cant": "Universal over all byte arrays that decode to a string; a test would have to search for shorter ones.", "anchors": ["utfc.go:UtfcEncode", "utfc.go:UtfcState.Follow", "utfc.go:UtfcDecode"]}
{"id": "C98", "title": "Numbers of keys cost time in proportion to the length of the key", "statement": "StringToIndex for a string of n bytes depends on at most 258 n + 1 units of the dictionary, the guide and the index, and IndexToString for a key of n bytes on at most 257 n + 1, however many keys there are; the loop of IndexToString runs at most n + 1 times.", "quantifier": "all dictionaries, guides of both kinds and indices, also from arbitrary files and when they do not belong together; all strings, all numbers", "why_tests_cant": "Universal over dictionaries; reading more than needed does not change the results.", "anchors": ["indexer.go:Indexer.BytesToIndex", "indexer.go:Indexer.StringToIndex", "indexer.go:Indexer.IndexToBytes", "indexer.go:Indexer.IndexToString", "index.go:Index.ChildCount"]}
{"id": "C99", "title": "Reading asks for no more memory than there is in the file", "statement": "The slices that Read makes for a dictionary, a guide or an index, and all of those that dawgtool makes when it loads a dictionary file, are together not larger than the file.", "quantifier": "all files, all options of dawgtool", "why_tests_cant": "Universal over files; a wrong size in a file that is not accepted anyway has no visible result.", "anchors": ["dictionary.go:Dictionary.Read", "guide.go:Guide.Read", "ranked_guide.go:RankedGuide.Read", "index.go:Index.Read", "cmd/dawgtool/main.go:handleLoadDict"]}
{"id": "C100", "title": "Completions with equal values come in byte order", "statement": "With the guide of BuildRankedGuide, of two keys with equal values a ranked completer lists first the one that is first in byte order; so without values it lists the keys as a plain completer does.", "quantifier": "all admissible insertion histories, all prefixes of keys", "why_tests_cant": "Universal over key sets; which of two candidates with equal values is taken depends on the whole history of the heap.", "anchors": ["ranked_completer.go:RankedCompleter.Next", "ranked_completer_candidate.go:RankedCompleterCandidateQueue.Less", "ranked_completer.go:RankedCompleter.enqueueNode", "ranked_guide_builder.go:RankedGuideBuilder.enumerateLinks"]}
{"id": "C101", "title": "Finding places for states takes time in proportion to the keys", "statement": "While a dictionary is built, findGoodOffset tries at most 4096 places for each state that is placed, however large the dictionary already is: altogether at most 4096 times the number of units in use, and at most 4096 times the total length of the stored keys, each counted with one byte more, also if the construction gives up in the end.", "quantifier": "all admissible insertion histories, all initial sizes of the hash table from 1 to 2^32 - 1", "why_tests_cant": "Universal over insertion histories; a search through blocks that should have been closed gives a valid dictionary too, only in quadratic time.", "anchors": ["dictionary_builder.go:DictionaryBuilder.findGoodOffset", "dictionary_builder.go:DictionaryBuilder.isGoodOffset", "dictionary_builder.go:DictionaryBuilder.expandDictionary", "dictionary_builder.go:DictionaryBuilder.fixBlock"]}
{"id": "C102", "title": "Exactly the written files can be read", "statement": "ReadDictionary, ReadGuide, ReadRankedGuide and ReadIndex accept a byte sequence exactly if it starts with what Write writes for some object of at most 2^32 - 1 units; then they return this object and leave what follows. So reading a file and writing it again reproduces it, and no two files are read as the same object unless they differ in what follows only. dawgtool loads a file exactly if it starts with the bytes of the objects that the options ask for, one after the other.", "quantifier": "all byte sequences, all objects, all options of dawgtool", "why_tests_cant": "Universal over byte sequences; tests start from objects and never from files.", "anchors": ["dictionary.go:ReadDictionary", "dictionary.go:Dictionary.Write", "guide.go:ReadGuide", "guide.go:Guide.Write", "ranked_guide.go:ReadRankedGuide", "ranked_guide.go:RankedGuide.Write", "index.go:ReadIndex", "index.go:Index.Write", "cmd/dawgtool/main.go:handleLoadDict"]}
{"id": "C103", "title": "Searches in the hash table of states are short", "statement": "While keys are inserted, every state in the hash table of the builder lies less than K slots after the one that its hash gives, for a K that depends on neither the keys nor the size of the table; so a search looks at a bounded number of slots.", "quantifier": "all admissible insertion histories, all initial sizes of the hash table from 1 to 2^32 - 1", "why_tests_cant": "Universal over key sets; it takes values that are chosen for it to make many states have the same hash, and the result is the same dictionary, only later.", "anchors": ["dawg_builder.go:intHash", "dawg_builder.go:DawgBuilder.hashTransition", "dawg_builder.go:DawgBuilder.hashUnit", "dawg_builder.go:DawgBuilder.findUnit", "dawg_builder.go:DawgBuilder.findTransition"]}
{"id": "C104", "title": "Recursions are no deeper than the longest key", "statement": "Building a dictionary, a guide, a ranked guide or an index from a lexicon nests no more calls of the recursive function than the longest key has bytes, and one (two for the dictionary): with this limit on nested calls the result is the same. So the stack grows with the length of the keys only, not with their number. The limit is needed: a single key of n bytes makes the index n + 1 calls deep.", "quantifier": "all admissible insertion histories, all comparators, all sorting routines that permute, all limits", "why_tests_cant": "Universal over lexicons; tests run on a stack that is large enough for all of their keys.", "anchors": ["dictionary_builder.go:DictionaryBuilder.buildDictionaryIndices", "guide_builder.go:GuideBuilder.buildIndices", "ranked_guide_builder.go:RankedGuideBuilder.buildIndices", "index_builder.go:IndexBuilder.buildIndices"]}
{"id": "C105", "title": "Guides and indices are built in linearly many calls", "statement": "Building a guide or a ranked guide takes at most 256 calls of buildIndices for each unit of the dictionary, and one; building an index takes at most one call for each unit. The number of keys, which can be exponential in the number of units, does not matter: what is reached on several ways is worked on once. Looking up the best value of what is already done (findMaxValue) takes no more rounds than the longest key has bytes.", "quantifier": "all admissible insertion histories, all comparators, all sorting routines that permute", "why_tests_cant": "A count over all lexicons; without the table of units that are done the result is the same, only later, so that tests cannot tell.", "anchors": ["guide_builder.go:GuideBuilder.buildIndices", "guide_builder.go:GuideBuilder.isFixed", "guide_builder.go:GuideBuilder.setIsFixed", "ranked_guide_builder.go:RankedGuideBuilder.buildIndices", "ranked_guide_builder.go:RankedGuideBuilder.enumerateLinks", "index_builder.go:IndexBuilder.buildIndices"]}
{"id": "C106", "title": "Dictionaries share as much as the Dawg", "statement": "A dictionary of at most 2^21 units has exactly one unit in use for each transition of the Dawg, besides the root: the link table finds every state that was placed before, however it is reached. So the number of unused units is the size without the root and NumOfTransitions, and two prefixes with the same suffixes and values lead to the same units from the next byte on, and to the same value unit.", "quantifier": "all admissible insertion histories whose dictionary has at most 2^21 units", "why_tests_cant": "A dictionary that places a state twice gives the same answers, only with more units; that this never happens is a statement about all lexicons.", "anchors": ["dictionary_builder.go:DictionaryBuilder.buildDictionaryIndices", "dictionary_builder.go:DictionaryBuilder.BuildDictionary", "link_table.go:LinkTable.Insert", "link_table.go:LinkTable.Find", "dictionary_builder.go:Dawg.BuildWithUnused"]}
{"id": "C107", "title": "Large dictionaries are not mostly empty", "statement": "At least a quarter of the units of a dictionary of 65536 units or more are in use: findGoodOffset fills the gaps that states leave in a block with other states.", "quantifier": "all admissible insertion histories whose dictionary has 65536 units or more", "why_tests_cant": "The share of units in use depends on which sets of bytes follow the prefixes of the keys; a lexicon of words fills its dictionary well, and the counterexample is a set of bytes with all 256 differences.", "anchors": ["dictionary_builder.go:DictionaryBuilder.findGoodOffset", "dictionary_builder.go:DictionaryBuilder.isGoodOffset", "dictionary_builder.go:DictionaryBuilder.arrangeChildNodes", "dictionary_builder.go:DictionaryBuilder.expandDictionary", "dictionary_builder.go:Dawg.BuildWithUnused"]}
{"id": "C108", "title": "Of several lines with a key, the last one decides", "statement": "When a lexicon with values (-t) has several lines with the same key, the value of the last of them in the lexicon is stored.", "quantifier": "all lexicons, all options of dawgtool", "why_tests_cant": "Universal over lexicons and the order of their lines; with -s the lines are ordered as text, where 10 comes before 9, and a test would need repeated keys whose values differ in length.", "anchors": ["cmd/dawgtool/main.go:handleBuildDict", "cmd/dawgtool/main.go:processLine", "dawg_builder.go:DawgBuilder.InsertKeyValue"]}
{"id": "C109", "title": "Listing completions follows every transition once", "statement": "Listing all completions of a prefix follows each transition below it exactly once, and climbs once more than this number: each Next follows as many transitions as the new key has prefixes that are no prefixes of the key before.", "quantifier": "all admissible insertion histories, all prefixes of keys (but for the root when the empty key is stored, where listing does not end)", "why_tests_cant": "A count over all lexicons; a completer that goes back to the start for each key lists the same keys, only later.", "anchors": ["completer.go:Completer.Next", "completer.go:Completer.FindTerminal"]}
{"id": "C110", "title": "dawgtool -i lists no word twice", "statement": "The list that dawgtool -i prints for a dictionary file has no word twice, and only words that are in the dictionary.", "quantifier": "all files that dawgtool loads, all options", "why_tests_cant": "Universal over files: the number of lines comes from the file, and in files that dawgtool itself wrote it is right.", "anchors": ["cmd/dawgtool/main.go:handleLoadDict", "indexer.go:Indexer.TotalCount", "indexer.go:Indexer.IndexToBytes", "index.go:Index.TotalCount", "index.go:Index.Read"]}
{"id": "C111", "title": "Finish does not depend on the Dawg that it is given", "statement": "Finish does the same whatever Dawg it is given: nothing is left of what was in it before.", "quantifier": "all admissible insertion histories, all variables of type Dawg", "why_tests_cant": "Universal over the earlier contents; tests always pass the result of NewDawg.", "anchors": ["dawg_builder.go:DawgBuilder.Finish", "dawg_builder.go:DawgBuilder.clear", "bit_pool.go:BitPool.clear", "dawg.go:NewDawg"]}
