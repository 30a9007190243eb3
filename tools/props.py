# Generates /verif/properties.jsonl.  Run: python3 tools/props.py
import json, os
P = []
def p(title, statement, quantifier, why, anchors):
    P.append(dict(id="C%02d" % (len(P)+1), title=title, statement=statement, quantifier=quantifier,
                  why_tests_cant=why, anchors=anchors))

p("Insertion is accepted exactly in byte order",
  "On a builder fed with any history of insertions of NUL-free keys, InsertKeyValue/InsertString returns true if and only if no key was accepted before or the new key is greater than or equal, bytewise lexicographically, to the last accepted key. It never panics or hangs.",
  "all insertion histories of NUL-free byte keys of any length and number, all int32 values, all initial hash table sizes from 1 to 2^32-1, total size of the keys below 2^30",
  "The decision depends on the whole private path left by previous insertions; tests sample a few orders.",
  ["dawg_builder.go:DawgBuilder.InsertKeyValue", "dawg_builder.go:DawgBuilder.fixUnits", "dawg_builder.go:DawgBuilder.InsertString"])
p("A rejected insertion has no effect",
  "When InsertKeyValue returns false, the finished Dawg and the verdict on every later insertion are the same as if that call had not been made.",
  "all histories and all out-of-order keys at any position in them",
  "Requires comparing all continuations of all histories.",
  ["dawg_builder.go:DawgBuilder.InsertKeyValue"])
p("Re-inserting the last key overwrites its value",
  "Inserting again a key equal to the last accepted key returns true and only replaces the value: the finished Dawg is the same as if only the second insertion had been made.",
  "all histories, keys and value pairs", "Universal over histories.",
  ["dawg_builder.go:DawgBuilder.InsertKeyValue", "dawg_unit.go:DawgUnit.setValue"])
p("The finished Dawg contains exactly the accepted keys and values",
  "After any insertion history and Finish, walking the Dawg with Root, Child, Sibling, Label, IsLeaf and Value spells exactly the accepted keys, each with its last value, and siblings are met in strictly increasing label order.",
  "all insertion histories of NUL-free keys with non-negative values whose total length stays below 2^30",
  "Merging of equivalent states through a hash table makes the result depend on the entire key set.",
  ["dawg_builder.go:DawgBuilder.Finish", "dawg_builder.go:DawgBuilder.fixUnits", "dawg.go:Dawg.Child", "dawg.go:Dawg.Sibling"])
p("The finished Dawg is minimal",
  "No two states of the finished Dawg accept the same set of (suffix, value) pairs, and NumOfStates equals one plus the number of distinct non-empty suffix maps of the accepted keys.",
  "all insertion histories", "Minimality is a statement about all pairs of states for all key sets.",
  ["dawg_builder.go:DawgBuilder.findUnit", "dawg_builder.go:DawgBuilder.areEqual", "dawg_builder.go:DawgBuilder.expandHashTable", "dawg.go:Dawg.NumOfStates"])
p("The Dawg statistics add up",
  "NumOfTransitions + NumOfMergedTransitions is the number of edges of the plain trie of the accepted keys (one terminal edge per key); NumOfMergedStates is the number of trie nodes minus NumOfStates; NumOfMergingStates is the number of states on which IsMerging holds, and these are exactly the states with more than one incoming transition in the trie-to-Dawg merge.",
  "all insertion histories", "Counting identities over unbounded key sets.",
  ["dawg.go:Dawg.NumOfTransitions", "dawg.go:Dawg.NumOfMergedTransitions", "dawg.go:Dawg.NumOfMergedStates", "dawg.go:Dawg.NumOfMergingStates", "dawg_builder.go:DawgBuilder.numOfMergedStates"])
p("Building never panics or hangs",
  "For any initial hash table size between 1 and 2^32-1, any history of insertions of NUL-free keys followed by Finish runs to completion: no index out of range, no division by zero, and the open-addressing probe loops always find a free slot.",
  "all histories of total size below 2^30, all initial table sizes from 1 to 2^32-1 (powers of two or not)", "Non-termination of probing depends on table occupancy after arbitrarily many resizes.",
  ["dawg_builder.go:DawgBuilder.findUnit", "dawg_builder.go:DawgBuilder.findTransition", "dawg_builder.go:DawgBuilder.expandHashTable", "dawg_builder.go:NewDawgBuilderWithSize"])
p("The initial hash table size is unobservable",
  "Two builders created with any two initial hash table sizes between 1 and 2^32-1 and fed the same insertions return the same verdicts and finish into the same Dawg (same units, labels, flags and statistics).",
  "all pairs of sizes from 1 to 2^32-1 and all histories of total size below 2^30", "Depends on completeness of the hash index under every collision and resize pattern.",
  ["dawg_builder.go:NewDawgBuilderWithSize", "dawg_builder.go:DawgBuilder.expandHashTable"])
p("A builder can be used again after Finish",
  "After Finish a builder is empty and can be used to build another Dawg.",
  "all builders that have been finished", "Universal over histories; no unit test reuses a builder.",
  ["dawg_builder.go:DawgBuilder.clear", "dawg_builder.go:DawgBuilder.Finish"])
p("Every inserted key is found with its value",
  "For every accepted (key, value) with a non-negative value, the dictionary returned by Build answers ContainsString(key) = true, FindString(key) = value, and FindStringValue(key) = true with that value; negative values come back as value mod 2^31.",
  "all accepted key sets of NUL-free keys, all values", "Placement in the double array depends on the whole key set.",
  ["dictionary_builder.go:DictionaryBuilder.BuildDictionary", "dictionary.go:Dictionary.FindString", "dictionary.go:Dictionary.ContainsString", "dictionary.go:Dictionary.FindStringValue"])
p("Nothing else is found",
  "For every NUL-free string that was not inserted, ContainsString returns false, FindString returns -1 and FindStringValue returns false.",
  "all key sets, all queries", "False positives depend on accidental neighbours in the double array.",
  ["dictionary.go:Dictionary.Follow", "dictionary_unit.go:dictLabel", "dictionary_builder.go:DictionaryBuilder.fixBlock"])
p("FollowString recognises exactly the prefixes of keys",
  "From the root, FollowString(p) returns true if and only if the NUL-free string p is a prefix of an inserted key; the index then reached is accepted by HasValue iff p itself was inserted.",
  "all key sets and all queries", "As above.",
  ["dictionary.go:Dictionary.FollowString", "dictionary.go:Dictionary.Follow", "dictionary.go:Dictionary.HasValue"])
p("Lookups in a built dictionary never panic",
  "On a dictionary returned by Build every exact-match and prefix query with any NUL-free string runs without index-out-of-range.",
  "all key sets, all queries", "Every offset in the double array must stay in bounds for every byte.",
  ["dictionary.go:Dictionary.Follow", "dictionary.go:Dictionary.Value"])
p("Build terminates, never panics, and fails only for size",
  "Build on a finished Dawg always terminates without panicking, and returns nil only if more than 2^29 units would be needed.",
  "all finished Dawgs", "Concerns a circular free list threaded through recycled blocks for arbitrarily many blocks.",
  ["dictionary_builder.go:DictionaryBuilder.findGoodOffset", "dictionary_builder.go:DictionaryBuilder.reserveUnit", "dictionary_builder.go:DictionaryBuilder.expandDictionary", "dictionary_builder.go:DictionaryBuilder.fixBlock", "link_table.go:LinkTable.findId"])
p("The reported number of unused units is exact",
  "BuildWithUnused reports exactly the number of units of the dictionary that are not part of any transition of a key; Size is a multiple of 256.",
  "all finished Dawgs", "Counting invariant over arbitrarily many blocks.",
  ["dictionary_builder.go:Dawg.BuildWithUnused", "dictionary_builder.go:DictionaryBuilder.fixAllBlocks"])
p("The exact-match entry points agree on every dictionary",
  "On every dictionary, built or loaded from arbitrary bytes, and for every key: ContainsString is true iff FindString is non-negative iff FindStringValue returns true, the values agree, FindString is -1 otherwise, and FindStringValue leaves its output untouched on failure.",
  "all unit arrays, all keys", "Ranges over arbitrary unit arrays.",
  ["dictionary.go:Dictionary.ContainsString", "dictionary.go:Dictionary.FindString", "dictionary.go:Dictionary.FindStringValue", "dictionary_unit.go:dictValue"])
p("The ...Len entry points look at the prefix of that length",
  "ContainsStringLen, FindStringLen, FindStringLenValue, FollowStringLen with 0 <= length <= len(key) equal the versions without Len applied to key[:length]; a non-positive length acts as the empty key.",
  "all unit arrays, keys and lengths", "Ranges over arbitrary unit arrays.",
  ["dictionary.go:Dictionary.FollowStringLen", "dictionary.go:Dictionary.FindStringLen", "dictionary.go:Dictionary.ContainsStringLen", "dictionary.go:Dictionary.FindStringLenValue"])
p("Following is compositional and counts matched bytes",
  "FollowString(a+b) from an index equals FollowString(a) then FollowString(b) from the index reached; FollowStringCount adds to the counter exactly the number of bytes followed, and on failure index and counter describe the longest prefix that could be followed.",
  "all unit arrays, keys and start indices", "Ranges over arbitrary unit arrays.",
  ["dictionary.go:Dictionary.FollowString", "dictionary.go:Dictionary.FollowStringCount", "dictionary.go:Dictionary.FollowStringLenCount"])
p("Dictionary, guide and index files round-trip",
  "Writing a Dictionary, Guide, RankedGuide or Index and reading the bytes back gives the same object, and reading consumes exactly the bytes written, so that objects written one after another to a stream are read back one after another.",
  "all objects with fewer than 2^32 units, all following stream contents", "Ranges over all unit arrays.",
  ["dictionary.go:Dictionary.Write", "dictionary.go:Dictionary.Read", "guide.go:Guide.Write", "guide.go:Guide.Read", "ranked_guide.go:RankedGuide.Read", "index.go:Index.Write", "index.go:Index.Read"])
p("FileSize is the number of bytes written",
  "For every Dictionary, Guide, RankedGuide and Index, Write produces exactly FileSize() bytes, and FileSize() = 4 + TotalSize().",
  "all objects", "Ranges over all unit arrays.",
  ["dictionary.go:Dictionary.FileSize", "guide.go:Guide.FileSize", "index.go:Index.FileSize"])
p("Truncated files are rejected",
  "Reading any strict prefix of a written file returns false (nil from the Read... functions), and the receiver of a failed Read keeps its previous contents.",
  "all objects and all truncation points", "Every crash point of the writer.",
  ["dictionary.go:Dictionary.Read", "guide.go:Guide.Read", "index.go:Index.Read"])
p("The Completer lists exactly the completions, in order",
  "After FollowString(p, &index) on a built dictionary and Start(index), successive Next calls return true once for every inserted key with prefix p, in increasing byte order, with Key() spelling the rest of the key and Value() its value, and then false.",
  "all key sets, all prefixes", "Universal over key sets; enumeration order and completeness over an unbounded tree.",
  ["completer.go:Completer.Next", "completer.go:Completer.FindTerminal", "completer.go:Completer.Start", "guide_builder.go:GuideBuilder.Build"])
p("Completer keys are exact strings",
  "After a successful Next, Key() is exactly the completion and Length() its length.",
  "all key sets, prefixes, and enumeration steps", "Universal over enumeration steps.",
  ["completer.go:Completer.Key", "completer.go:Completer.Length", "ranked_completer.go:RankedCompleter.Key", "ranked_completer.go:RankedCompleter.Length"])
p("Enumeration ends",
  "After finitely many Next calls a Completer returns false, and stays at false.",
  "all key sets and start indices", "Liveness for all key sets.",
  ["completer.go:Completer.Next"])
p("A completer can be restarted at any time",
  "Calling Start in the middle of an enumeration makes the completer behave like a fresh one started there.",
  "all completer states", "Universal over histories of Start/Next calls.",
  ["completer.go:Completer.StartStringLen", "ranked_completer.go:RankedCompleter.StartStringLen"])
p("Guide building succeeds on every built dictionary",
  "BuildGuide on a finished Dawg and the dictionary built from it never panics, never hangs and never returns nil, and the guide then names, for every index, the smallest non-terminal child label and the next sibling label.",
  "all finished Dawgs", "Recursion over shared states of unbounded automata.",
  ["guide_builder.go:GuideBuilder.buildIndices", "guide.go:Guide.Child", "guide.go:Guide.Sibling"])
p("The RankedCompleter lists every completion exactly once",
  "After Start(index) at the index of prefix p, a RankedCompleter over BuildRankedGuide or BuildRankedGuideCmp with any comparator returns every inserted key with prefix p exactly once, with its value, and then false.",
  "all key sets, prefixes, and comparators", "Lazily expanded best-first search with a heap; universal over key sets.",
  ["ranked_completer.go:RankedCompleter.Next", "ranked_guide_builder.go:RankedGuideBuilder.Build"])
p("The RankedCompleter lists completions by non-increasing value",
  "With the guide of BuildRankedGuide the values returned by successive Next calls never increase.",
  "all key sets and prefixes", "Depends on heap order and on the max-first order of every state's children.",
  ["ranked_completer.go:RankedCompleter.Next", "ranked_completer_candidate.go:RankedCompleterCandidateQueue.Less", "ranked_guide_builder.go:RankedGuideBuilder.turnLinksToUnits"])
p("A custom comparator determines the ranked order",
  "With a guide of BuildRankedGuideCmp the RankedCompleter returns completions in the order of the given comparator.",
  "all comparators that are strict weak orders", "Universal over comparators.",
  ["ranked_guide_builder.go:BuildRankedGuideCmp", "ranked_completer_candidate.go:RankedCompleterCandidateQueue.Less"])
p("The index counts the keys",
  "BuildIndex over a dictionary and its guide succeeds; TotalCount is the number of keys and ChildCount(i) is the number of keys below the prefix whose index is i.",
  "all key sets with fewer than 2^32 keys", "Counting over shared states of unbounded automata.",
  ["index_builder.go:IndexBuilder.buildIndices", "index.go:Index.TotalCount", "index.go:Index.ChildCount"])
p("StringToIndex is the rank of a key",
  "StringToIndex(k) is the number of inserted keys smaller than k if k was inserted, and NotFound otherwise; it never returns Failed.",
  "all key sets, all NUL-free queries", "Universal over key sets and queries.",
  ["indexer.go:Indexer.BytesToIndex", "indexer.go:Indexer.StringToIndex"])
p("IndexToString selects the i-th key",
  "IndexToString(i) is the i-th inserted key in byte order for i < TotalCount and nil/empty otherwise; StringToIndex and IndexToString are mutually inverse and order preserving.",
  "all key sets, all 32-bit i", "Universal over key sets and indices.",
  ["indexer.go:Indexer.IndexToBytes", "indexer.go:Indexer.IndexToString"])
p("An index can be built over either kind of guide",
  "BuildIndex and Indexer accept any SomeGuide: with a RankedGuide the same counts and ranks are obtained as with a Guide.",
  "all key sets and values", "Universal over key sets.",
  ["index_builder.go:BuildIndex", "indexer.go:NewIndexer", "ranked_guide.go:RankedGuide"])
p("The empty dictionary behaves like an empty set",
  "With no key inserted, Build succeeds, every lookup misses, no prefix can be followed, completers enumerate nothing and BuildIndex yields TotalCount 0.",
  "all queries on the empty dictionary", "Universal over queries.",
  ["dictionary_builder.go:DictionaryBuilder.BuildDictionary", "guide_builder.go:GuideBuilder.Build", "index_builder.go:IndexBuilder.Build"])
p("Keys containing NUL bytes behave like other keys",
  "A key containing NUL bytes that InsertKeyValue accepted is found again and does not disturb other keys.",
  "all accepted keys", "Universal over key sets.",
  ["dawg_builder.go:DawgBuilder.InsertKeyValue", "dawg_unit.go:DawgUnit.base"])
p("UTF-C round-trips",
  "UtfcDecode(UtfcEncode(s)) = s for every valid string s, without panicking.",
  "all sequences of Unicode scalar values", "The coder is a state machine with three modes; tests sample strings.",
  ["utfc.go:UtfcEncode", "utfc.go:UtfcDecode", "utfc.go:UtfcState.Follow"])
p("UTF-C output contains no NUL byte",
  "No byte of UtfcEncode(s) is zero, so UTF-C keys are always admissible dictionary keys.",
  "all sequences of Unicode scalar values, all coder states", "Universal over strings.",
  ["utfc.go:UtfcState.Follow"])
p("UTF-C is injective and prefix-faithful",
  "Distinct strings have distinct encodings, and UtfcEncode(s) is a byte prefix of UtfcEncode(t) exactly when s is a prefix of t, so prefix search on encoded keys is prefix search on strings.",
  "all pairs of strings", "Universal over pairs of strings.",
  ["utfc.go:UtfcEncode", "utfc.go:UtfcFollow"])
p("UTF-C encodes every character in one to three bytes",
  "UtfcEncode of a string of n characters has at least n and at most 3n bytes.",
  "all strings", "Universal over strings and coder states.",
  ["utfc.go:UtfcState.Follow"])
p("UtfcFollow stops at the first refusal",
  "UtfcFollow(s, f) feeds f the bytes of UtfcEncode(s) in order up to and including the first one refused, and returns true iff none was refused.",
  "all strings and all (stateful) followers", "Universal over followers.",
  ["utfc.go:UtfcFollow", "utfc.go:UtfcState.Follow"])
p("The result of UtfcEncode is stable",
  "The byte slice returned by UtfcEncode keeps its contents when UtfcEncode is called again.",
  "all pairs of calls", "Aliasing: universal over later calls.",
  ["utfc.go:UtfcEncode", "utfc.go:sharedBuffer"])
p("dawgtool -s builds from any lexicon",
  "With -s every lexicon of distinct non-empty lines is sorted so that all insertions succeed, with or without -u.",
  "all lexicons", "Universal over lexicons.",
  ["cmd/dawgtool/main.go:handleBuildDict", "cmd/dawgtool/main.go:processLine"])
p("LinkTable behaves as a map",
  "As long as no more distinct non-zero indices than slots are used, Insert and Find behave like a map from indices to offsets with default 0, and always terminate.",
  "all operation sequences, all table sizes", "Depends on all collision patterns of the hash.",
  ["link_table.go:LinkTable.Insert", "link_table.go:LinkTable.Find", "link_table.go:LinkTable.findId"])
p("BitPool behaves as a bit array",
  "After any sequence of allocations and writes, get returns the last bit written at that index, false if none; writing one index does not disturb another.",
  "all operation sequences", "Universal over sequences and indices; bit-level packing.",
  ["bit_pool.go:BitPool.get", "bit_pool.go:BitPool.set", "bit_pool.go:BitPool.allocate"])
p("Whole pipeline through files",
  "Building from a lexicon, writing the dictionary, guide and index one after another, and reading them back in another process gives lookups, completions and ranks identical to those of the in-memory objects, hence equal to those of the inserted key set.",
  "all key sets, all queries", "Composition of all the above over all key sets.",
  ["cmd/dawgtool/main.go:handleBuildDict", "cmd/dawgtool/main.go:handleLoadDict"])
p("InsertKeyValue looks at the prefix of the given length",
  "InsertKeyValue(key, length, value) with 0 <= length <= len(key) behaves exactly like InsertStringValue(key[:length], value).",
  "all builders in any state, all keys, lengths and values", "Universal over builder states.",
  ["dawg_builder.go:DawgBuilder.InsertKeyValue", "dawg_builder.go:DawgBuilder.InsertStringValue"])
p("dawgtool -b without -s accepts exactly the sorted lexicons",
  "Without -s, with or without -t and -u, a lexicon whose keys are in non-decreasing byte order (after encoding) gives the Dawg of its lines, and every other lexicon ends the program with an error.",
  "all lexicons whose lines parse, NUL-free keys, total size below 2^30", "Universal over lexicons and over where the first inversion is.",
  ["cmd/dawgtool/main.go:processLine", "cmd/dawgtool/main.go:handleBuildDict"])
p("dawgtool answers a query with the keys that are its prefixes",
  "Without a guide, every NUL-free query is answered with exactly the non-empty keys that are prefixes of the query, shortest first, each with its stored value.",
  "all dictionaries, all NUL-free queries", "Universal over dictionaries and queries.",
  ["cmd/dawgtool/main.go:handleLoadDict", "dictionary.go:Dictionary.Follow", "dictionary.go:Dictionary.HasValue"])
p("dawgtool -g answers a query with its completions",
  "With -g every query is answered with exactly the keys that start with it, in increasing order, each with its stored value (and with -i the rank of the query), after reading the file back.",
  "all dictionaries, all lists of NUL-free queries", "Universal over dictionaries and queries; passes through the file format.",
  ["cmd/dawgtool/main.go:handleLoadDict", "completer.go:Completer.Next"])
p("dawgtool -r answers a query with its completions by value",
  "With -r every query is answered with exactly the keys that start with it, values never increasing, each key once with its stored value, after reading the file back.",
  "all dictionaries, all lists of NUL-free queries", "Universal over dictionaries and queries; passes through the file format.",
  ["cmd/dawgtool/main.go:handleLoadDict", "ranked_completer.go:RankedCompleter.Next"])
p("dawgtool -i lists all keys by rank",
  "With -i, after the queries, the tool lists all keys in increasing order by their rank.",
  "all dictionaries", "Universal over dictionaries.",
  ["cmd/dawgtool/main.go:handleLoadDict", "index.go:Index.IndexToString"])
p("dawgtool -u finds the lines of its lexicon",
  "A dictionary built with -u answers each line of its lexicon, given as a query to dawgtool -u, with at least that line.",
  "all lexicons", "Universal over lexicons.",
  ["cmd/dawgtool/main.go:processLine", "cmd/dawgtool/main.go:handleLoadDict"])
p("dawgtool -s from a lexicon to its answers",
  "dawgtool -b -s on any lexicon of NUL-free lines in any order, with duplicates and empty lines, writes a file from which every NUL-free query is answered with exactly those of its prefixes that are lines (without -g), or exactly the lines that start with it in increasing order (with -g).",
  "all lexicons below 2^21 bytes, all NUL-free queries", "End-to-end composition over all lexicons and all queries.",
  ["cmd/dawgtool/main.go:handleBuildDict", "cmd/dawgtool/main.go:handleLoadDict"])
p("No lexicon makes dawgtool -b panic",
  "Whatever the lexicon, dawgtool -b ends with a Dawg or with an error message; it neither panics nor hangs.",
  "all lexicons, all options", "Universal over malformed inputs.",
  ["cmd/dawgtool/main.go:processLine", "cmd/dawgtool/main.go:handleBuildDict"])
p("dawgtool -u keeps different lines apart",
  "With -u, the key inserted for a line of UTF-8 text is the UTF-C encoding of that text, and different lines of the lexicon are inserted as different keys.",
  "all lines (byte strings)", "Universal over byte strings, including invalid UTF-8.",
  ["cmd/dawgtool/main.go:processLine", "utfc.go:UtfcEncode"])
p("dawgtool reads all lines of its input files",
  "For every list of lines, the tool reads exactly these lines from the file that contains them, with newline or CR newline after each, and with or without a newline at the end.",
  "all lists of lines without newline", "Universal over files, in particular over line lengths.",
  ["cmd/dawgtool/main.go:handleBuildDict", "cmd/dawgtool/main.go:handleLoadDict", "cmd/dawgtool/main.go:main"])
p("dawgtool -t from a lexicon file with values to its answers",
  "With -s and -t, a file of lines key, tab, decimal number (in any order) gives a dictionary file from which queries are answered with the right keys and the values cut to 0..2^31-1: prefixes without a guide, completions in key order with -g, by value with -r.",
  "all lexicons of different keys with bytes above 10 below 2^21 bytes, all queries that do not leave the key set with the low byte of a stored value and, for -g, are not empty when the empty key is stored; completions are compared up to the trailing NUL byte of Completer.Key", "End-to-end composition over all lexicons, values and queries, starting from and ending in bytes.",
  ["cmd/dawgtool/main.go:processLine", "cmd/dawgtool/main.go:handleBuildDict", "cmd/dawgtool/main.go:handleLoadDict"])
p("Insertions return whatever bytes the keys have",
  "Every sequence of InsertKeyValue calls followed by Finish returns, for keys of arbitrary bytes.",
  "all histories of keys (arbitrary bytes) and values below 2^30 bytes", "Universal over keys and values, including keys with NUL bytes.",
  ["dawg_builder.go:DawgBuilder.InsertKeyValue", "dawg_builder.go:DawgBuilder.Finish"])
p("Dictionaries of UTF-C strings are queried by Unicode strings",
  "In a dictionary of UTF-C encoded strings inserted without values, UtfcFollow with Dictionary.Follow from the root accepts exactly the prefixes, as Unicode strings, of the stored strings, and HasValue at the reached index tells whether the whole string is stored.",
  "all lists of Unicode strings in the order of their encodings, all queries", "Universal over Unicode strings; combines the state of the coder with the walk through the dictionary.",
  ["utfc.go:UtfcFollow", "utfc.go:UtfcState.Follow", "dictionary.go:Dictionary.Follow"])
p("UtfcState can be used piecewise, copied, continued and cleared",
  "Following a string in two pieces with the same UtfcState is following it as a whole; a copy of the state after a prefix continues with any suffix as if the whole string had been followed; a refused character does not change the state; after Clear the state behaves as a new one.",
  "all strings, all ways to cut them, all followers, all states", "Universal over strings, followers and coder states.",
  ["utfc.go:UtfcState.Follow", "utfc.go:UtfcState.Copy", "utfc.go:UtfcState.Clear"])
p("UtfcDecode returns for every byte array",
  "UtfcDecode returns a string for every byte array, also for arrays that are no encodings.",
  "all byte arrays", "Universal over byte arrays.",
  ["utfc.go:UtfcDecode"])
p("dawgtool survives every dictionary file",
  "Whatever bytes the dictionary file contains, dawgtool reports an error or answers all queries; it neither panics nor hangs.",
  "all dictionary files (byte strings), all files of queries", "Universal over files, including files that no builder has written.",
  ["dictionary.go:Dictionary.Read", "dictionary.go:Dictionary.Follow", "completer.go:Completer.Next", "cmd/dawgtool/main.go:handleLoadDict"])
p("The dictionary depends on the keys and values only",
  "Two histories of insertions give the same Dawg exactly when they leave the same keys with the same stored values, whatever was rejected or overwritten and whatever the table sizes; dawgtool writes the same dictionary file for two lexicons with the same keys and values, and with -s (without -u) the order of the lines and the sorting routine never matter.",
  "all insertion histories with NUL-free keys (total size below 2^30), all table sizes; all lexicon files, all stable sorting routines, all options", "Relates all pairs of histories and all pairs of files.",
  ["dawg_builder.go:InsertKeyValue", "dawg_builder.go:Finish", "ranked_guide_builder.go:buildIndices", "cmd/dawgtool/main.go:handleBuildDict"])
p("UTF-C is not longer than UTF-8",
  "The UTF-C encoding of a string never has more bytes than its UTF-8 form; ASCII text is its own encoding, and a text of plain ASCII characters and one alphabet takes one byte for each character and one more.",
  "all Unicode strings", "Universal over strings; the length depends on the whole history of alphabets.",
  ["utfc.go:UtfcEncode", "utfc.go:UtfcState.Follow"])
p("The previous alphabet stays reachable by one byte",
  "When a text goes from a listed alphabet to another one, the 64 code points that the table auxOffset names for the first alphabet take one byte each.",
  "all listed alphabets, all texts around the switch", "Universal over texts; the table is a Go map whose unused rows no test can notice.",
  ["utfc.go:auxOffset", "utfc.go:getAuxOffset", "utfc.go:UtfcState.Follow"])
p("A failed build leaves the dictionary file as it was",
  "When dawgtool -b ends with an error or a panic, the dictionary file has the contents it had before.",
  "all lexicon files, old dictionary files and options", "Universal over lexicons and over the points where a build can fail.",
  ["cmd/dawgtool/main.go:handleBuildDict", "cmd/dawgtool/main.go:main"])
p("dawgtool -b reports the true numbers",
  "The statistics that dawgtool -b prints are those of the key set: number of keys, states and transitions of the minimal automaton, nodes and edges of the trie saved, units of the dictionary and unused ones, sizes in bytes of what is written.",
  "all lexicon files and options with which a build succeeds", "Relates printed text to cardinalities of sets of strings, for all lexicons.",
  ["cmd/dawgtool/main.go:handleBuildDict", "dawg.go:Dawg.NumOfTransitions", "dictionary_builder.go:Dawg.BuildWithUnused"])
p("dawgtool prints one line for each query",
  "A run of dawgtool without -b and -i that ends normally prints exactly as many lines as there are queries.",
  "all dictionary files that the tool builds, all files of queries and all options", "Universal over lexicons and queries, with the text printed byte for byte.",
  ["cmd/dawgtool/main.go:handleLoadDict"])
p("Every run of dawgtool ends",
  "With a dictionary file that the tool itself has built, and the same options, every run over every file of queries ends.",
  "all lexicons, all files of queries and all options", "Termination over all inputs.",
  ["cmd/dawgtool/main.go:handleLoadDict", "completer.go:Completer.Next"])
p("dawgtool changes no file but the dictionary",
  "A run of dawgtool changes at most one file, only when -b is among its arguments, and its name is one of the arguments, the value of -d, or '-'.",
  "all argument lists, all contents of all files", "Universal over command lines and files.",
  ["cmd/dawgtool/main.go:main"])
p("dawgtool -b keeps the lexicon",
  "A run of dawgtool -b x y leaves the file x as it was.",
  "all names x and y, all contents of all files", "Universal over names and files, including equal names.",
  ["cmd/dawgtool/main.go:main"])
p("The order and the spelling of the boolean options do not matter",
  "Two command lines that give the same set of boolean options, in any order, repeated or not, with one or two dashes, with or without an explicit true value, and then the same arguments, do the same. When options are also switched off again (-b=false), the last setting of each option counts.",
  "all sets of options, all spellings, all remaining arguments, all files", "Universal over command lines.",
  ["cmd/dawgtool/main.go:main"])
p("Arguments name the files that no flag has named",
  "dawgtool -l x y and dawgtool -d y x do what dawgtool x y does.",
  "all names x and y other than '-', all files", "Universal over names and files.",
  ["cmd/dawgtool/main.go:main"])
p("From two command lines to the printed answers",
  "dawgtool -b -s words dict and then dawgtool queries dict print, byte for byte, the stored prefixes of every query; with -g in both, the completions in order; with -t in the first, the same with the values; with -t and -r, the completions by value. No other file changes.",
  "all lexicons and queries as in the properties of the tool's building and answering, all names of the files", "End to end from command lines and files to the printed text.",
  ["cmd/dawgtool/main.go:main", "cmd/dawgtool/main.go:handleBuildDict", "cmd/dawgtool/main.go:handleLoadDict"])
p("A follower may itself call UtfcEncode",
  "When the function that UtfcFollow calls for each byte calls UtfcEncode itself, UtfcFollow still hands it the bytes of its own string.",
  "all strings, all followers, all strings of the inner calls", "Universal over strings and over the points where inner calls occur.",
  ["utfc.go:UtfcFollow", "utfc.go:UtfcEncode", "utfc.go:sharedState"])
p("UtfcEncode may be called by several goroutines",
  "Of several calls of UtfcEncode that run at the same time, each returns the encoding of its string.",
  "all numbers of calls, all strings, all interleavings of their steps", "Universal over interleavings.",
  ["utfc.go:UtfcEncode", "utfc.go:sharedState", "utfc.go:sharedBuffer"])
p("A look-up reads at most len(key)+2 units",
  "The results of FollowString, ContainsString, FindString and FindStringValue for a key depend on at most len(key)+2 units of the dictionary; whatever the other units are, the results are the same, panics included.",
  "all arrays of units, built, read or corrupt, and all keys", "Universal over pairs of dictionaries.",
  ["dictionary.go:Dictionary.FindString", "dictionary.go:Dictionary.ContainsString", "dictionary.go:Dictionary.FollowString", "dictionary.go:Dictionary.Follow"])
p("UTF-C keeps the order of strings",
  "The UTF-C encodings of two strings are ordered, byte by byte, as the strings are by code points.",
  "all pairs of strings", "Universal over pairs of strings.",
  ["utfc.go:UtfcState.Follow", "utfc.go:UtfcEncode"])
p("The dictionary is at least as large as the minimal automaton and at most as large as the trie",
  "The number of used units of a built dictionary, without the root, is at least the number of transitions of the minimal automaton and at most the number of edges of the trie of the keys; the number of all units is a multiple of 256, at most 256 times one plus the total length of the keys with their terminators, and at most 2^29; the file has 4 bytes per unit and 4 more.",
  "all admissible insertion histories for which Build succeeds", "Relates the array to cardinalities of sets of strings, for all key sets.",
  ["dictionary_builder.go:DictionaryBuilder.BuildDictionary", "dictionary_builder.go:DictionaryBuilder.arrangeChildNodes", "dictionary_builder.go:DictionaryBuilder.expandDictionary", "dictionary.go:Dictionary.FileSize"])
p("The units of a built dictionary spell exactly the inserted pairs",
  "A reader that starts at unit 0 and goes from unit to unit by the offset in bits 10 to 30 (times 256 if bit 9 is set), xor the byte, skipping every unit with bit 31 set or with another label, reaches a unit with bit 8 set for exactly the inserted keys, and finds their values in the low 31 bits of the first child; it reaches some unit for exactly the prefixes of keys.",
  "all admissible insertion histories for which Build succeeds, all strings and all values, without exception", "Universal over key sets and queries; separates the content of the array from what the look-ups make of it.",
  ["dictionary_builder.go:DictionaryBuilder.BuildDictionary", "dictionary_builder.go:DictionaryBuilder.arrangeChildNodes", "dictionary_unit.go:dictLabel", "dictionary_unit.go:dictOffset", "dictionary_unit.go:dictSetValue"])
p("Dictionaries and key sets determine each other",
  "Two built dictionaries are equal if and only if the accepted keys and their values (low 31 bits) are the same, and if and only if their Dawgs are equal; if two files begin with written dictionaries and are equal, the keys and values are the same and so is what follows.",
  "all pairs of admissible insertion histories for which Build succeeds, all builder sizes, all rests of files", "Universal over pairs of key sets.",
  ["dictionary_builder.go:DictionaryBuilder.BuildDictionary", "dawg_builder.go:DawgBuilder.Finish", "dictionary.go:Dictionary.Write"])
p("Strings with NUL bytes are not found",
  "A string with a NUL byte, which is never a key, is not contained, has no value and cannot be followed; no look-up of it panics.",
  "all admissible insertion histories with at least one key, all strings with a NUL byte", "Universal over key sets, values and queries.",
  ["dictionary.go:Dictionary.FollowString", "dictionary.go:Dictionary.ContainsString", "dictionary.go:Dictionary.FindString", "dictionary_unit.go:dictLabel"])
p("In dictionaries of at most 2^21 units, Find and the tool are right or panic",
  "If the dictionary has at most 2^21 units (a file of at most 8 MiB), FindString and FindStringValue return the value of a key, and for any other string that there is none, unless they panic; ContainsString is wrong only for strings one byte longer than a prefix of a key, that byte being the low byte of a stored value with bit 8 set; FollowString follows nothing but prefixes of keys and such strings; dawgtool without -i answers all queries rightly (prefixes, completions with -g except for the empty query when the empty key is stored, completions by value with -r), or panics.",
  "all admissible insertion histories for which Build gives at most 2^21 units, all strings", "Universal over key sets, values and queries, with the low bytes of values included.",
  ["dictionary.go:Dictionary.FindString", "dictionary.go:Dictionary.ContainsString", "dictionary.go:Dictionary.FollowString", "dictionary_unit.go:dictOffset", "cmd/dawgtool/main.go:handleLoadDict", "completer.go:Completer.Next", "ranked_completer.go:RankedCompleter.Next"])
p("The fields of units are independent",
  "Each function that reads a dictionary unit yields its field of the word (label: bits 0-7, leaf flag: 8, extension flag: 9, offset: 10-30, leaf: 31), for all 32-bit words; setting the label or the leaf flag changes nothing else; whenever dictSetOffset returns true, the offset that was given is read again and the other fields are unchanged; leaves keep values below 2^31; extra units keep two 31-bit links and two flags independently; units of a Dawg keep a child below 2^30, or a value below 2^31, and their flags.",
  "all 32-bit words, labels, offsets, values and links", "2^32 words times 2^32 offsets.",
  ["dictionary_unit.go:dictSetOffset", "dictionary_unit.go:dictOffset", "dictionary_unit.go:dictSetLabel", "dictionary_unit.go:dictSetHasLeaf", "dictionary_unit.go:dictHasExtBit", "dictionary_extra_unit.go:DictionaryExtraUnit.setNext", "dawg_unit.go:DawgUnit.base", "dawg_unit.go:DawgUnit.value", "base_unit.go:BaseUnit.child"])
p("Queries do not influence each other",
  "A completer that is started again behaves like a new one; dawgtool answers each query of a file as if it were the only one, so that cutting a file of queries at the end of a line cuts the output (up to the list of keys of -i), and permuting the queries permutes the answers.",
  "all dictionary files, also corrupt ones, all options, all files of queries with complete lines of less than 65536 bytes before the cut", "Universal over histories of a completer and over corrupt files.",
  ["cmd/dawgtool/main.go:handleLoadDict", "completer.go:Completer.StartStringLen", "ranked_completer.go:RankedCompleter.StartStringLen"])
p("With -r -i every key is listed and every query ends",
  "dawgtool -b -r -i writes a file for every lexicon with a key; with -r -i every run ends, every query is answered with a number and with the keys that start with it, by descending values, and at the end every key is listed once.",
  "all admissible insertion histories with at least one key, all stable sorting functions, all files of queries without low-byte clash", "Universal over key sets with values: which keys an index over a ranked guide sees depends on the values of their prefixes.",
  ["index_builder.go:IndexBuilder.buildIndices", "indexer.go:Indexer.IndexToBytes", "indexer.go:Indexer.BytesToIndex", "ranked_guide_builder.go:RankedGuideBuilder.Build", "cmd/dawgtool/main.go:handleLoadDict"])
p("The options of the build do not matter for queries",
  "Whatever the options with which dawgtool wrote a dictionary file, a query with given options gets the same answers, provided that the file has a guide when the query needs one (and an index for -i); otherwise the tool stops with an error. In particular a guide file written with -g can be queried with -r, and one written with -r can be queried with -g.",
  "all admissible insertion histories for which Build succeeds, all pairs of options, all stable sorting functions, all queries without low-byte clash", "Universal over key sets with values and over pairs of options; guides of both kinds have the same file format.",
  ["cmd/dawgtool/main.go:handleLoadDict", "completer.go:Completer.Next", "ranked_completer.go:RankedCompleter.Next", "guide.go:Guide.Read", "ranked_guide.go:RankedGuide.Read"])
p("StringToIndex inverts IndexToString over ranked guides, too",
  "With an index over a RankedGuide, StringToIndex gives every key that IndexToString yields the number with which IndexToString yields it.",
  "all admissible insertion histories with at least one key, all stable sorting functions, all numbers", "Universal over key sets with values: BytesToIndex skips the siblings as if they were in byte order, but a ranked guide orders them by value.",
  ["indexer.go:Indexer.BytesToIndex", "indexer.go:Indexer.IndexToBytes", "ranked_guide_builder.go:RankedGuideBuilder.Build"])
p("Reading does not depend on how the bytes arrive",
  "From any reader that keeps to the contract of io.Reader, whatever the sizes of the pieces in which it delivers its bytes, whether the error at the end comes with the last bytes or after them, and whichever error it is, the Read methods give the same as from the bytes at once, and leave to the next Read exactly what follows; dawgtool prints the same for a dictionary file and a file of queries however they are read.",
  "all readers that keep to the contract, all byte sequences, all receivers", "Universal over readers: all ways to cut a stream into pieces, with empty reads in between.",
  ["dictionary.go:Dictionary.Read", "guide.go:Guide.Read", "ranked_guide.go:RankedGuide.Read", "index.go:Index.Read", "cmd/dawgtool/main.go:handleLoadDict"])
p("A lexicon that cannot be read to its end is reported",
  "When reading the lexicon ends with an error other than the end of the file, dawgtool -b stops with an error.",
  "all readers that keep to the contract, all lexicons, all options", "Universal over readers and over the place of the error; I/O errors are hard to provoke in tests.",
  ["cmd/dawgtool/main.go:handleBuildDict"])
p("A dictionary that cannot be written completely is reported, and not mistaken for a complete one",
  "Write returns true only if the writer has taken the complete file format; otherwise it has taken a beginning of it. When dawgtool -b ends normally, the file is complete; when a write fails, the tool stops with an error, and unless the file is complete nevertheless, every later run with this file and the same options stops with an error before it answers anything.",
  "all writers that keep to the contract, all readers of the lexicon, all lexicons of NUL-free keys below 1 GB, all options", "Universal over the place at which a disk becomes full.",
  ["dictionary.go:Dictionary.Write", "guide.go:Guide.Write", "ranked_guide.go:RankedGuide.Write", "index.go:Index.Write", "cmd/dawgtool/main.go:handleBuildDict", "cmd/dawgtool/main.go:handleLoadDict"])
p("The percentage of unused elements is rounded correctly",
  "The percentage of unused elements that dawgtool -b prints is the exact ratio, rounded to two decimals: the printed number differs from it by at most half a hundredth.",
  "all numbers of elements below 2^32, all numbers of unused ones, all lexicons of NUL-free keys", "2^63 pairs of numbers, with two roundings (to a float64, and to two decimals).",
  ["cmd/dawgtool/main.go:handleBuildDict", "dictionary_builder.go:Dawg.BuildWithUnused"])
p("An error message names the first mistake",
  "When dawgtool stops with an error, the message on the standard error names the first mistake: for a lexicon the first line, in the order in which the lines are inserted, that has a bad value or a bad key; for a dictionary file the first part that cannot be read; for a file that is missing, its name. There is a message exactly if the tool stops with an error and not with a panic.",
  "all lexicons of NUL-free keys below 1 GB, all options, all dictionary files, all command lines", "Universal over lexicons and over files; which line is reported depends on the order of insertion, i.e. on sorting and encoding.",
  ["cmd/dawgtool/main.go:processLine", "cmd/dawgtool/main.go:handleBuildDict", "cmd/dawgtool/main.go:handleLoadDict", "cmd/dawgtool/main.go:main"])
p("The builder needs working memory for one key only",
  "Besides the finished transitions, the builder has one unit for the root and as many units as there have been transitions at most at a time in the states on the path of the last key; so it has at most 1 + 256 (L + 1) units for keys of at most L bytes, however many keys there are. No unit is lost. The stack has an element for each byte of the last key and two more. The hash table has its initial length times a power of two, which is at most 8/3 of the number of states unless it is still the initial length, and less than three quarters of it are occupied.",
  "all admissible insertion histories, all initial sizes of the hash table from 1 to 2^32 - 1", "Universal over insertion histories: a leak of units or a table that grows too soon does not change any result.",
  ["dawg_builder.go:DawgBuilder.allocateUnit", "dawg_builder.go:DawgBuilder.freeUnit", "dawg_builder.go:DawgBuilder.fixUnits", "dawg_builder.go:DawgBuilder.expandHashTable", "dawg_builder.go:DawgBuilder.InsertKeyValue"])
p("An object that has been cleared is as a new one",
  "After Clear, a Dawg or a guide of either kind is as a new one: its sizes and statistics are those of a new object; a dictionary and guides built from a cleared Dawg are those of a Dawg without keys; completers over a cleared guide list nothing.",
  "all Dawgs built from admissible insertion histories, all guides", "Universal over the earlier contents; no test calls Clear.",
  ["dawg.go:Dawg.Clear", "guide.go:Guide.Clear", "ranked_guide.go:RankedGuide.Clear", "dictionary_builder.go:DictionaryBuilder.BuildDictionary"])
p("The cost of the next completion does not depend on the number of keys",
  "A call of Next of a completer takes at most as many rounds in each of its loops as the key before or the key after the call is longer than the prefix, counting its NUL. A ranked completer has, after its first k + 1 results, created at most 2 + M + k (M + 1)^2 nodes, one for each transition followed, and queued at most k M candidates, when no key is more than M bytes longer than the prefix.",
  "completers: all dictionaries and guides, also from arbitrary files, all starting indices and prefixes, after any number of calls; ranked completers: all admissible insertion histories, all comparators, all prefixes of keys", "Universal over dictionaries; a completer that looks at more of the dictionary than needed returns the same keys.",
  ["completer.go:Completer.Next", "completer.go:Completer.FindTerminal", "ranked_completer.go:RankedCompleter.Next", "ranked_completer.go:RankedCompleter.enqueueNode", "ranked_completer.go:RankedCompleter.findTerminal"])
p("UtfcEncode gives a shortest encoding",
  "No byte array that UtfcDecode decodes to a string is shorter than the array that UtfcEncode gives for it.",
  "all strings, all byte arrays", "Universal over all byte arrays that decode to a string; a test would have to search for shorter ones.",
  ["utfc.go:UtfcEncode", "utfc.go:UtfcState.Follow", "utfc.go:UtfcDecode"])
p("Numbers of keys cost time in proportion to the length of the key",
  "StringToIndex for a string of n bytes depends on at most 258 n + 1 units of the dictionary, the guide and the index, and IndexToString for a key of n bytes on at most 257 n + 1, however many keys there are; the loop of IndexToString runs at most n + 1 times.",
  "all dictionaries, guides of both kinds and indices, also from arbitrary files and when they do not belong together; all strings, all numbers", "Universal over dictionaries; reading more than needed does not change the results.",
  ["indexer.go:Indexer.BytesToIndex", "indexer.go:Indexer.StringToIndex", "indexer.go:Indexer.IndexToBytes", "indexer.go:Indexer.IndexToString", "index.go:Index.ChildCount"])
p("Reading asks for no more memory than there is in the file",
  "The slices that Read makes for a dictionary, a guide or an index, and all of those that dawgtool makes when it loads a dictionary file, are together not larger than the file.",
  "all files, all options of dawgtool", "Universal over files; a wrong size in a file that is not accepted anyway has no visible result.",
  ["dictionary.go:Dictionary.Read", "guide.go:Guide.Read", "ranked_guide.go:RankedGuide.Read", "index.go:Index.Read", "cmd/dawgtool/main.go:handleLoadDict"])
p("Completions with equal values come in byte order",
  "With the guide of BuildRankedGuide, of two keys with equal values a ranked completer lists first the one that is first in byte order; so without values it lists the keys as a plain completer does.",
  "all admissible insertion histories, all prefixes of keys", "Universal over key sets; which of two candidates with equal values is taken depends on the whole history of the heap.",
  ["ranked_completer.go:RankedCompleter.Next", "ranked_completer_candidate.go:RankedCompleterCandidateQueue.Less", "ranked_completer.go:RankedCompleter.enqueueNode", "ranked_guide_builder.go:RankedGuideBuilder.enumerateLinks"])
p("Finding places for states takes time in proportion to the keys",
  "While a dictionary is built, findGoodOffset tries at most 4096 places for each state that is placed, however large the dictionary already is: altogether at most 4096 times the number of units in use, and at most 4096 times the total length of the stored keys, each counted with one byte more, also if the construction gives up in the end.",
  "all admissible insertion histories, all initial sizes of the hash table from 1 to 2^32 - 1", "Universal over insertion histories; a search through blocks that should have been closed gives a valid dictionary too, only in quadratic time.",
  ["dictionary_builder.go:DictionaryBuilder.findGoodOffset", "dictionary_builder.go:DictionaryBuilder.isGoodOffset", "dictionary_builder.go:DictionaryBuilder.expandDictionary", "dictionary_builder.go:DictionaryBuilder.fixBlock"])
p("Exactly the written files can be read",
  "ReadDictionary, ReadGuide, ReadRankedGuide and ReadIndex accept a byte sequence exactly if it starts with what Write writes for some object of at most 2^32 - 1 units; then they return this object and leave what follows. So reading a file and writing it again reproduces it, and no two files are read as the same object unless they differ in what follows only. dawgtool loads a file exactly if it starts with the bytes of the objects that the options ask for, one after the other.",
  "all byte sequences, all objects, all options of dawgtool", "Universal over byte sequences; tests start from objects and never from files.",
  ["dictionary.go:ReadDictionary", "dictionary.go:Dictionary.Write", "guide.go:ReadGuide", "guide.go:Guide.Write", "ranked_guide.go:ReadRankedGuide", "ranked_guide.go:RankedGuide.Write", "index.go:ReadIndex", "index.go:Index.Write", "cmd/dawgtool/main.go:handleLoadDict"])
p("Searches in the hash table of states are short",
  "While keys are inserted, every state in the hash table of the builder lies less than K slots after the one that its hash gives, for a K that depends on neither the keys nor the size of the table; so a search looks at a bounded number of slots.",
  "all admissible insertion histories, all initial sizes of the hash table from 1 to 2^32 - 1", "Universal over key sets; it takes values that are chosen for it to make many states have the same hash, and the result is the same dictionary, only later.",
  ["dawg_builder.go:intHash", "dawg_builder.go:DawgBuilder.hashTransition", "dawg_builder.go:DawgBuilder.hashUnit", "dawg_builder.go:DawgBuilder.findUnit", "dawg_builder.go:DawgBuilder.findTransition"])
p("Recursions are no deeper than the longest key",
  "Building a dictionary, a guide, a ranked guide or an index from a lexicon nests no more calls of the recursive function than the longest key has bytes, and one (two for the dictionary): with this limit on nested calls the result is the same. So the stack grows with the length of the keys only, not with their number. The limit is needed: a single key of n bytes makes the index n + 1 calls deep.",
  "all admissible insertion histories, all comparators, all sorting routines that permute, all limits", "Universal over lexicons; tests run on a stack that is large enough for all of their keys.",
  ["dictionary_builder.go:DictionaryBuilder.buildDictionaryIndices", "guide_builder.go:GuideBuilder.buildIndices", "ranked_guide_builder.go:RankedGuideBuilder.buildIndices", "index_builder.go:IndexBuilder.buildIndices"])
p("Guides and indices are built in linearly many calls",
  "Building a guide or a ranked guide takes at most 256 calls of buildIndices for each unit of the dictionary, and one; building an index takes at most one call for each unit. The number of keys, which can be exponential in the number of units, does not matter: what is reached on several ways is worked on once. Looking up the best value of what is already done (findMaxValue) takes no more rounds than the longest key has bytes.",
  "all admissible insertion histories, all comparators, all sorting routines that permute", "A count over all lexicons; without the table of units that are done the result is the same, only later, so that tests cannot tell.",
  ["guide_builder.go:GuideBuilder.buildIndices", "guide_builder.go:GuideBuilder.isFixed", "guide_builder.go:GuideBuilder.setIsFixed", "ranked_guide_builder.go:RankedGuideBuilder.buildIndices", "ranked_guide_builder.go:RankedGuideBuilder.enumerateLinks", "index_builder.go:IndexBuilder.buildIndices"])
p("Dictionaries share as much as the Dawg",
  "A dictionary of at most 2^21 units has exactly one unit in use for each transition of the Dawg, besides the root: the link table finds every state that was placed before, however it is reached. So the number of unused units is the size without the root and NumOfTransitions, and two prefixes with the same suffixes and values lead to the same units from the next byte on, and to the same value unit.",
  "all admissible insertion histories whose dictionary has at most 2^21 units", "A dictionary that places a state twice gives the same answers, only with more units; that this never happens is a statement about all lexicons.",
  ["dictionary_builder.go:DictionaryBuilder.buildDictionaryIndices", "dictionary_builder.go:DictionaryBuilder.BuildDictionary", "link_table.go:LinkTable.Insert", "link_table.go:LinkTable.Find", "dictionary_builder.go:Dawg.BuildWithUnused"])
p("Large dictionaries are not mostly empty",
  "At least a quarter of the units of a dictionary of 65536 units or more are in use: findGoodOffset fills the gaps that states leave in a block with other states.",
  "all admissible insertion histories whose dictionary has 65536 units or more", "The share of units in use depends on which sets of bytes follow the prefixes of the keys; a lexicon of words fills its dictionary well, and the counterexample is a set of bytes with all 256 differences.",
  ["dictionary_builder.go:DictionaryBuilder.findGoodOffset", "dictionary_builder.go:DictionaryBuilder.isGoodOffset", "dictionary_builder.go:DictionaryBuilder.arrangeChildNodes", "dictionary_builder.go:DictionaryBuilder.expandDictionary", "dictionary_builder.go:Dawg.BuildWithUnused"])
p("Of several lines with a key, the last one decides",
  "When a lexicon with values (-t) has several lines with the same key, the value of the last of them in the lexicon is stored.",
  "all lexicons, all options of dawgtool", "Universal over lexicons and the order of their lines; with -s the lines are ordered as text, where 10 comes before 9, and a test would need repeated keys whose values differ in length.",
  ["cmd/dawgtool/main.go:handleBuildDict", "cmd/dawgtool/main.go:processLine", "dawg_builder.go:DawgBuilder.InsertKeyValue"])
p("Listing completions follows every transition once",
  "Listing all completions of a prefix follows each transition below it exactly once, and climbs once more than this number: each Next follows as many transitions as the new key has prefixes that are no prefixes of the key before.",
  "all admissible insertion histories, all prefixes of keys (but for the root when the empty key is stored, where listing does not end)", "A count over all lexicons; a completer that goes back to the start for each key lists the same keys, only later.",
  ["completer.go:Completer.Next", "completer.go:Completer.FindTerminal"])
p("dawgtool -i lists no word twice",
  "The list that dawgtool -i prints for a dictionary file has no word twice, and only words that are in the dictionary.",
  "all files that dawgtool loads, all options", "Universal over files: the number of lines comes from the file, and in files that dawgtool itself wrote it is right.",
  ["cmd/dawgtool/main.go:handleLoadDict", "indexer.go:Indexer.TotalCount", "indexer.go:Indexer.IndexToBytes", "index.go:Index.TotalCount", "index.go:Index.Read"])
p("Finish does not depend on the Dawg that it is given",
  "Finish does the same whatever Dawg it is given: nothing is left of what was in it before.",
  "all admissible insertion histories, all variables of type Dawg", "Universal over the earlier contents; tests always pass the result of NewDawg.",
  ["dawg_builder.go:DawgBuilder.Finish", "dawg_builder.go:DawgBuilder.clear", "bit_pool.go:BitPool.clear", "dawg.go:NewDawg"])
out = os.path.join(os.path.dirname(os.path.abspath(__file__)), "..", "properties.jsonl")
with open(out, "w") as f:
    for q in P: f.write(json.dumps(q, ensure_ascii=False) + "\n")
print(len(P))
