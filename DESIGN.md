# Formal model of deNULL/dawg in Lean 4 — design

The code in `/repo` (Go) was read as text; nothing of it was built or run.  The model, the specification and the proofs are the Lake library `Verif` in `lean/`.
`properties.jsonl` lists the properties, `MANIFEST.json` the theorems for each of them, `AXIOMS.md` the axioms of each theorem, `seeded/` the tests of the theorems against wrong programs.

## 1. Trusted base

What has to be believed:

1. **Lean 4.33.0's kernel**, and three of its standard axioms: `propext`, `Classical.choice`, `Quot.sound`.  No other axiom is used: no `sorry`, no own axioms, no `native_decide`, no `bv_decide`.
   Concrete computations are done by the kernel (`decide`, `decide +kernel`).  `lean/Verif/Audit.lean` prints the axioms of every property theorem during the build; `AXIOMS.md` is that output.
2. **The reading of the Go code** into `lean/Verif/Model/*.lean`, under the conventions of section 3.  Every definition cites file and lines.
3. **The documented behaviour of Go's libraries**, as far as the code uses them (section 4).
4. **The statements**: `lean/Verif/Spec.lean` (key lists, independent of the model), `lean/Verif/Client.lean` (client programs: loops that call the modelled functions and collect the results),
   and the statements in `lean/Verif/Props/*.lean`.

## 2. What is modelled

| Go file | Model | Not modelled |
|---|---|---|
| base_types.go, base_unit.go, dawg_unit.go | `Model/Base`, `Model/Dawg`, `Model/DawgBuilder` | — |
| bit_pool.go, link_table.go | `Model/Pools` | — |
| object_pool.go | — | all (never used by the package) |
| dawg.go | `Model/Dawg` | — |
| dawg_builder.go | `Model/DawgBuilder`: all functions, with unit pool, free list, hash table, probing, re-hashing, statistics; `Model/Finish`: `Finish` with the Dawg that it writes to | — |
| dictionary.go, dictionary_unit.go, dictionary_extra_unit.go | `Model/Dictionary`, `Model/Serialize` | — |
| dictionary_builder.go | `Model/DictionaryBuilder`: all functions, with the circular free list, block fixing, link table | — |
| guide.go, guide_unit.go, guide_builder.go, completer.go | `Model/Guide`, `Model/Serialize` | — |
| index.go, index_builder.go, indexer.go | `Model/Index`, `Model/Serialize` | — |
| ranked_*.go | `Model/Ranked`, with the heap operations | — |
| utfc.go | `Model/Utfc` (values), `Model/UtfcMem` (the shared buffer and who still sees it), `Model/UtfcPar` (the shared state: calls within a call, calls at the same time) | interruptions of a call within one character |
| cmd/dawgtool/main.go | `Model/Tool`: line reading, parsing, sorting, building, writing, loading, queries, listing, as functions from bytes to results; `Model/Output`: the same with its effects, i.e. the text on the standard output (also what is printed before an error or a panic) and the contents of the dictionary file; `Model/Ratio`: the digits of the ratio of unused units (a parameter of the other parts); `Model/Main`: the command line and the files by name; `Model/Message`: the messages on the standard error; `Model/Stream`: readers and writers that work in pieces and can fail | the date before a message and the texts of the errors of os and strconv in it, links between files, input files that are read while something else changes them |

Nothing is simplified inside the functions, with these exceptions:

* Pointers to objects that are not shared become values; out-parameters become results.
* Dictionary, guide and index units are words (`Nat` below 2^32) in lists.
* `Index.Read`, `Guide.Read`, … work on the list of the bytes still to be read, and writes do not fail.  `Model/Stream.lean` has the same functions for any `io.Reader` and `io.Writer`, with short reads, failing reads and failing writes; C89–C91 relate the two.  Errors that `Close` reports are not modelled.
* Memory and time are unlimited.  `Model/Alloc` counts what reading asks for, `Model/Probes` how many places the dictionary builder tries, `Model/Calls` how many calls it takes to build guides and indices, `Model/Steps` how many transitions a completer follows.

## 3. Conventions

* **Faults.** `Go α = Except Fault α` with `Fault = panic | hang`.  Every slice access is checked (`rd`, `wr`) and panics outside of the slice, as in Go.
  A loop is a structural recursion on fuel; running out of fuel is `hang`.  Positive theorems show that this does not happen, so the fuel is not part of them.  Where a property is false because a loop does not end,
  the theorem says that every fuel is exhausted.
* **Integers.** `uint32`/`int` values are `Nat`; wherever Go can truncate to 32 bits the model writes `u32 x = x % 2^32`.  Bytes are `UInt8`.  `int32` values are `Int`.
* **Slices** are lists.  Stacks are kept with the top first.  Aliasing matters at one place only, the shared buffer of `UtfcEncode`; there it is modelled, for every growth strategy of `append`.
* **Strings.** Byte strings are `List UInt8`.  `for _, r := range s` is `Tool.runes`, a model of Go's UTF-8 decoder with U+FFFD for invalid bytes; `Char` lists are used where the code works with characters.
* **dawgtool** can also stop with an error message: `Stop = fault f | fatal`.

## 4. Go's libraries

| Library | Treatment |
|---|---|
| `sort.SliceStable` | a parameter of the model.  The theorems hold for every function with the documented contract, `Spec.StableSort`: a permutation; sorted and stable if the comparator is a strict weak order.  Only what is needed is assumed (often only the permutation). |
| `container/heap` | `Push`, `Pop`, `up`, `down` line by line |
| `encoding/binary`, `io.ReadFull` | little-endian words of 4 bytes, structs of two bytes; reading fails if bytes are missing.  `Model/Stream` has the loop of `io.ReadFull` over any reader |
| `bufio.Scanner` with `ScanLines` | splits at newlines, drops one carriage return before it; stops silently at a line of 65536 bytes or more (`MaxScanTokenSize`).  `Model/Stream` has the scanner with its buffer over any reader; `C90_lines_partial` proves that it yields these lines |
| `strings.Split(line, "\t")` | first two parts |
| `strconv.Atoi` | optional sign, decimal digits, 64-bit range |
| `flag` | one or two dashes, values after "=" or as next argument, the end of the flags, `-h`; from its documentation |
| `os.Create`, `os.Open` | files by name, different names are different files; which files can be created is a parameter |
| `append` on the shared buffer | any growth strategy |
| `map` (`auxOffset`) | association list |

## 5. Layout of the proofs

| Part | Contents |
|---|---|
| `Proof/Builder/*` | The concrete builder refines an abstract builder (finished groups of transitions and open frames), which refines the list of accepted pairs.  Hash table: probing invariants, re-hashing.  Counting of states and transitions.  A lexicon whose states have all the same hash (`Flood.lean`). |
| `Proof/Dict/*` | Double-array construction: bits of units, offsets, the circular free list as a permutation, block fixing, placing of children, invariant of the recursive construction, then look-ups (`Sem`).  `Witness*`: dictionaries computed by the kernel. |
| `Proof/Guide/*` | `View`: what a built dictionary looks like from a position (the list of its completions).  Guide building, completer, index; ranked guide, its order, heap, ranked completer. |
| `Proof/Utfc*`, `Proof/Tool`, `Proof/Output` (runs with effects have the results of those without, and what they print), `Proof/Serialize`, `Proof/Pools`, `Proof/Lookup` | as named |
| `Props/*` | The property theorems, nothing else that is needed elsewhere; beside each an `example` with concrete inputs |
| `Conformance` | The model against the data in the repository, see section 7 |

Two notions occur in many statements:

* `Made hist d D`: `d` and `D` come from the insertions `hist` into a new builder of any size, `Finish`, and a `Build` that does not return nil.  The keys have no NUL byte and fewer than 2^30 bytes in total
  (`Admissible`; beyond 2^30 the 32-bit transition indices with two flag bits can overflow).  `C14` shows when `Build` succeeds: always when it is not for the size, in particular below 2^21 bytes.
* `NoClash hist q`: the query `q` does not leave the set of the prefixes of keys with a byte that is the low byte of a stored value.  Outside of this condition the properties about queries
  are false, because `dictLabel` drops the leaf bit and value units answer to their low byte (`C11_nothing_else_false`, `C13_find_panics`).  Whether such a query really goes wrong depends on where units happen to lie.

## 6. Where the code differs from what one expects

Each of these is a theorem with a concrete witness; a `_partial` theorem says what does hold.

| Property | Finding |
|---|---|
| C09 | A builder cannot be used again after `Finish`: every use panics. |
| C11, C12, C13, C31, C48 | The low byte of a value can pose as a label: queries that are not keys are "found", or panic. |
| C21 | A failed `Index.Read` destroys the receiver. |
| C22, C24, C49 | With the empty key, a completer started at the root returns the empty key for ever. |
| C23, C49, C50 | `Key()` ends with a NUL byte. |
| C29 | A custom comparator does not order the candidates of the ranked completer. |
| C30, C34 | `BuildIndex` panics on an empty dictionary; `FollowString("a")` succeeds on it, as does every other byte but 1. |
| C33 | An index over a ranked guide miscounts. |
| C35, C54, C58 | Keys with NUL bytes are lost, or make the builder panic. |
| C36 | UTF-C: U+2601 U+2600 makes the decoder panic (exact characterisation proved). |
| C41, C42 | `UtfcEncode` results share a buffer; so `dawgtool -s -u` sorts by length only.  `-s -t` sorts whole lines, not keys. |
| C51 | `-i` without `-g` or `-r` panics after the queries. |
| C52 | `-u` encodes keys but not queries. |
| C54 | `-t` panics at a line without a tab. |
| C55, C56 | Lines that are not UTF-8 collide with `-u`; lines of 65536 bytes or more end the input silently. |
| C61 | `UtfcDecode` panics at arrays that end within a character. |
| C62 | `Read` checks only the length of a file: a corrupt dictionary makes queries panic, a corrupt guide makes completers run for ever. |
| C66 | `dawgtool -b` empties the dictionary file before it reads the lexicon; a failed build leaves it empty or incomplete. |
| C67 | "no. keys" counts lines: repeated keys count again. |
| C68, C69 | With `-u` printed keys can contain newlines.  With `-g` and the empty key, the empty query prints for ever. |
| C71, C73 | `dawgtool -b words words` replaces the lexicon by a dictionary of no keys.  `dawgtool -l x y` ignores y. |
| C75, C76 | `UtfcEncode` called by a follower, or by two goroutines, mixes up the results. |
| C78 | UTF-C does not keep the order of code points, so `dawgtool -b -u` refuses some sorted lexicons. |
| C82 | A key followed by a NUL byte is followed when the low byte of its value is 0, and look-ups of the key, a NUL byte and another byte panic. |
| C84 | `dictSetOffset` accepts offsets between 2^21 and 2^29 that are no multiples of 256, and then destroys the label and the flags. |
| C86 | With `-r -i` keys are missing from the list of all keys when a prefix of theirs has a value that is not smaller. |
| C87 | A file built with `-r` and queried with `-g` lacks the same keys as in C86; a file built with `-g` and queried with `-r` gives all keys, but not by descending values. |
| C88 | Over a ranked guide, `StringToIndex` gives different keys the same number unless byte order agrees with the order by values. |
| C90 | An error while the lexicon is read is taken for its end: the tool makes a dictionary of the first lines and ends normally. |
| C95 | `Dawg.Clear` keeps two of the statistics. |
| C97 | UTF-C is not the shortest encoding that the decoder would understand: Kanji and Hiragana in turn take 5 bytes for a pair instead of 4. |
| C99 | A file of four bytes makes `ReadDictionary` ask for 17 GB. |
| C100 | Of completions with equal values, the ranked completer takes the one queued last: aa, ab, b without values are listed as aa, b, ab. |
| C107 | Key sets can make more than three quarters of the units of a dictionary useless: states whose bytes have all differences take a block of 256 units each. |
| C108 | With -s -t, of several lines with a key the textually greatest one decides about the value ("9" against "10"), not the last one. |
| C110 | The number of words that dawgtool -i prints is read from the file without a check; four bytes make it print up to 2^32 - 1 words. |
| C111 | Finish panics when it is given the zero value `Dawg{}` instead of the result of NewDawg. |
| C64, C65 | UTF-C can be a third longer than UTF-8.  The rows of the table `auxOffset` for Armenian and for Latin-1 Supplement are never used. |

## 7. Checks of the model and of the theorems

* `Conformance.lexicon_gives_file`: on `test/lexicon.txt` the model makes `test/dictionary.dawg` (dictionary and guide), byte for byte; computed by the kernel.
* `Conformance.utfc_tests`: the strings of `utfc_test.go` behave as the tests expect; computed by the kernel.
* `Conformance.simple_test`: TestSimple of `dawg_test.go`, from the general theorems. `Conformance.zeros_test`: TestZeros, computed by the kernel; both insertions succeed, and none of the looked-up strings of NUL bytes is found.
* `seeded/`: the model was changed in a scratch copy like a realistic bug, one change at a time; `seeded/LOG.jsonl` has for each change the edit, the claim it breaks, which theorems failed, and which theorems were tightened.
* `C63_canonical` is the strongest statement about the builder as a whole: two finished Dawgs are equal exactly when the accepted keys with their stored values are.
* Every property theorem has an `example` that satisfies its hypotheses, usually with a dictionary computed by the kernel.

## 8. Generated files

`tools/props.py` writes `properties.jsonl`; `tools/manifest.py` writes `MANIFEST.json` and `lean/Verif/Audit.lean` from `tools/claims.py`; `tools/axioms.py` writes `AXIOMS.md`.
