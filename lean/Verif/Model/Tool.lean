import Verif.Model.DawgBuilder
import Verif.Model.Ranked
import Verif.Model.Serialize
import Verif.Model.UtfcMem
/-! # dawgtool (cmd/dawgtool/main.go)

Modelled: the path from the lines of the lexicon to the bytes of the dictionary file, and the answers
to queries.  What is printed and what happens to the dictionary file is in Model/Output.lean.  The command line is in Model/Main.lean. -/
namespace Dawg
namespace Tool

/-- How the tool can stop early: a fault in the library or in the tool, or `log.Fatal`. -/
inductive Stop
  | fault (f : Fault)
  | fatal
  deriving DecidableEq, Repr

/-- Lifts a library call. -/
def lift {α : Type} : Go α → Except Stop α
  | .ok a => .ok a
  | .error f => .error (.fault f)

/-- main.go:16-22: the options that matter. -/
structure Opts where
  tab : Bool := false
  sort : Bool := false
  utfc : Bool := false
  guide : Bool := false
  ranked : Bool := false
  index : Bool := false

/-- Whether `b` is a UTF-8 continuation byte within `lo..hi`. -/
def cont (lo hi : Nat) (b : UInt8) : Bool := lo ≤ b.toNat ∧ b.toNat ≤ hi

/-- Go's `for _, ch := range s` on the bytes of a string (unicode/utf8): well-formed sequences give
their code point, any other byte gives U+FFFD.  `fuel` is the number of bytes. -/
def runesLoop : Nat → List UInt8 → List Char
  | 0, _ => []
  | _, [] => []
  | fuel + 1, b0 :: rest =>
    let n := b0.toNat
    let bad := Char.ofNat 0xFFFD :: runesLoop fuel rest
    if n < 0x80 then Char.ofNat n :: runesLoop fuel rest
    else if 0xC2 ≤ n ∧ n ≤ 0xDF then
      match rest with
      | b1 :: rest' =>
        if cont 0x80 0xBF b1 then Char.ofNat ((n - 0xC0) * 64 + (b1.toNat - 0x80)) :: runesLoop fuel rest'
        else bad
      | _ => bad
    else if 0xE0 ≤ n ∧ n ≤ 0xEF then
      match rest with
      | b1 :: b2 :: rest' =>
        if cont (if n = 0xE0 then 0xA0 else 0x80) (if n = 0xED then 0x9F else 0xBF) b1 ∧ cont 0x80 0xBF b2 then
          Char.ofNat ((n - 0xE0) * 4096 + (b1.toNat - 0x80) * 64 + (b2.toNat - 0x80)) :: runesLoop fuel rest'
        else bad
      | _ => bad
    else if 0xF0 ≤ n ∧ n ≤ 0xF4 then
      match rest with
      | b1 :: b2 :: b3 :: rest' =>
        if cont (if n = 0xF0 then 0x90 else 0x80) (if n = 0xF4 then 0x8F else 0xBF) b1 ∧
            cont 0x80 0xBF b2 ∧ cont 0x80 0xBF b3 then
          Char.ofNat ((n - 0xF0) * 262144 + (b1.toNat - 0x80) * 4096 + (b2.toNat - 0x80) * 64
            + (b3.toNat - 0x80)) :: runesLoop fuel rest'
        else bad
      | _ => bad
    else bad

/-- The runes of a Go string. -/
def runes (s : List UInt8) : List Char := runesLoop s.length s

/-- Go's `<` on strings: bytewise lexicographic. -/
def bytesLess : List UInt8 → List UInt8 → Bool
  | [], [] => false
  | [], _ :: _ => true
  | _ :: _, [] => false
  | a :: as, b :: bs => if a < b then true else if b < a then false else bytesLess as bs

/-- main.go:92-102: the comparison loop of the `-u` comparator on the two slices. -/
def compareLoop : List UInt8 → List UInt8 → Bool := bytesLess

/-- main.go:82-103: the comparator given to `sort.SliceStable`, in a given state of the shared buffer
of the UTF-C coder; both encodings are computed before they are compared. -/
def lessMem (grow : Nat → Nat) (utfc : Bool) (m : Utfc.Mem) (a b : List UInt8) : Utfc.Mem × Bool :=
  if !utfc then (m, bytesLess a b)
  else
    let (m, s1) := m.utfcEncode grow (runes a)
    let (m, s2) := m.utfcEncode grow (runes b)
    (m, compareLoop (m.view s1) (m.view s2))

/-- `sort.SliceStable` applied to the lines; a parameter, see `StableSort`. -/
abbrev LineSorter := (List UInt8 → List UInt8 → Bool) → List (List UInt8) → List (List UInt8)

/-- Decimal digits to a number. -/
def digits : List UInt8 → Nat → Option Nat
  | [], n => some n
  | b :: bs, n => if 48 ≤ b.toNat ∧ b.toNat ≤ 57 then digits bs (10 * n + (b.toNat - 48)) else none

/-- `strconv.Atoi` (64-bit `int`); `none` is an error. -/
def atoi (s : List UInt8) : Option Int :=
  match s with
  | [] => none
  | b :: bs =>
    let neg := b = 45
    let body := if b = 45 ∨ b = 43 then bs else s
    match body with
    | [] => none
    | _ =>
      match digits body 0 with
      | none => none
      | some n =>
        if neg then (if n ≤ 9223372036854775808 then some (-(n : Int)) else none)
        else (if n ≤ 9223372036854775807 then some n else none)

/-- `strings.Split(line, "\t")`. -/
def splitTab : List UInt8 → List (List UInt8)
  | [] => [[]]
  | b :: bs =>
    match splitTab bs with
    | [] => [[b]]
    | p :: ps => if b = 9 then [] :: p :: ps else (b :: p) :: ps

/-- main.go:49-56: clamping of the value. -/
def clamp (v : Int) : Int := if v < 0 then 0 else if v > 2147483647 then 2147483647 else v

/-- main.go:40-57: key and value of a line. -/
def parseLine (tab : Bool) (line : List UInt8) : Except Stop (List UInt8 × Int) :=
  if !tab then .ok (line, 0)
  else match splitTab line with
    | k :: v :: _ =>
      match atoi v with
      | none => .error .fatal
      | some v => .ok (k, clamp v)
    | _ => .error (.fault .panic)

/-- main.go:59-64: the bytes of a key. -/
def keyBytes (utfc : Bool) (key : List UInt8) : List UInt8 :=
  if utfc then Utfc.encode (runes key) else key

/-- main.go:33-71 `processLine`. -/
def processLine (o : Opts) (b : Builder) (line : List UInt8) : Except Stop (Builder × Bool) :=
  if line.length = 0 then .ok (b, false) else do
    let (key, val) ← parseLine o.tab line
    let bytes := keyBytes o.utfc key
    let (b, ok) ← lift (b.insertKeyValue bytes bytes.length val)
    if !ok then .error .fatal
    return (b, true)

/-- main.go:105-122: processes the lines in order. -/
def processLines (o : Opts) : List (List UInt8) → Builder → Except Stop Builder
  | [], b => .ok b
  | l :: ls, b => do
    let (b, _) ← processLine o b l
    processLines o ls b

/-- main.go:77-103: the lines in the order in which they are inserted.  The comparator is used in the
initial state of the shared buffer; `lessMem_state` shows that its verdict does not depend on it. -/
def orderLines (sorter : LineSorter) (grow : Nat → Nat) (o : Opts) (lines : List (List UInt8)) :
    List (List UInt8) :=
  if o.sort then sorter (fun a b => (lessMem grow o.utfc Utfc.Mem.init a b).2) lines else lines

/-- main.go:73-126: from the lexicon to the Dawg. -/
def buildDawg (sorter : LineSorter) (grow : Nat → Nat) (o : Opts) (lines : List (List UInt8)) :
    Except Stop Dawg := do
  let b ← processLines o (orderLines sorter grow o lines) Builder.new
  let (_, d) ← lift b.finish
  return d

/-- main.go:135-195: from the Dawg to the bytes of the dictionary file.  A `nil` guide panics at
`guide.Size()` (the interface holding a nil pointer is not nil, main.go:159, 171). -/
def buildFile (linkSorter : Sorter) (o : Opts) (d : Dawg) : Except Stop (List UInt8) := do
  match ← lift d.buildWithUnused with
  | none => .error .fatal
  | some (dict, _) =>
    let out := dict.write
    let guide ←
      if o.ranked then some <$> lift (buildRankedGuide linkSorter d dict)
      else if o.guide then some <$> lift (buildGuide d dict)
      else pure none
    match guide with
    | none => return out
    | some none => .error (.fault .panic)
    | some (some g) =>
      let out := out ++ g.write
      if o.index then
        match ← lift (buildIndex dict g) with
        | none => .error .fatal
        | some x => return out ++ x.write
      else return out

/-- What main.go:198-229 loads. -/
structure Loaded where
  dict : Dictionary
  guide : Option Guide
  index : Option Index
  deriving DecidableEq, Repr

/-- main.go:198-229 `handleLoadDict`, the loading part. -/
def load (o : Opts) (file : List UInt8) : Except Stop Loaded := do
  match Dictionary.readNew file with
  | (none, _) => .error .fatal
  | (some dict, rest) =>
    if o.ranked || o.guide then
      match Guide.readNew rest with
      | (none, _) => .error .fatal
      | (some g, rest) =>
        if o.index then
          match Index.readNew rest with
          | (none, _) => .error .fatal
          | (some x, _) => return { dict := dict, guide := some g, index := some x }
        else return { dict := dict, guide := some g, index := none }
    else return { dict := dict, guide := none, index := none }

/-- main.go:254-264: the prefixes of the key that are in the dictionary, with their values, from
position `pos` on. -/
def prefixLoop (dict : Dictionary) (key : List UInt8) : List UInt8 → Nat → Nat → Go (List (List UInt8 × Nat))
  | [], _, _ => .ok []
  | c :: cs, pos, index => do
    match ← dict.follow c index with
    | none => return []
    | some index =>
      let rest ← prefixLoop dict key cs (pos + 1) index
      if ← dict.hasValue index then return (key.take (pos + 1), ← dict.value index) :: rest
      return rest

/-- main.go:254-264: the answer to a query without guide. -/
def queryPrefixes (dict : Dictionary) (key : List UInt8) : Go (List (List UInt8 × Nat)) :=
  prefixLoop dict key key 0 dict.root

/-- What main.go:234-268 prints for one query: the query, with `-i` what `StringToIndex` returns, and the
(key, value) pairs. -/
structure Answer where
  query : List UInt8
  rank : Option Nat
  hits : List (List UInt8 × Int)
  deriving DecidableEq, Repr

/-- main.go:250-252 with a plain completer.  The number of iterations is not bounded by anything in the
code; the model makes at most `fuel` calls of `Next` and reports `hang` otherwise, and the theorems speak
about all values of `fuel`. -/
def completeLoop (dict : Dictionary) (guide : Guide) (key : List UInt8) :
    Nat → Completer → Go (List (List UInt8 × Int) × Completer)
  | 0, _ => .error .hang
  | fuel + 1, c => do
    let (c, ok) ← c.next dict guide
    if !ok then return ([], c)
    let v ← c.value dict
    let (rest, c') ← completeLoop dict guide key fuel c
    return ((key ++ c.key, Int.ofNat v) :: rest, c')

/-- main.go:250-252 with a ranked completer. -/
def rankedLoop (dict : Dictionary) (guide : Guide) (key : List UInt8) :
    Nat → RankedCompleter → Go (List (List UInt8 × Int) × RankedCompleter)
  | 0, _ => .error .hang
  | fuel + 1, rc => do
    let (rc, ok) ← rc.next dict guide
    if !ok then return ([], rc)
    let (rest, rc') ← rankedLoop dict guide key fuel rc
    return ((key ++ rc.key, rc.value) :: rest, rc')

/-- main.go:238-247: with `-i`, the number of the query. -/
def queryRank (l : Loaded) (g : Guide) (key : List UInt8) : Go (Option Nat) :=
  match l.index with
  | none => .ok none
  | some x => some <$> Indexer.bytesToIndex l.dict g x key

/-- main.go:205-229: the completer of `handleLoadDict`, which is used for all queries; only one of the two is
used. -/
structure Completers where
  plain : Completer
  ranked : RankedCompleter

/-- main.go:211, 218: the new completers. -/
def Completers.new : Completers := { plain := Completer.new, ranked := RankedCompleter.new }

/-- main.go:231-268: the answer to one query. -/
def answer (o : Opts) (l : Loaded) (fuel : Nat) (c : Completers) (key : List UInt8) : Go (Answer × Completers) :=
  match l.guide with
  | none => do
    let hits ← queryPrefixes l.dict key
    return ({ query := key, rank := none, hits := hits.map (fun e => (e.1, Int.ofNat e.2)) }, c)
  | some g => do
    let rank ← queryRank l g key
    let (ok, index, _) ← l.dict.followString key l.dict.root
    if !ok then return ({ query := key, rank := rank, hits := [] }, c)
    if o.ranked then
      let rc ← RankedCompleter.start l.dict g c.ranked index
      let (hits, rc) ← rankedLoop l.dict g key fuel rc
      return ({ query := key, rank := rank, hits := hits }, { c with ranked := rc })
    else
      let pc ← Completer.start g c.plain index
      let (hits, pc) ← completeLoop l.dict g key fuel pc
      return ({ query := key, rank := rank, hits := hits }, { c with plain := pc })

/-- main.go:231-268: the answers to the queries, one after another. -/
def answers (o : Opts) (l : Loaded) (fuel : Nat) : Completers → List (List UInt8) → Go (List Answer)
  | _, [] => .ok []
  | c, q :: qs => do
    let (a, c) ← answer o l fuel c q
    let rest ← answers o l fuel c qs
    return a :: rest

/-- main.go:270-276: with `-i`, all keys by their numbers; without a guide `indexer` has no index, and
`TotalCount` dereferences a nil pointer (main.go:221, indexer.go:21, index.go:42). -/
def totals (o : Opts) (l : Loaded) : Go (Option (List (List UInt8))) :=
  if o.index then
    match l.guide, l.index with
    | some g, some x => do
      let n ← Indexer.totalCount x
      some <$> (List.range n).mapM (fun i => Indexer.indexToString l.dict g x (u32 i))
    | _, _ => .error .panic
  else .ok none

/-- main.go:198-277 `handleLoadDict`. -/
def handleLoad (o : Opts) (fuel : Nat) (file : List UInt8) (queries : List (List UInt8)) :
    Except Stop (List Answer × Option (List (List UInt8))) := do
  let l ← load o file
  let as ← lift (answers o l fuel Completers.new queries)
  let t ← lift (totals o l)
  return (as, t)

/-- bufio/scan.go `dropCR`. -/
def dropCR (l : List UInt8) : List UInt8 := if l.getLast? = some 13 then l.dropLast else l

/-- main.go:77, 114, 231: what `scanner.Scan` and `scanner.Text` yield (bufio/scan.go `Scanner.Scan` with
`ScanLines`, reading without errors); `cur` holds the bytes of the current line.  When 65536 bytes
(`bufio.MaxScanTokenSize`) do not contain a newline, `Scan` returns false; the tool does not look at
`scanner.Err`. -/
def scanLoop : List UInt8 → List UInt8 → List (List UInt8)
  | [], cur => if cur = [] then [] else [dropCR cur]
  | b :: bs, cur =>
    if b = 10 then dropCR cur :: scanLoop bs []
    else if cur.length + 1 ≥ 65536 then []
    else scanLoop bs (cur ++ [b])

/-- The lines of a file. -/
def scanLines (file : List UInt8) : List (List UInt8) := scanLoop file []

/-- main.go:279-325 with `-b`, and main.go:73-196: from the bytes of the lexicon file to the bytes of the
dictionary file. -/
def mainBuild (sorter : LineSorter) (linkSorter : Sorter) (grow : Nat → Nat) (o : Opts) (lexicon : List UInt8) :
    Except Stop (List UInt8) := do
  let d ← buildDawg sorter grow o (scanLines lexicon)
  buildFile linkSorter o d

/-- main.go:279-325 without `-b`, and main.go:198-277: the lines of the lexicon file are the queries. -/
def mainQuery (o : Opts) (fuel : Nat) (dictionary lexicon : List UInt8) :
    Except Stop (List Answer × Option (List (List UInt8))) := handleLoad o fuel dictionary (scanLines lexicon)

end Tool
end Dawg
