import Verif.Model.Tool
/-! # What dawgtool prints and writes (cmd/dawgtool/main.go)

The runs of the tool with their effects: the bytes printed to the standard output, and the bytes written to the dictionary file, also when the run stops
early.  `Verif.Model.Tool` has the same computations without effects; `Verif.Proof.Output` relates the two.  Not modelled: the messages of `log.Fatal`,
which go to the standard error. -/
namespace Dawg
namespace Tool

/-- A run: the bytes printed, the bytes written to the dictionary file, and how it ended. -/
structure Run (α : Type) where
  out : List UInt8
  file : List UInt8
  res : Except Stop α

namespace Run

/-- A run without effects. -/
def pure {α : Type} (a : α) : Run α := ⟨[], [], .ok a⟩

/-- One run after another; a run that stops is the last one. -/
def bind {α β : Type} (x : Run α) (f : α → Run β) : Run β :=
  match x.res with
  | .error e => ⟨x.out, x.file, .error e⟩
  | .ok a => ⟨x.out ++ (f a).out, x.file ++ (f a).file, (f a).res⟩

instance : Monad Run where
  pure := Run.pure
  bind := Run.bind

end Run

/-- A computation that neither prints nor writes. -/
def perform {α : Type} (x : Except Stop α) : Run α := ⟨[], [], x⟩

/-- `fmt.Printf`. -/
def print (s : List UInt8) : Run Unit := ⟨s, [], .ok ()⟩

/-- `Write(fileDictionary)`, which does not fail. -/
def save (s : List UInt8) : Run Unit := ⟨[], s, .ok ()⟩

/-- The bytes of an ASCII string. -/
def ascii (s : String) : List UInt8 := s.toList.map (fun c => UInt8.ofNat c.toNat)

/-- Decimal digits of a number. -/
def decimal (n : Nat) : List UInt8 :=
  if n < 10 then [UInt8.ofNat (48 + n)] else decimal (n / 10) ++ [UInt8.ofNat (48 + n % 10)]

/-- The verb `%d`. -/
def number (v : Int) : List UInt8 := if v < 0 then 45 :: decimal v.natAbs else decimal v.natAbs

/-- `fmt.Printf("<title>: %d\n", v)`. -/
def stat (title : String) (v : Int) : Run Unit := print (ascii title ++ ascii ": " ++ number v ++ [10])

/-- main.go:40-57: key and value of a line, with the warnings. -/
def parseLineRun (tab : Bool) (line : List UInt8) : Run (List UInt8 × Int) :=
  if !tab then return (line, 0)
  else match splitTab line with
    | k :: v :: _ =>
      match atoi v with
      | none => perform (.error .fatal)
      | some v =>
        if v < 0 then do
          print (ascii "warning: negative value is replaced by 0: " ++ number v ++ [10])
          return (k, 0)
        else if v > 2147483647 then do
          print (ascii "warning: too large value is replaced by " ++ number 2147483647 ++ [10])
          return (k, 2147483647)
        else return (k, v)
    | _ => perform (.error (.fault .panic))

/-- main.go:33-71 `processLine`. -/
def processLineRun (o : Opts) (b : Builder) (line : List UInt8) : Run (Builder × Bool) :=
  if line.length = 0 then return (b, false) else do
    let (key, val) ← parseLineRun o.tab line
    let bytes := keyBytes o.utfc key
    let (b, ok) ← perform (lift (b.insertKeyValue bytes bytes.length val))
    if !ok then perform (.error .fatal)
    return (b, true)

/-- main.go:105-122: the loop over the lines; `count` is `keyCount`. -/
def processLinesRun (o : Opts) : List (List UInt8) → Builder → Nat → Run (Builder × Nat)
  | [], b, count => return (b, count)
  | l :: ls, b, count => do
    let (b, inserted) ← processLineRun o b l
    if inserted then
      if (count + 1) % 10000 = 0 then stat "no. keys" (count + 1)
      processLinesRun o ls b (count + 1)
    else processLinesRun o ls b count

/-- main.go:135-195: from the Dawg to the dictionary file.  `ratio` is the text of `unusedRatio`
(main.go:141, 144: a floating point number with two decimals), for which the model has no definition. -/
def buildFileRun (ratio : Nat → Nat → List UInt8) (linkSorter : Sorter) (o : Opts) (d : Dawg) : Run Unit := do
  match ← perform (lift d.buildWithUnused) with
  | none => perform (.error .fatal)
  | some (dict, unused) =>
    stat "no. elements" dict.size
    print (ascii "no. unused elements: " ++ number unused ++ ascii " (" ++ ratio unused dict.size ++ ascii "%)" ++ [10])
    stat "dictionary size" dict.totalSize
    save dict.write
    let guide ←
      if o.ranked then some <$> perform (lift (buildRankedGuide linkSorter d dict))
      else if o.guide then some <$> perform (lift (buildGuide d dict))
      else pure none
    match guide with
    | none => return ()
    | some none => perform (.error (.fault .panic))
    | some (some g) =>
      stat "no. units" g.size
      stat "guide size" g.totalSize
      save g.write
      if o.index then
        match ← perform (lift (buildIndex dict g)) with
        | none => perform (.error .fatal)
        | some x =>
          stat "no. index units" x.size
          stat "index size" x.totalSize
          save x.write
      else return ()

/-- main.go:126-133: the statistics of the Dawg. -/
def dawgStats (count : Nat) (d : Dawg) : Run Unit := do
  stat "no. keys" count
  stat "no. states" d.numOfStates
  stat "no. transitions" d.numOfTransitions
  stat "no. merged states" d.numOfMergedStates
  stat "no. merging states" d.numOfMergingStates
  stat "no. merged transitions" d.numOfMergedTransitions

/-- main.go:73-196 `handleBuildDict`, and main.go:279-325 with `-b`: `os.Create` (main.go:310) makes the dictionary file empty before anything else, so
that `file` is what it contains in the end, whatever it contained before.  The lexicon file is supposed to be readable. -/
def buildRun (ratio : Nat → Nat → List UInt8) (sorter : LineSorter) (linkSorter : Sorter) (grow : Nat → Nat) (o : Opts) (lexicon : List UInt8) :
    Run Unit := do
  let (b, count) ← processLinesRun o (orderLines sorter grow o (scanLines lexicon)) Builder.new 0
  let (_, d) ← perform (lift b.finish)
  dawgStats count d
  buildFileRun ratio linkSorter o d

/-- main.go:251, 262: one answer. -/
def hitText (key : List UInt8) (v : Int) : List UInt8 := 32 :: key ++ ascii " = " ++ number v ++ ascii ";"

/-- main.go:254-264. -/
def prefixLoopRun (dict : Dictionary) (key : List UInt8) : List UInt8 → Nat → Nat → Run Unit
  | [], _, _ => return ()
  | c :: cs, pos, index => do
    match ← perform (lift (dict.follow c index)) with
    | none => return ()
    | some index =>
      if ← perform (lift (dict.hasValue index)) then
        let v ← perform (lift (dict.value index))
        print (hitText (key.take (pos + 1)) v)
      prefixLoopRun dict key cs (pos + 1) index

/-- main.go:250-252 with a plain completer; at most `fuel` calls of `Next`. -/
def completeLoopRun (dict : Dictionary) (guide : Guide) (key : List UInt8) : Nat → Completer → Run Completer
  | 0, _ => perform (.error (.fault .hang))
  | fuel + 1, c => do
    let (c, ok) ← perform (lift (c.next dict guide))
    if !ok then return c
    let v ← perform (lift (c.value dict))
    print (hitText (key ++ c.key) v)
    completeLoopRun dict guide key fuel c

/-- main.go:250-252 with a ranked completer. -/
def rankedLoopRun (dict : Dictionary) (guide : Guide) (key : List UInt8) : Nat → RankedCompleter → Run RankedCompleter
  | 0, _ => perform (.error (.fault .hang))
  | fuel + 1, rc => do
    let (rc, ok) ← perform (lift (rc.next dict guide))
    if !ok then return rc
    print (hitText (key ++ rc.key) rc.value)
    rankedLoopRun dict guide key fuel rc

/-- main.go:238-247: the number of the query. -/
def rankText (r : Nat) : List UInt8 :=
  if r = Indexer.notFound then ascii " (not found)" else if r = Indexer.failed then ascii " (failed)" else ascii " (#" ++ number r ++ ascii ")"

/-- main.go:248-253: the keys that begin with the query. -/
def completionsRun (o : Opts) (l : Loaded) (g : Guide) (fuel : Nat) (c : Completers) (key : List UInt8) : Run Completers := do
  let (ok, index, _) ← perform (lift (l.dict.followString key l.dict.root))
  if !ok then return c
  if o.ranked then
    let rc ← perform (lift (RankedCompleter.start l.dict g c.ranked index))
    let rc ← rankedLoopRun l.dict g key fuel rc
    return { c with ranked := rc }
  else
    let pc ← perform (lift (Completer.start g c.plain index))
    let pc ← completeLoopRun l.dict g key fuel pc
    return { c with plain := pc }

/-- main.go:238-247: with `-i`, prints the number of the query. -/
def printRank : Option Nat → Run Unit
  | some r => print (rankText r)
  | none => pure ()

/-- main.go:236-264: what follows the query. -/
def hitsRun (o : Opts) (l : Loaded) (fuel : Nat) (c : Completers) (key : List UInt8) : Run Completers :=
  match l.guide with
  | none => do
    prefixLoopRun l.dict key key 0 l.dict.root
    return c
  | some g => do
    let rank ← perform (lift (queryRank l g key))
    printRank rank
    completionsRun o l g fuel c key

/-- main.go:231-268: one query. -/
def answerRun (o : Opts) (l : Loaded) (fuel : Nat) (c : Completers) (key : List UInt8) : Run Completers := do
  print (key ++ ascii ":")
  let c ← hitsRun o l fuel c key
  print [10]
  return c

/-- main.go:231-268: the queries. -/
def answersRun (o : Opts) (l : Loaded) (fuel : Nat) : Completers → List (List UInt8) → Run Unit
  | _, [] => return ()
  | c, q :: qs => do
    let c ← answerRun o l fuel c q
    answersRun o l fuel c qs

/-- main.go:273-275: the lines of the keys with the given numbers. -/
def listRun (l : Loaded) (g : Guide) (x : Index) : List Nat → Run Unit
  | [] => return ()
  | i :: is => do
    let k ← perform (lift (Indexer.indexToString l.dict g x (u32 i)))
    print (number i ++ ascii ": " ++ k ++ [10])
    listRun l g x is

/-- main.go:270-276. -/
def totalsRun (o : Opts) (l : Loaded) : Run Unit :=
  if o.index then
    match l.guide, l.index with
    | some g, some x => do
      let n ← perform (lift (Indexer.totalCount x))
      stat "Total words" n
      listRun l g x (List.range n)
    | _, _ => perform (.error (.fault .panic))
  else return ()

/-- main.go:198-277 `handleLoadDict`, and main.go:279-325 without `-b`. -/
def queryRun (o : Opts) (fuel : Nat) (dictionary lexicon : List UInt8) : Run Unit := do
  let l ← perform (load o dictionary)
  answersRun o l fuel Completers.new (scanLines lexicon)
  totalsRun o l

/-- How a run of the tool ends: the text on the standard output, the dictionary file (`none` when there is none) and the result. -/
structure Outcome where
  out : List UInt8
  dict : Option (List UInt8)
  res : Except Stop Unit

/-- main.go:279-325 `main`: `lexicon` and `dictionary` are the contents of the two files before the run, `none` when there is no such file (which is also
what happens without arguments: the tool opens files with the name "-").  The two names are supposed to be different, `os.Create` to succeed. -/
def mainTool (ratio : Nat → Nat → List UInt8) (sorter : LineSorter) (linkSorter : Sorter) (grow : Nat → Nat) (o : Opts) (build : Bool) (fuel : Nat)
    (lexicon dictionary : Option (List UInt8)) : Outcome :=
  match lexicon with
  | none => ⟨[], dictionary, .error .fatal⟩
  | some lexicon =>
    if build then
      let r := buildRun ratio sorter linkSorter grow o lexicon
      ⟨r.out, some r.file, r.res⟩
    else
      match dictionary with
      | none => ⟨[], none, .error .fatal⟩
      | some d =>
        let r := queryRun o fuel d lexicon
        ⟨r.out, some d, r.res⟩

end Tool
end Dawg
