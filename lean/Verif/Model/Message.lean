import Verif.Model.Main
/-! # What dawgtool says when it stops (cmd/dawgtool/main.go)

The arguments of `log.Fatal` and `log.Fatalf`.  The functions of this file are those of Model/Tool.lean and Model/Main.lean, with the message instead of `Stop.fatal`;
`Proof/Message.lean` relates the two.  Writing does not fail here (Model/Stream.lean). -/
namespace Dawg
namespace Tool

/-- The messages of the tool on the standard error. -/
inductive Message
  /-- main.go:301-303, 312-314: `os.Open` has failed -/
  | noFile (name : List UInt8)
  /-- main.go:312-314: `os.Create` has failed -/
  | noCreate (name : List UInt8)
  /-- main.go:46-48: `strconv.Atoi` has failed for this text -/
  | badValue (text : List UInt8)
  /-- main.go:65-68 -/
  | badKey (key : List UInt8)
  /-- main.go:137-139 -/
  | noDictionary
  /-- main.go:185-187 -/
  | noIndex
  /-- main.go:199-202 -/
  | readDictionary
  /-- main.go:207-210 -/
  | readRankedGuide
  /-- main.go:214-217 -/
  | readGuide
  /-- main.go:223-226 -/
  | readIndex
  deriving DecidableEq, Repr

/-- The text of a message, without the date and the time that `log` puts before it.  The texts of errors of the libraries are parameters: `openError` and `createError`
for the name of a file, `atoiError` for a text that is no number. -/
def Message.text (openError createError atoiError : List UInt8 → List UInt8) : Message → List UInt8
  | .noFile name => openError name ++ [10]
  | .noCreate name => createError name ++ [10]
  | .badValue s => atoiError s ++ [10]
  | .badKey key => ascii "error: failed to insert key: " ++ key ++ [10]
  | .noDictionary => ascii "error: failed to build dictionary" ++ [10]
  | .noIndex => ascii "error: failed to build Index" ++ [10]
  | .readDictionary => ascii "error: failed to read Dictionary" ++ [10]
  | .readRankedGuide => ascii "error: failed to read RankedGuide" ++ [10]
  | .readGuide => ascii "error: failed to read Guide" ++ [10]
  | .readIndex => ascii "error: failed to read Index" ++ [10]

/-- `Stop` with the message. -/
inductive Why
  | fault (f : Fault)
  | fatal (m : Message)
  deriving DecidableEq, Repr

/-- Without the message. -/
def Why.forget : Why → Stop
  | .fault f => .fault f
  | .fatal _ => .fatal

/-- A result without the message. -/
def forget {α : Type} : Except Why α → Except Stop α
  | .ok a => .ok a
  | .error e => .error e.forget

/-- Lifts a library call. -/
def tell {α : Type} : Go α → Except Why α
  | .ok a => .ok a
  | .error f => .error (.fault f)

/-- main.go:40-57: key and value of a line. -/
def parseLineMsg (tab : Bool) (line : List UInt8) : Except Why (List UInt8 × Int) :=
  if !tab then .ok (line, 0)
  else match splitTab line with
    | k :: v :: _ =>
      match atoi v with
      | none => .error (.fatal (.badValue v))
      | some v => .ok (k, clamp v)
    | _ => .error (.fault .panic)

/-- main.go:33-71 `processLine`. -/
def processLineMsg (o : Opts) (b : Builder) (line : List UInt8) : Except Why (Builder × Bool) :=
  if line.length = 0 then .ok (b, false) else do
    let (key, val) ← parseLineMsg o.tab line
    let bytes := keyBytes o.utfc key
    let (b, ok) ← tell (b.insertKeyValue bytes bytes.length val)
    if !ok then .error (.fatal (.badKey key))
    return (b, true)

/-- main.go:105-122: processes the lines in order. -/
def processLinesMsg (o : Opts) : List (List UInt8) → Builder → Except Why Builder
  | [], b => .ok b
  | l :: ls, b => do
    let (b, _) ← processLineMsg o b l
    processLinesMsg o ls b

/-- main.go:73-126: from the lexicon to the Dawg. -/
def buildDawgMsg (sorter : LineSorter) (grow : Nat → Nat) (o : Opts) (lines : List (List UInt8)) : Except Why Dawg := do
  let b ← processLinesMsg o (orderLines sorter grow o lines) Builder.new
  let (_, d) ← tell b.finish
  return d

/-- main.go:135-195: from the Dawg to the dictionary file. -/
def buildFileMsg (linkSorter : Sorter) (o : Opts) (d : Dawg) : Except Why (List UInt8) := do
  match ← tell d.buildWithUnused with
  | none => .error (.fatal .noDictionary)
  | some (dict, _) =>
    let out := dict.write
    let guide ←
      if o.ranked then some <$> tell (buildRankedGuide linkSorter d dict)
      else if o.guide then some <$> tell (buildGuide d dict)
      else pure none
    match guide with
    | none => return out
    | some none => .error (.fault .panic)
    | some (some g) =>
      let out := out ++ g.write
      if o.index then
        match ← tell (buildIndex dict g) with
        | none => .error (.fatal .noIndex)
        | some x => return out ++ x.write
      else return out

/-- main.go:73-196 `handleBuildDict`. -/
def mainBuildMsg (sorter : LineSorter) (linkSorter : Sorter) (grow : Nat → Nat) (o : Opts) (lexicon : List UInt8) : Except Why (List UInt8) := do
  let d ← buildDawgMsg sorter grow o (scanLines lexicon)
  buildFileMsg linkSorter o d

/-- main.go:198-229 `handleLoadDict`, the loading part. -/
def loadMsg (o : Opts) (file : List UInt8) : Except Why Loaded := do
  match Dictionary.readNew file with
  | (none, _) => .error (.fatal .readDictionary)
  | (some dict, rest) =>
    if o.ranked || o.guide then
      match Guide.readNew rest with
      | (none, _) => .error (.fatal (if o.ranked then .readRankedGuide else .readGuide))
      | (some g, rest) =>
        if o.index then
          match Index.readNew rest with
          | (none, _) => .error (.fatal .readIndex)
          | (some x, _) => return { dict := dict, guide := some g, index := some x }
        else return { dict := dict, guide := some g, index := none }
    else return { dict := dict, guide := none, index := none }

/-- main.go:198-277 `handleLoadDict`. -/
def mainQueryMsg (o : Opts) (fuel : Nat) (dictionary lexicon : List UInt8) : Except Why (List Answer × Option (List (List UInt8))) := do
  let l ← loadMsg o dictionary
  let as ← tell (answers o l fuel Completers.new (scanLines lexicon))
  let t ← tell (totals o l)
  return (as, t)

/-- The message of a result. -/
def messageOf {α : Type} : Except Why α → Option Message
  | .error (.fatal m) => some m
  | _ => none

/-- main.go:279-322 `main`: the message of `log.Fatal`; `none`: the program ends without it (it ends normally, by a panic, or with the text of `flag` on how to use it; or it does not end). -/
def programMsg (sorter : LineSorter) (linkSorter : Sorter) (grow : Nat → Nat) (creatable : List UInt8 → Bool) (fuel : Nat)
    (args : List (List UInt8)) (files : Files) : Option Message :=
  match parseArgs {} args with
  | .error _ => none
  | .ok (f, rest) =>
    match files (lexiconName f rest) with
    | none => some (.noFile (lexiconName f rest))
    | some lexicon =>
      if f.build then
        if creatable (dictionaryName f rest) then
          messageOf (mainBuildMsg sorter linkSorter grow f.opts (if dictionaryName f rest = lexiconName f rest then [] else lexicon))
        else some (.noCreate (dictionaryName f rest))
      else
        match files (dictionaryName f rest) with
        | none => some (.noFile (dictionaryName f rest))
        | some d => messageOf (mainQueryMsg f.opts fuel d lexicon)

end Tool
end Dawg
