import Verif.Model.Main
/-! # Readers and writers that work in pieces and can fail

`Verif.Model.Serialize`, `Verif.Model.Tool` and `Verif.Model.Output` take a file for the list of its bytes.  Here the same functions read from any `io.Reader`
and write to any `io.Writer`: a reader may deliver its bytes in pieces of any size and end with any error; a writer may refuse a part of what it is given.
The functions of Go's library in between (`io.ReadFull`, `encoding/binary`, `bufio.Scanner`) are modelled from their sources.  `Verif.Props.Stream` relates
the two. -/
namespace Dawg

/-- The errors: the end of the stream, an error of the device, and the two errors of `bufio.Scanner` (a line that is too long, a reader that makes no
progress). -/
inductive ReadErr
  | eof
  | device
  | tooLong
  | noProgress
  deriving DecidableEq, Repr

/-- An `io.Reader`: `read s m` is what `Read(p)` with `len(p) = m` gives: the reader afterwards, the bytes put into `p` and the error (`none` is `nil`). -/
structure Reader where
  State : Type
  read : State → Nat → State × List UInt8 × Option ReadErr

namespace Reader

/-- The loop of io/io.go `ReadAtLeast`: `got` are the bytes read so far, `need` the number of bytes that are missing.  At most `fuel` calls of `Read`. -/
def fullLoop (R : Reader) : Nat → List UInt8 → Nat → R.State → Go (Option (List UInt8) × R.State)
  | _, got, 0, s => .ok (some got, s)
  | 0, _, _ + 1, _ => .error .hang
  | fuel + 1, got, need + 1, s =>
    let (s, c, err) := R.read s (need + 1)
    match err with
    | none => fullLoop R fuel (got ++ c) (need + 1 - c.length) s
    | some _ => if need + 1 ≤ c.length then .ok (some (got ++ c), s) else .ok (none, s)

/-- `io.ReadFull(r, buf)` with `len(buf) = n`; `none` is an error.  An error that comes with the last byte is dropped (io/io.go `ReadAtLeast`). -/
def full (R : Reader) (fuel n : Nat) (s : R.State) : Go (Option (List UInt8) × R.State) := fullLoop R fuel [] n s

/-- The common shape of the `Read` methods; as `readUnits`. -/
def units {α : Type} (R : Reader) (fuel k : Nat) (dec : List UInt8 → List α) (s : R.State) : Go (Option (List α) × R.State) := do
  match ← R.full fuel 4 s with
  | (some [a, b, c, d], s) =>
    match ← R.full fuel (k * getU32 a b c d) s with
    | (some buf, s) => return (some (dec buf), s)
    | (none, s) => return (none, s)
  | (_, s) => return (none, s)

end Reader

/-- dictionary.go:58-74 `Read` from any reader: the receiver afterwards, the result and the reader afterwards. -/
def Dictionary.readFrom (R : Reader) (fuel : Nat) (d : Dictionary) (s : R.State) : Go (Dictionary × Bool × R.State) := do
  match ← R.units fuel 4 unitsOfBytes s with
  | (some us, s) => return ({ units := us }, true, s)
  | (none, s) => return (d, false, s)

/-- guide.go:69-86 and ranked_guide.go:55-72 `Read` from any reader. -/
def Guide.readFrom (R : Reader) (fuel : Nat) (g : Guide) (s : R.State) : Go (Guide × Bool × R.State) := do
  match ← R.units fuel 2 guideUnitsOfBytes s with
  | (some us, s) => return ({ units := us }, true, s)
  | (none, s) => return (g, false, s)

/-- index.go:54-68 `Read` from any reader. -/
def Index.readFrom (R : Reader) (fuel : Nat) (x : Index) (s : R.State) : Go (Index × Bool × R.State) := do
  match ← R.full fuel 4 s with
  | (some [a, b, c, d], s) =>
    let size := getU32 a b c d
    match ← R.full fuel (4 * size) s with
    | (some buf, s) => return ({ units := unitsOfBytes buf }, true, s)
    | (none, s) => return ({ units := List.replicate size 0 }, false, s)
  | (_, s) => return (x, false, s)

/-! ## Writers -/

/-- An `io.Writer`: `write s p` is what `Write(p)` gives: the writer afterwards, the number of bytes taken from `p`, and whether there is no error. -/
structure Writer where
  State : Type
  write : State → List UInt8 → State × Nat × Bool

namespace Writer

/-- `binary.Write`: one call of `Write` with all the bytes.  The writer afterwards, the bytes that it has taken, and whether there is no error. -/
def put (W : Writer) (s : W.State) (bs : List UInt8) : W.State × List UInt8 × Bool :=
  let (s, n, ok) := W.write s bs
  (s, bs.take n, ok)

/-- The common shape of the `Write` methods (dictionary.go:77-90, guide.go:89-102, ranked_guide.go:75-88, index.go:71-84): the size, then the units. -/
def units (W : Writer) (s : W.State) (size : Nat) (body : List UInt8) : W.State × List UInt8 × Bool :=
  match W.put s (putU32 (u32 size)) with
  | (s, a, false) => (s, a, false)
  | (s, a, true) =>
    match W.put s body with
    | (s, b, ok) => (s, a ++ b, ok)

end Writer

/-- dictionary.go:77-90 `Write` to any writer: the writer afterwards, the bytes that it has taken, and the result. -/
def Dictionary.writeTo (W : Writer) (d : Dictionary) (s : W.State) : W.State × List UInt8 × Bool := W.units s d.size (bytesOfUnits d.units)
/-- guide.go:89-102 and ranked_guide.go:75-88 `Write` to any writer. -/
def Guide.writeTo (W : Writer) (g : Guide) (s : W.State) : W.State × List UInt8 × Bool := W.units s g.size (bytesOfGuideUnits g.units)
/-- index.go:71-84 `Write` to any writer. -/
def Index.writeTo (W : Writer) (x : Index) (s : W.State) : W.State × List UInt8 × Bool := W.units s x.size (bytesOfUnits x.units)

/-! ## bufio.Scanner -/

/-- bufio/scan.go `Scanner` with `ScanLines`.  `data` is `s.buf[s.start:s.end]`, the rest of the buffer is never looked at; `cap` is `len(s.buf)`. -/
structure Scanner where
  data : List UInt8 := []
  start : Nat := 0
  cap : Nat := 0
  err : Option ReadErr := none

namespace Scanner

/-- `bufio.NewScanner`. -/
def new : Scanner := {}

/-- bufio/scan.go `ScanLines`: how far to advance and the token (`none` is `nil`).  `bytes.IndexByte` finds the first newline. -/
def scanLinesSplit (data : List UInt8) (atEOF : Bool) : Nat × Option (List UInt8) :=
  if atEOF && data.length = 0 then (0, none)
  else match data.findIdx? (· == 10) with
    | some i => (i + 1, some (Tool.dropCR (data.take i)))
    | none => if atEOF then (data.length, some (Tool.dropCR data)) else (0, none)

/-- bufio/scan.go `Scan`, the inner loop that reads: `left` more calls of `Read` without a byte are possible before `io.ErrNoProgress`. -/
def fill (R : Reader) : Nat → Scanner → R.State → Scanner × R.State
  | 0, sc, s => ({ sc with err := some .noProgress }, s)
  | left + 1, sc, s =>
    let (s, c, err) := R.read s (sc.cap - (sc.start + sc.data.length))
    let sc := { sc with data := sc.data ++ c, err := err }
    if err ≠ none then (sc, s)
    else if 0 < c.length then (sc, s)
    else fill R left sc s

/-- bufio/scan.go `Scan`, what precedes the reading: moves the data to the beginning of the buffer, makes the buffer larger (4096 bytes at first, 65536 at
most).  `none`: the line is too long. -/
def room (sc : Scanner) : Option Scanner :=
  let sc := if 0 < sc.start ∧ (sc.start + sc.data.length = sc.cap ∨ sc.cap / 2 < sc.start) then { sc with start := 0 } else sc
  if sc.start + sc.data.length = sc.cap then
    if 65536 ≤ sc.cap then none
    else some { sc with start := 0, cap := min (if sc.cap * 2 = 0 then 4096 else sc.cap * 2) 65536 }
  else some sc

/-- bufio/scan.go `Scan`: the token (`none`: the result is false), the scanner and the reader afterwards.  `fuel` bounds the number of runs of the loop.
Not modelled: the check of the reader's byte counts, `s.empties` (`ScanLines` returns no token without advancing), and `s.done` (set by `ErrFinalToken`
only). -/
def scan (R : Reader) : Nat → Scanner → R.State → Go (Option (List UInt8) × Scanner × R.State)
  | 0, _, _ => .error .hang
  | fuel + 1, sc, s =>
    let (advance, token) := if 0 < sc.data.length ∨ sc.err ≠ none then scanLinesSplit sc.data (sc.err ≠ none) else (0, none)
    let sc := { sc with data := sc.data.drop advance, start := sc.start + advance }
    match token with
    | some t => .ok (some t, sc, s)
    | none =>
      if sc.err ≠ none then .ok (none, { sc with data := [], start := 0 }, s)
      else match sc.room with
        | none => .ok (none, { sc with err := some .tooLong }, s)
        | some sc =>
          let (sc, s) := fill R 101 sc s
          scan R fuel sc s

/-- main.go:78-80, 114-115, 231-232: `for scanner.Scan() { … scanner.Text() … }`, the lines and the scanner afterwards. -/
def lines (R : Reader) : Nat → Scanner → R.State → Go (List (List UInt8) × Scanner)
  | 0, _, _ => .error .hang
  | fuel + 1, sc, s => do
    match ← scan R fuel sc s with
    | (none, sc, _) => return ([], sc)
    | (some t, sc, s) =>
      let (ts, sc) ← lines R fuel sc s
      return (t :: ts, sc)

end Scanner

/-! ## dawgtool -/
namespace Tool

/-- main.go:198-229 `handleLoadDict`, the loading part, from any reader. -/
def loadFrom (R : Reader) (fuel : Nat) (o : Opts) (s : R.State) : Except Stop Loaded := do
  match ← lift (Dictionary.new.readFrom R fuel s) with
  | (_, false, _) => .error .fatal
  | (dict, true, s) =>
    if o.ranked || o.guide then
      match ← lift (Guide.new.readFrom R fuel s) with
      | (_, false, _) => .error .fatal
      | (g, true, s) =>
        if o.index then
          match ← lift (Index.new.readFrom R fuel s) with
          | (_, false, _) => .error .fatal
          | (x, true, _) => return { dict := dict, guide := some g, index := some x }
        else return { dict := dict, guide := some g, index := none }
    else return { dict := dict, guide := none, index := none }

/-- A run that writes to a writer: its effects (`file` is what the writer has taken) and the writer afterwards. -/
def Dev (W : Writer) (α : Type) : Type := W.State → W.State × Run α

namespace Dev
variable {W : Writer}

/-- A run without effects. -/
def pure {α : Type} (a : α) : Dev W α := fun s => (s, Run.pure a)

/-- One run after another; a run that stops is the last one. -/
def bind {α β : Type} (x : Dev W α) (f : α → Dev W β) : Dev W β := fun s =>
  match x s with
  | (s, r) =>
    match r.res with
    | .error e => (s, ⟨r.out, r.file, .error e⟩)
    | .ok a =>
      match f a s with
      | (s, r') => (s, ⟨r.out ++ r'.out, r.file ++ r'.file, r'.res⟩)

instance : Monad (Dev W) where
  pure := Dev.pure
  bind := Dev.bind

end Dev

/-- What does not write. -/
def mute {W : Writer} {α : Type} (x : Run α) : Dev W α := fun s => (s, x)

/-- main.go:151-153, 167-169, 179-181, 193-195: `if !….Write(fileDictionary) { log.Fatalf(…) }`. -/
def saveTo {W : Writer} (write : W.State → W.State × List UInt8 × Bool) : Dev W Unit := fun s =>
  match write s with
  | (s, bs, ok) => (s, ⟨[], bs, if ok then .ok () else .error .fatal⟩)

/-- main.go:135-195, as `buildFileRun`. -/
def buildFileDev (W : Writer) (ratio : Nat → Nat → List UInt8) (linkSorter : Sorter) (o : Opts) (d : Dawg) : Dev W Unit := do
  match ← mute (perform (lift d.buildWithUnused)) with
  | none => mute (perform (.error .fatal))
  | some (dict, unused) =>
    mute (stat "no. elements" dict.size)
    mute (print (ascii "no. unused elements: " ++ number unused ++ ascii " (" ++ ratio unused dict.size ++ ascii "%)" ++ [10]))
    mute (stat "dictionary size" dict.totalSize)
    saveTo (dict.writeTo W)
    let guide ←
      if o.ranked then mute (some <$> perform (lift (buildRankedGuide linkSorter d dict)))
      else if o.guide then mute (some <$> perform (lift (buildGuide d dict)))
      else pure none
    match guide with
    | none => return ()
    | some none => mute (perform (.error (.fault .panic)))
    | some (some g) =>
      mute (stat "no. units" g.size)
      mute (stat "guide size" g.totalSize)
      saveTo (g.writeTo W)
      if o.index then
        match ← mute (perform (lift (buildIndex dict g))) with
        | none => mute (perform (.error .fatal))
        | some x =>
          mute (stat "no. index units" x.size)
          mute (stat "index size" x.totalSize)
          saveTo (x.writeTo W)
      else return ()

/-- main.go:73-196 `handleBuildDict`, the lexicon coming from a reader and the dictionary going to a writer.  The lines are read before the first one is
processed; without `-s` the tool processes each line when it has been read, which makes no difference to the result, as reading and processing do not influence
each other.  The tool does not look at `scanner.Err`. -/
def buildDev (R : Reader) (W : Writer) (ratio : Nat → Nat → List UInt8) (sorter : LineSorter) (linkSorter : Sorter) (grow : Nat → Nat) (o : Opts) (fuel : Nat)
    (lexicon : R.State) : Dev W Unit := do
  let (lines, _) ← mute (perform (lift (Scanner.lines R fuel Scanner.new lexicon)))
  let (b, count) ← mute (processLinesRun o (orderLines sorter grow o lines) Builder.new 0)
  let (_, d) ← mute (perform (lift b.finish))
  mute (dawgStats count d)
  buildFileDev W ratio linkSorter o d

/-- main.go:198-277 `handleLoadDict`, the dictionary and the queries coming from readers.  (The queries are read before the first answer; cf. `buildDev`.) -/
def queryFrom (R R' : Reader) (o : Opts) (fuel : Nat) (dictionary : R.State) (queries : R'.State) : Run Unit := do
  let l ← perform (loadFrom R fuel o dictionary)
  let (lines, _) ← perform (lift (Scanner.lines R' fuel Scanner.new queries))
  answersRun o l fuel Completers.new lines
  totalsRun o l

end Tool
end Dawg
