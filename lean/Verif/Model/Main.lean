import Verif.Model.Output
/-! # The command line of dawgtool (cmd/dawgtool/main.go:279-322)

`main` with its arguments and the files by name.  Go's package `flag` is modelled from its documentation: flags begin with one or two dashes, a value follows
after "=" or, for the flags that are not boolean, as the next argument; parsing stops at the first argument that is not a flag ("-" is none) and after "--".
Different names are supposed to be different files (no links); what is printed to the standard error is in Model/Message.lean. -/
namespace Dawg
namespace Tool

/-- main.go:16-25: the variables that flags set, with their default values. -/
structure Flags where
  build : Bool := false
  opts : Opts := {}
  lexicon : List UInt8 := ascii "-"
  dictionary : List UInt8 := ascii "-"

/-- `flag.Parse` can end the program: after `-h` or `-help`, and at a mistake (exit status 2). -/
inductive Usage
  | help
  | mistake
  deriving DecidableEq, Repr

/-- `strconv.ParseBool`. -/
def parseBool (s : List UInt8) : Option Bool :=
  if s ∈ [ascii "1", ascii "t", ascii "T", ascii "true", ascii "TRUE", ascii "True"] then some true
  else if s ∈ [ascii "0", ascii "f", ascii "F", ascii "false", ascii "FALSE", ascii "False"] then some false
  else none

/-- main.go:280-286: the boolean flags. -/
def setBool (f : Flags) (name : List UInt8) (v : Bool) : Option Flags :=
  if name = ascii "b" then some { f with build := v }
  else if name = ascii "t" then some { f with opts := { f.opts with tab := v } }
  else if name = ascii "g" then some { f with opts := { f.opts with guide := v } }
  else if name = ascii "r" then some { f with opts := { f.opts with ranked := v } }
  else if name = ascii "i" then some { f with opts := { f.opts with index := v } }
  else if name = ascii "s" then some { f with opts := { f.opts with sort := v } }
  else if name = ascii "u" then some { f with opts := { f.opts with utfc := v } }
  else none

/-- main.go:287-288: the other flags. -/
def setString (f : Flags) (name value : List UInt8) : Option Flags :=
  if name = ascii "l" then some { f with lexicon := value }
  else if name = ascii "d" then some { f with dictionary := value }
  else none

/-- A flag without its dashes: the name, and the value after "=". -/
def cutEq : List UInt8 → List UInt8 × Option (List UInt8)
  | [] => ([], none)
  | c :: cs => if c = 61 then ([], some cs) else (c :: (cutEq cs).1, (cutEq cs).2)

/-- Whether an argument is no flag. -/
def isPlain (s : List UInt8) : Bool := s.length < 2 || s.head? ≠ some 45

/-- `flag.Parse`: the variables and the remaining arguments. -/
def parseArgs (f : Flags) : List (List UInt8) → Except Usage (Flags × List (List UInt8))
  | [] => .ok (f, [])
  | s :: rest =>
    if isPlain s then .ok (f, s :: rest)
    else if s = ascii "--" then .ok (f, rest)
    else
      let name := if s[1]? = some 45 then s.drop 2 else s.drop 1
      if name.head? = some 45 ∨ name.head? = some 61 then .error .mistake
      else
        let flag := cutEq name
        match setBool f flag.1 true with
        | some f' =>
          match flag.2 with
          | none => parseArgs f' rest
          | some v =>
            match parseBool v with
            | none => .error .mistake
            | some v => parseArgs ((setBool f flag.1 v).getD f) rest
        | none =>
          match flag.2, rest with
          | some v, rest =>
            match setString f flag.1 v with
            | some f' => parseArgs f' rest
            | none => if flag.1 = ascii "help" ∨ flag.1 = ascii "h" then .error .help else .error .mistake
          | none, v :: rest =>
            match setString f flag.1 v with
            | some f' => parseArgs f' rest
            | none => if flag.1 = ascii "help" ∨ flag.1 = ascii "h" then .error .help else .error .mistake
          | none, [] => if flag.1 = ascii "help" ∨ flag.1 = ascii "h" then .error .help else .error .mistake

/-- main.go:292-294: the name of the lexicon file (or of the file of queries). -/
def lexiconName (f : Flags) (rest : List (List UInt8)) : List UInt8 :=
  if f.lexicon = ascii "-" then rest[0]?.getD f.lexicon else f.lexicon

/-- main.go:296-298: the name of the dictionary file. -/
def dictionaryName (f : Flags) (rest : List (List UInt8)) : List UInt8 :=
  if f.dictionary = ascii "-" then rest[1]?.getD f.dictionary else f.dictionary

/-- The files by name; `none`: there is no such file. -/
abbrev Files := List UInt8 → Option (List UInt8)

/-- The files after a change of one of them. -/
def Files.set (files : Files) (name : List UInt8) (content : Option (List UInt8)) : Files := fun n => if n = name then content else files n

/-- How a run ends. -/
inductive Ending
  | done
  | usage (u : Usage)
  | stopped (e : Stop)
  deriving DecidableEq, Repr

/-- A run of the program: the standard output, the files afterwards, the end. -/
structure Session where
  out : List UInt8
  files : Files
  ending : Ending

/-- The end of a run with the given result. -/
def ended : Except Stop Unit → Ending
  | .ok _ => .done
  | .error e => .stopped e

/-- main.go:279-322 `main`.  `creatable` tells for which names `os.Create` succeeds.  The lexicon is opened first, then the dictionary file is created (and so
emptied, main.go:308), then the lexicon is read: when both have the same name, it is empty. -/
def program (ratio : Nat → Nat → List UInt8) (sorter : LineSorter) (linkSorter : Sorter) (grow : Nat → Nat) (creatable : List UInt8 → Bool) (fuel : Nat)
    (args : List (List UInt8)) (files : Files) : Session :=
  match parseArgs {} args with
  | .error u => ⟨[], files, .usage u⟩
  | .ok (f, rest) =>
    match files (lexiconName f rest) with
    | none => ⟨[], files, .stopped .fatal⟩
    | some lexicon =>
      if f.build then
        if creatable (dictionaryName f rest) then
          let lexicon := if dictionaryName f rest = lexiconName f rest then [] else lexicon
          let r := buildRun ratio sorter linkSorter grow f.opts lexicon
          ⟨r.out, files.set (dictionaryName f rest) (some r.file), ended r.res⟩
        else ⟨[], files, .stopped .fatal⟩
      else
        match files (dictionaryName f rest) with
        | none => ⟨[], files, .stopped .fatal⟩
        | some d =>
          let r := queryRun f.opts fuel d lexicon
          ⟨r.out, files, ended r.res⟩

end Tool
end Dawg
