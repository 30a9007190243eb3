import Verif.Model.DictionaryBuilder
/-! # Guide, GuideBuilder and Completer (guide.go, guide_unit.go, guide_builder.go, completer.go) -/
namespace Dawg

/-- guide_unit.go:3-6 `GuideUnit`; ranked_guide_unit.go:3 `RankedGuideUnit` is the same type. -/
structure GuideUnit where
  child : UInt8
  sibling : UInt8
  deriving DecidableEq, Repr

/-- guide.go:21-24 `Guide` and ranked_guide.go:8-11 `RankedGuide` (same fields and methods, both
implement `SomeGuide`, guide.go:8-19).  `size` always equals `len(units)`. -/
structure Guide where
  units : List GuideUnit
  deriving DecidableEq, Repr

namespace Guide
/-- guide.go:26-28 `NewGuide`. -/
def new : Guide := { units := [] }
/-- guide.go:35-37, ranked_guide.go:22-24 `Size`. -/
def size (g : Guide) : Nat := g.units.length
/-- guide.go:39-41, ranked_guide.go:26-28 `TotalSize`. -/
def totalSize (g : Guide) : Nat := 2 * g.size
/-- guide.go:43-45, ranked_guide.go:30-32 `FileSize`. -/
def fileSize (g : Guide) : Nat := 4 + g.totalSize
/-- guide.go:48-50, ranked_guide.go:34-36 `Root`. -/
def root (_g : Guide) : Nat := 0
/-- guide.go:52-54, ranked_guide.go:38-40 `Child`. -/
def child (g : Guide) (index : Nat) : Go UInt8 := do return (← rd g.units index).child
/-- guide.go:56-58, ranked_guide.go:42-44 `Sibling`. -/
def sibling (g : Guide) (index : Nat) : Go UInt8 := do return (← rd g.units index).sibling
/-- guide.go:104-106, ranked_guide.go:90-92 `Clear`. -/
def clear (_g : Guide) : Guide := { units := [] }
end Guide

/-- guide_builder.go:3-10 `GuideBuilder`, the mutable part (ranked_guide_builder.go:5-13 has the same
two fields plus `links`). -/
structure GuideBuilder where
  units : List GuideUnit
  isFixedTable : List UInt8
  deriving DecidableEq, Repr

namespace GuideBuilder

/-- guide_builder.go:86-88, ranked_guide_builder.go:148-150 `setIsFixed`. -/
def setIsFixed (t : List UInt8) (index : Nat) : Go (List UInt8) := do
  let b ← rd t (index / 8)
  wr t (index / 8) (UInt8.ofNat (b.toNat ||| (1 <<< (index % 8))))

/-- guide_builder.go:90-92, ranked_guide_builder.go:152-154 `isFixed`. -/
def isFixed (t : List UInt8) (index : Nat) : Go Bool := do
  let b ← rd t (index / 8)
  return (b.toNat &&& (1 <<< (index % 8))) != 0

/-- Assignment `gb.units[i].Child = l`. -/
def setChild (us : List GuideUnit) (i : Nat) (l : UInt8) : Go (List GuideUnit) := do
  wr us i { (← rd us i) with child := l }
/-- Assignment `gb.units[i].Sibling = l`. -/
def setSibling (us : List GuideUnit) (i : Nat) (l : UInt8) : Go (List GuideUnit) := do
  wr us i { (← rd us i) with sibling := l }

/-- guide_builder.go:62-83: the loop over the children, given the recursive call `rec`.
The list is the sibling chain starting with the first non-terminal child; computing it up front
is the only simplification (it matters only for malformed Dawgs whose chain access panics). -/
def kidsLoop (dawg : Dawg) (dict : Dictionary)
    (rec : GuideBuilder → Nat → Nat → Go (GuideBuilder × Bool)) (dictIndex : Nat) :
    List Nat → GuideBuilder → Go (GuideBuilder × Bool)
  | [], gb => .ok (gb, true)
  | c :: rest, gb => do
    let l ← dawg.label c
    match ← dict.follow l dictIndex with
    | none => return (gb, false)
    | some dictChild =>
      let (gb, ok) ← rec gb c dictChild
      if !ok then return (gb, false)
      let s ← dawg.sibling c
      let sl ← dawg.label s
      let gb ← if s ≠ 0 then do
          let us ← setSibling gb.units dictChild sl
          pure { gb with units := us }
        else pure gb
      kidsLoop dawg dict rec dictIndex rest gb

/-- guide_builder.go:46-84 `buildIndices`; the fuel bounds the recursion depth. -/
def buildIndices (dawg : Dawg) (dict : Dictionary) : Nat → GuideBuilder → Nat → Nat → Go (GuideBuilder × Bool)
  | 0, _, _, _ => .error .hang
  | fuel + 1, gb, dawgIndex, dictIndex => do
    if ← isFixed gb.isFixedTable dictIndex then return (gb, true)
    let t ← setIsFixed gb.isFixedTable dictIndex
    let gb := { gb with isFixedTable := t }
    let c ← dawg.child dawgIndex
    let l ← dawg.label c
    let c' ← if l = 0 then dawg.sibling c else pure c
    if l = 0 ∧ c' = 0 then return (gb, true)
    let l' ← dawg.label c'
    let us ← setChild gb.units dictIndex l'
    let kids ← dawg.chain (dawg.size + 1) c'
    kidsLoop dawg dict (fun gb i x => buildIndices dawg dict fuel gb i x) dictIndex kids { gb with units := us }

/-- guide_builder.go:28-43 `Build` and 20-26 `BuildGuide`: `none` is `nil`.  For `Size() <= 1` the
guide stays empty. -/
def build (dawg : Dawg) (dict : Dictionary) : Go (Option Guide) := do
  let gb : GuideBuilder :=
    { units := List.replicate dict.size ⟨0, 0⟩, isFixedTable := List.replicate (dict.size / 8) 0 }
  if dawg.size ≤ 1 then return some Guide.new
  let (gb, ok) ← buildIndices dawg dict (dawg.size + 1) gb dawg.root dict.root
  return if ok then some { units := gb.units } else none

end GuideBuilder

/-- guide_builder.go:20-26 `BuildGuide`. -/
def buildGuide (dawg : Dawg) (dict : Dictionary) : Go (Option Guide) := GuideBuilder.build dawg dict

/-- completer.go:10-17 `Completer`, the mutable part.  `indexStack` is kept top-first. -/
structure Completer where
  path : List UInt8
  indexStack : List Nat
  lastIndex : Nat
  deriving DecidableEq, Repr

namespace Completer

/-- completer.go:19-24 `NewCompleter`. -/
def new : Completer := { path := [], indexStack := [], lastIndex := 0 }

/-- completer.go:30-32 `Key`. -/
def key (c : Completer) : List UInt8 := c.path
/-- completer.go:27-29 `Length`. -/
def length (c : Completer) : Int := (c.path.length : Int) - 1
/-- completer.go:33-35 `Value`. -/
def value (dict : Dictionary) (c : Completer) : Go Nat := dict.value c.lastIndex

/-- completer.go:46-48: `prefix[0:length]`, panicking when `length > len(prefix)`. -/
def takeLen (pre : List UInt8) (length : Int) : Go (List UInt8) :=
  if length.toNat ≤ pre.length then .ok (pre.take length.toNat) else .error .panic

/-- completer.go:44-56 `StartStringLen` (a length below -1 panics in `make`; -1 panics at 49). -/
def startStringLen (guide : Guide) (c : Completer) (index : Nat) (pre : List UInt8) (length : Int) :
    Go Completer := do
  if length < 0 then .error .panic
  let p ← takeLen pre length
  if guide.size ≠ 0 then
    return { path := p ++ [0], indexStack := [index], lastIndex := 0 }
  else return { c with path := p ++ [0], indexStack := [] }

/-- completer.go:38-40 `Start`. -/
def start (guide : Guide) (c : Completer) (index : Nat) : Go Completer :=
  startStringLen guide c index [] 0
/-- completer.go:41-43 `StartString`. -/
def startString (guide : Guide) (c : Completer) (index : Nat) (pre : List UInt8) : Go Completer :=
  startStringLen guide c index pre pre.length

/-- `c.path[len(c.path)-1] = l` (completer.go:79, 108, 122). -/
def setLast (path : List UInt8) (l : UInt8) : Go (List UInt8) :=
  wr path (path.length - 1) l

/-- completer.go:103-112 `Follow`: `none` for false; also the body of 118-124. -/
def follow (dict : Dictionary) (c : Completer) (label : UInt8) (index : Nat) :
    Go (Option (Completer × Nat)) := do
  match ← dict.follow label index with
  | none => return none
  | some i =>
    let p ← setLast c.path label
    return some ({ c with path := p ++ [0], indexStack := i :: c.indexStack }, i)

/-- completer.go:115-129 `FindTerminal`.  The control state of the loop is `index`, so exhausting the
fuel means looping forever. -/
def findTerminalLoop (dict : Dictionary) (guide : Guide) : Nat → Completer → Nat → Go (Completer × Bool)
  | 0, _, _ => .error .hang
  | fuel + 1, c, index => do
    if ← dict.hasValue index then return ({ c with lastIndex := index }, true)
    let label ← guide.child index
    match ← follow dict c label index with
    | none => return (c, false)
    | some (c, index) => findTerminalLoop dict guide fuel c index

/-- completer.go:115-129 `FindTerminal`. -/
def findTerminal (dict : Dictionary) (guide : Guide) (c : Completer) (index : Nat) : Go (Completer × Bool) :=
  findTerminalLoop dict guide (dict.size + 1) c index

/-- completer.go:73-94: climbs until a sibling is found; `none` = `return false`.  Every iteration
pops the stack. -/
def climb (dict : Dictionary) (guide : Guide) : Nat → Completer → Nat → Go (Completer × Option Nat)
  | 0, _, _ => .error .hang
  | fuel + 1, c, index => do
    let sl ← guide.sibling index
    let path ← if c.path.length > 1 then setLast c.path.dropLast 0 else pure c.path
    match c.indexStack with
    | [] => .error .panic
    | _ :: stack =>
      let c := { c with path := path, indexStack := stack }
      match stack with
      | [] => return (c, none)
      | index :: _ =>
        if sl ≠ 0 then
          match ← follow dict c sl index with
          | none => return (c, none)
          | some (c, i) => return (c, some i)
        else climb dict guide fuel c index

/-- completer.go:59-100 `Next`. -/
def next (dict : Dictionary) (guide : Guide) (c : Completer) : Go (Completer × Bool) := do
  match c.indexStack with
  | [] => return (c, false)
  | index :: _ =>
    if c.lastIndex ≠ dict.root then
      let cl ← guide.child index
      if cl ≠ 0 then
        match ← follow dict c cl index with
        | none => return (c, false)
        | some (c, i) => findTerminal dict guide c i
      else
        match ← climb dict guide (c.indexStack.length + 1) c index with
        | (c, none) => return (c, false)
        | (c, some i) => findTerminal dict guide c i
    else findTerminal dict guide c index

end Completer
end Dawg
