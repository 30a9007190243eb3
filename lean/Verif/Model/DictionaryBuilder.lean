import Verif.Model.Dawg
import Verif.Model.Dictionary
/-! # DictionaryBuilder (dictionary_builder.go) -/
namespace Dawg

/-- dictionary_builder.go:4 `blockSize`. -/
def blockSize : Nat := 256
/-- dictionary_builder.go:7 `numOfUnfixedBlocks`. -/
def numOfUnfixedBlocks : Nat := 16
/-- dictionary_builder.go:13 `upperMask = ^(offsetMax - 1)` on 32 bits. -/
def upperMask : Nat := 4292870144
/-- dictionary_builder.go:14 `lowerMask`. -/
def lowerMask : Nat := 255

/-- dictionary_builder.go:16-26 `DictionaryBuilder`, without the `dict` field (the resulting
dictionary is returned) and with the Dawg passed as an argument (it is never modified).
A `nil` block in `extras` is the empty list. -/
structure DictBuilder where
  units : List Nat
  extras : List (List ExtraUnit)
  labels : List UInt8
  linkTable : LinkTable
  unfixedIndex : Nat
  numOfUnusedUnits : Nat
  deriving DecidableEq, Repr

namespace DictBuilder

/-- dictionary_builder.go:28-33 `NewDictionaryBuilder`. -/
def new : DictBuilder :=
  { units := [], extras := [], labels := [], linkTable := ⟨[]⟩, unfixedIndex := 0,
    numOfUnusedUnits := 0 }

/-- dictionary_builder.go:52-54 `numOfUnits`. -/
def numOfUnits (db : DictBuilder) : Nat := u32 db.units.length
/-- dictionary_builder.go:56-58 `numOfBlocks`. -/
def numOfBlocks (db : DictBuilder) : Nat := u32 db.extras.length

/-- dictionary_builder.go:60-62 `extra`, read access. -/
def extra (db : DictBuilder) (index : Nat) : Go ExtraUnit := do
  let blk ← rd db.extras (index / blockSize)
  rd blk (index % blockSize)

/-- dictionary_builder.go:60-62 `extra`, update through the returned pointer. -/
def modExtra (db : DictBuilder) (index : Nat) (f : ExtraUnit → ExtraUnit) : Go DictBuilder := do
  let blk ← rd db.extras (index / blockSize)
  let e ← rd blk (index % blockSize)
  let blk ← wr blk (index % blockSize) (f e)
  let ex ← wr db.extras (index / blockSize) blk
  return { db with extras := ex }

/-- Update of `db.units[index]` through a pointer. -/
def modUnit (db : DictBuilder) (index : Nat) (f : Nat → Nat) : Go DictBuilder := do
  let u ← rd db.units index
  let us ← wr db.units index (f u)
  return { db with units := us }

/-- dictionary_builder.go:214-219: moves `unfixedIndex` away from `index`. -/
def moveHead (db : DictBuilder) (index : Nat) : Go DictBuilder :=
  if index = db.unfixedIndex then do
    let nx := (← db.extra index).next
    return { db with unfixedIndex := if nx = index then db.numOfUnits else nx }
  else .ok db

/-- dictionary_builder.go:213-222: the part of `reserveUnit` after the possible expansion. -/
def unlinkUnit (db : DictBuilder) (index : Nat) : Go DictBuilder := do
  let db ← db.moveHead index
  let e ← db.extra index
  let db ← db.modExtra e.prev (fun x => x.setNext e.next)
  let e ← db.extra index
  let db ← db.modExtra e.next (fun x => x.setPrev e.prev)
  db.modExtra index ExtraUnit.setIsFixed

/-- dictionary_builder.go:289-294: first unused offset of the block, 0 if there is none; `n`
iterations left. -/
def findUnusedOffset (db : DictBuilder) : Nat → Nat → Go Nat
  | 0, _ => .ok 0
  | n + 1, offset => do
    if !(← db.extra offset).isUsed then return offset
    findUnusedOffset db n (offset + 1)

/-- dictionary_builder.go:297-303; `n` iterations left.  Here `reserveUnit(index)` is called with an
`index` below `numOfUnits()`, so that its expansion branch (dictionary_builder.go:209-211) is not
taken; this is checked by `reserveUnit_of_lt` below. -/
def fixBlockLoop (unusedOffset : Nat) : Nat → Nat → DictBuilder → Go DictBuilder
  | 0, _, db => .ok db
  | n + 1, index, db => do
    if (← db.extra index).isFixed then fixBlockLoop unusedOffset n (index + 1) db
    else
      let db ← db.unlinkUnit index
      let db ← db.modUnit index (fun u => dictSetLabel u (UInt8.ofNat (index ^^^ unusedOffset)))
      fixBlockLoop unusedOffset n (index + 1) { db with numOfUnusedUnits := db.numOfUnusedUnits + 1 }

/-- dictionary_builder.go:283-304 `fixBlock`. -/
def fixBlock (db : DictBuilder) (blockId : Nat) : Go DictBuilder := do
  let begin_ := u32 (blockId * blockSize)
  let unused ← db.findUnusedOffset blockSize begin_
  fixBlockLoop unused blockSize begin_ db

/-- dictionary_builder.go:253-256; `n` iterations left. -/
def linkLoop : Nat → Nat → DictBuilder → Go DictBuilder
  | 0, _, db => .ok db
  | n + 1, i, db => do
    let db ← db.modExtra (i - 1) (fun e => e.setNext i)
    let db ← db.modExtra i (fun e => e.setPrev (i - 1))
    linkLoop n (i + 1) db

/-- dictionary_builder.go:245-247: clears the extras of the recycled block. -/
def clearLoop : Nat → Nat → DictBuilder → Go DictBuilder
  | 0, _, db => .ok db
  | n + 1, i, db => do
    let db ← db.modExtra i (fun _ => ExtraUnit.empty)
    clearLoop n (i + 1) db

/-- dictionary_builder.go:242-250: the extras of the new block, which is already appended (as `nil`). -/
def newExtras (db : DictBuilder) (src srcBlocks dest destBlocks : Nat) : Go DictBuilder :=
  if destBlocks > numOfUnfixedBlocks then do
    let blockId := srcBlocks - numOfUnfixedBlocks
    let last := db.extras.length - 1
    let a ← rd db.extras last
    let b ← rd db.extras blockId
    let ex ← wr db.extras blockId a
    let ex ← wr ex last b
    clearLoop (dest - src) src { db with extras := ex }
  else do
    let ex ← wr db.extras (db.extras.length - 1) (List.replicate blockSize ExtraUnit.empty)
    return { db with extras := ex }

/-- dictionary_builder.go:252-258: makes a circular list of the new block. -/
def linkBlock (db : DictBuilder) (src dest : Nat) : Go DictBuilder := do
  let db ← linkLoop (dest - (src + 1)) (src + 1) db
  let db ← db.modExtra src (fun e => e.setPrev (dest - 1))
  db.modExtra (dest - 1) (fun e => e.setNext src)

/-- dictionary_builder.go:260-266: merges the circular list of the new block into the other one. -/
def mergeBlock (db : DictBuilder) (src dest : Nat) : Go DictBuilder := do
  let p := (← db.extra db.unfixedIndex).prev
  let db ← db.modExtra src (fun e => e.setPrev p)
  let db ← db.modExtra (dest - 1) (fun e => e.setNext db.unfixedIndex)
  let p := (← db.extra db.unfixedIndex).prev
  let db ← db.modExtra p (fun e => e.setNext src)
  db.modExtra db.unfixedIndex (fun e => e.setPrev (dest - 1))

/-- dictionary_builder.go:232-235: fixes the block that leaves the window of unfixed blocks. -/
def fixOldBlock (db : DictBuilder) (srcBlocks destBlocks : Nat) : Go DictBuilder :=
  if destBlocks > numOfUnfixedBlocks then db.fixBlock (srcBlocks - numOfUnfixedBlocks) else .ok db

/-- dictionary_builder.go:226-267 `expandDictionary`. -/
def expandDictionary (db : DictBuilder) : Go DictBuilder := do
  let src := db.numOfUnits
  let srcBlocks := db.numOfBlocks
  let dest := u32 (src + blockSize)
  let destBlocks := u32 (srcBlocks + 1)
  let db ← db.fixOldBlock srcBlocks destBlocks
  let db := { db with units := db.units ++ List.replicate blockSize 0, extras := db.extras ++ [[]] }
  let db ← db.newExtras src srcBlocks dest destBlocks
  let db ← db.linkBlock src dest
  db.mergeBlock src dest

/-- dictionary_builder.go:209-211: expands the dictionary when the index is out of range. -/
def growFor (db : DictBuilder) (index : Nat) : Go DictBuilder :=
  if index ≥ db.numOfUnits then db.expandDictionary else .ok db

/-- dictionary_builder.go:208-223 `reserveUnit`. -/
def reserveUnit (db : DictBuilder) (index : Nat) : Go DictBuilder := do
  let db ← db.growFor index
  db.unlinkUnit index

/-- The call `reserveUnit(index)` of `fixBlock` (dictionary_builder.go:299), where the index is in
range, is `unlinkUnit`. -/
theorem reserveUnit_of_lt (db : DictBuilder) (index : Nat) (h : index < db.numOfUnits) :
    db.reserveUnit index = db.unlinkUnit index := by
  simp [reserveUnit, growFor, Nat.not_le.2 h, bind, Except.bind]

/-- dictionary_builder.go:198-202: the collision scan of `isGoodOffset` over the labels after the first. -/
def noCollision (db : DictBuilder) (offset : Nat) : List UInt8 → Go Bool
  | [] => .ok true
  | l :: ls => do
    if (← db.extra (offset ^^^ l.toNat)).isFixed then return false
    noCollision db offset ls

/-- dictionary_builder.go:187-205 `isGoodOffset`. -/
def isGoodOffset (db : DictBuilder) (index offset : Nat) : Go Bool := do
  if (← db.extra offset).isUsed then return false
  let rel := index ^^^ offset
  if (rel &&& lowerMask != 0) && (rel &&& upperMask != 0) then return false
  db.noCollision offset db.labels.tail

/-- dictionary_builder.go:172-181: the scan over the circular list; `none` = list exhausted.  The
loop only changes `unfixedIndex`; more iterations than units means that the starting point is never
reached again. -/
def findGoodOffsetLoop (db : DictBuilder) (index : Nat) : Nat → Nat → Go (Option Nat)
  | 0, _ => .error .hang
  | fuel + 1, unfixed => do
    let l ← rd db.labels 0
    let offset := unfixed ^^^ l.toNat
    if ← db.isGoodOffset index offset then return some offset
    let unfixed := (← db.extra unfixed).next
    if unfixed = db.unfixedIndex then return none
    findGoodOffsetLoop db index fuel unfixed

/-- dictionary_builder.go:165-184 `findGoodOffset`. -/
def findGoodOffset (db : DictBuilder) (index : Nat) : Go Nat := do
  if db.unfixedIndex ≥ db.numOfUnits then return db.numOfUnits ||| (index &&& 255)
  match ← db.findGoodOffsetLoop index (db.units.length + 1) db.unfixedIndex with
  | some o => return o
  | none => return db.numOfUnits ||| (index &&& 255)

/-- The children met by a loop `for c := dawg.Child(i); c != 0; c = dawg.Sibling(c)`
(dictionary_builder.go:133-137). -/
def dawgKids (dawg : Dawg) (dawgIndex : Nat) : Go (List Nat) := do
  let c ← dawg.child dawgIndex
  if c = 0 then return []
  dawg.chain (dawg.size + 1) c

/-- dictionary_builder.go:134-137: collects the labels. -/
def collectLabels (dawg : Dawg) : List Nat → Go (List UInt8)
  | [] => .ok []
  | c :: cs => do
    let l ← dawg.label c
    let ls ← collectLabels dawg cs
    return l :: ls

/-- dictionary_builder.go:146-158: places the children. -/
def placeKids (dawg : Dawg) (dictIndex offset : Nat) : List Nat → DictBuilder → Go DictBuilder
  | [], db => .ok db
  | c :: cs, db => do
    let l ← dawg.label c
    let dictChild := offset ^^^ l.toNat
    let db ← db.reserveUnit dictChild
    if ← dawg.isLeaf c then
      let db ← db.modUnit dictIndex dictSetHasLeaf
      let v ← dawg.value c
      let db ← db.modUnit dictChild (fun _ => dictSetValue v)
      placeKids dawg dictIndex offset cs db
    else
      let db ← db.modUnit dictChild (fun u => dictSetLabel u l)
      placeKids dawg dictIndex offset cs db

/-- dictionary_builder.go:130-162 `arrangeChildNodes`.  `db.labels` holds the labels of the
children in order, so the Go loop over `db.labels` (146-158) is a loop over the children. -/
def arrangeChildNodes (dawg : Dawg) (db : DictBuilder) (dawgIndex dictIndex : Nat) :
    Go (DictBuilder × Nat) := do
  let kids ← dawgKids dawg dawgIndex
  let labels ← collectLabels dawg kids
  let db := { db with labels := labels }
  let offset ← db.findGoodOffset dictIndex
  let u ← rd db.units dictIndex
  match dictSetOffset u (dictIndex ^^^ offset) with
  | none => return (db, 0)
  | some u' =>
    let us ← wr db.units dictIndex u'
    let db ← placeKids dawg dictIndex offset kids { db with units := us }
    let db ← db.modExtra offset ExtraUnit.setIsUsed
    return (db, offset)

/-- dictionary_builder.go:93-95: sets the has-leaf bit when the first child is a leaf. -/
def markLeaf (dawg : Dawg) (db : DictBuilder) (dawgChild dictIndex : Nat) : Go DictBuilder := do
  if ← dawg.isLeaf dawgChild then db.modUnit dictIndex dictSetHasLeaf else .ok db

/-- dictionary_builder.go:89-103: tries to reuse the offset recorded for a merging state; `some db`
when it did. -/
def tryLink (dawg : Dawg) (db : DictBuilder) (dawgChild dictIndex : Nat) : Go (Option DictBuilder) := do
  if !(← dawg.isMerging dawgChild) then return none
  let offset ← db.linkTable.find dawgChild
  if offset = 0 then return none
  let offset := offset ^^^ dictIndex
  if (offset &&& upperMask = 0) || (offset &&& lowerMask = 0) then
    let db ← markLeaf dawg db dawgChild dictIndex
    let u ← rd db.units dictIndex
    match dictSetOffset u offset with
    | none => return some db
    | some u' =>
      let us ← wr db.units dictIndex u'
      return some { db with units := us }
  else return none

/-- dictionary_builder.go:111-113: records the offset of a merging state. -/
def recordLink (dawg : Dawg) (db : DictBuilder) (dawgChild offset : Nat) : Go DictBuilder := do
  if ← dawg.isMerging dawgChild then
    let lt ← db.linkTable.insert dawgChild offset
    return { db with linkTable := lt }
  else return db

/-- dictionary_builder.go:84-127 `buildDictionaryIndices`; the fuel bounds the depth of the recursion
(child indices of a finished Dawg decrease; exhausting it means unbounded recursion).  The loop over
the siblings (116-125) runs over the chain of `dawgChildIndex`, which the loop does not modify. -/
def buildIndices (dawg : Dawg) : Nat → DictBuilder → Nat → Nat → Go (DictBuilder × Bool)
  | 0, _, _, _ => .error .hang
  | fuel + 1, db, dawgIndex, dictIndex => do
    if ← dawg.isLeaf dawgIndex then return (db, true)
    let dawgChild ← dawg.child dawgIndex
    match ← tryLink dawg db dawgChild dictIndex with
    | some db => return (db, true)
    | none =>
      let (db, offset) ← arrangeChildNodes dawg db dawgIndex dictIndex
      if offset = 0 then return (db, false)
      let db ← recordLink dawg db dawgChild offset
      let kids ← dawg.chain (dawg.size + 1) dawgChild
      kids.foldlM (init := (db, true)) fun (db, ok) c => do
        if !ok then return (db, false)
        let l ← dawg.label c
        buildIndices dawg fuel db c (offset ^^^ l.toNat)

/-- dictionary_builder.go:277-279; `n` iterations left. -/
def fixBlocksLoop : Nat → Nat → DictBuilder → Go DictBuilder
  | 0, _, db => .ok db
  | n + 1, blockId, db => do
    let db ← db.fixBlock blockId
    fixBlocksLoop n (blockId + 1) db

/-- dictionary_builder.go:270-280 `fixAllBlocks`. -/
def fixAllBlocks (db : DictBuilder) : Go DictBuilder :=
  let begin_ := if db.numOfBlocks > numOfUnfixedBlocks then db.numOfBlocks - numOfUnfixedBlocks else 0
  fixBlocksLoop (db.numOfBlocks - begin_) begin_ db

/-- dictionary_builder.go:72-76: arranges the children of the root unless the Dawg has no other state. -/
def buildRoot (dawg : Dawg) (db : DictBuilder) : Go (DictBuilder × Bool) :=
  if dawg.size > 1 then buildIndices dawg (dawg.size + 1) db dawg.root 0 else .ok (db, true)

/-- dictionary_builder.go:65-81 `BuildDictionary`: the builder at the end and the result. -/
def buildDictionary (dawg : Dawg) : Go (DictBuilder × Bool) := do
  let db := { new with linkTable := LinkTable.new (dawg.numOfMergingStates + (dawg.numOfMergingStates >>> 1)) }
  let db ← db.reserveUnit 0
  let db ← db.modExtra 0 ExtraUnit.setIsUsed
  let db ← db.modUnit 0 (fun u => (dictSetOffset u 1).getD u)
  let db ← db.modUnit 0 (fun u => dictSetLabel u 0)
  let (db, ok) ← buildRoot dawg db
  if !ok then return (db, false)
  let db ← db.fixAllBlocks
  return (db, true)

end DictBuilder

/-- dictionary_builder.go:43-50 `BuildWithUnused`: `none` is `nil`; otherwise the dictionary and the
reported number of unused units. -/
def Dawg.buildWithUnused (dawg : Dawg) : Go (Option (Dictionary × Nat)) := do
  let (db, ok) ← DictBuilder.buildDictionary dawg
  return if ok then some ({ units := db.units }, db.numOfUnusedUnits) else none

/-- dictionary_builder.go:35-41 `Build`. -/
def Dawg.build (dawg : Dawg) : Go (Option Dictionary) := do
  let (db, ok) ← DictBuilder.buildDictionary dawg
  return if ok then some { units := db.units } else none

end Dawg
