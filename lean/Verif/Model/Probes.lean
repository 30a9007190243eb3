import Verif.Model.DictionaryBuilder
/-! # How many places the dictionary builder tries

The functions of `Model/DictionaryBuilder.lean` that lead to the search for a place, once more, with a count of
the calls of `isGoodOffset`. -/
namespace Dawg
namespace DictBuilder

/-- dictionary_builder.go:172-181: the scan over the circular list, with the number of calls of `isGoodOffset`. -/
def findGoodOffsetLoopN (db : DictBuilder) (index : Nat) : Nat → Nat → Go (Option Nat × Nat)
  | 0, _ => .error .hang
  | fuel + 1, unfixed => do
    let l ← rd db.labels 0
    let offset := unfixed ^^^ l.toNat
    if ← db.isGoodOffset index offset then return (some offset, 1)
    let unfixed := (← db.extra unfixed).next
    if unfixed = db.unfixedIndex then return (none, 1)
    let (r, n) ← findGoodOffsetLoopN db index fuel unfixed
    return (r, n + 1)

/-- dictionary_builder.go:165-184 `findGoodOffset`, with the number of calls of `isGoodOffset`. -/
def findGoodOffsetN (db : DictBuilder) (index : Nat) : Go (Nat × Nat) := do
  if db.unfixedIndex ≥ db.numOfUnits then return (db.numOfUnits ||| (index &&& 255), 0)
  match ← db.findGoodOffsetLoopN index (db.units.length + 1) db.unfixedIndex with
  | (some o, n) => return (o, n)
  | (none, n) => return (db.numOfUnits ||| (index &&& 255), n)

/-- dictionary_builder.go:130-162 `arrangeChildNodes`, with the number of calls of `isGoodOffset`. -/
def arrangeChildNodesN (dawg : Dawg) (db : DictBuilder) (dawgIndex dictIndex : Nat) :
    Go ((DictBuilder × Nat) × Nat) := do
  let kids ← dawgKids dawg dawgIndex
  let labels ← collectLabels dawg kids
  let db := { db with labels := labels }
  let (offset, n) ← db.findGoodOffsetN dictIndex
  let u ← rd db.units dictIndex
  match dictSetOffset u (dictIndex ^^^ offset) with
  | none => return ((db, 0), n)
  | some u' =>
    let us ← wr db.units dictIndex u'
    let db ← placeKids dawg dictIndex offset kids { db with units := us }
    let db ← db.modExtra offset ExtraUnit.setIsUsed
    return ((db, offset), n)

/-- dictionary_builder.go:84-127 `buildDictionaryIndices`, with the number of calls of `isGoodOffset`. -/
def buildIndicesN (dawg : Dawg) : Nat → DictBuilder → Nat → Nat → Go ((DictBuilder × Bool) × Nat)
  | 0, _, _, _ => .error .hang
  | fuel + 1, db, dawgIndex, dictIndex => do
    if ← dawg.isLeaf dawgIndex then return ((db, true), 0)
    let dawgChild ← dawg.child dawgIndex
    match ← tryLink dawg db dawgChild dictIndex with
    | some db => return ((db, true), 0)
    | none =>
      let ((db, offset), n) ← arrangeChildNodesN dawg db dawgIndex dictIndex
      if offset = 0 then return ((db, false), n)
      let db ← recordLink dawg db dawgChild offset
      let kids ← dawg.chain (dawg.size + 1) dawgChild
      kids.foldlM (init := ((db, true), n)) fun ((db, ok), n) c => do
        if !ok then return ((db, false), n)
        let l ← dawg.label c
        let (r, m) ← buildIndicesN dawg fuel db c (offset ^^^ l.toNat)
        return (r, n + m)

/-- dictionary_builder.go:72-76, with the number of calls of `isGoodOffset`. -/
def buildRootN (dawg : Dawg) (db : DictBuilder) : Go ((DictBuilder × Bool) × Nat) :=
  if dawg.size > 1 then buildIndicesN dawg (dawg.size + 1) db dawg.root 0 else .ok ((db, true), 0)

/-- dictionary_builder.go:65-81 `BuildDictionary`, with the number of calls of `isGoodOffset`. -/
def buildDictionaryN (dawg : Dawg) : Go ((DictBuilder × Bool) × Nat) := do
  let db := { new with linkTable := LinkTable.new (dawg.numOfMergingStates + (dawg.numOfMergingStates >>> 1)) }
  let db ← db.reserveUnit 0
  let db ← db.modExtra 0 ExtraUnit.setIsUsed
  let db ← db.modUnit 0 (fun u => (dictSetOffset u 1).getD u)
  let db ← db.modUnit 0 (fun u => dictSetLabel u 0)
  let ((db, ok), n) ← buildRootN dawg db
  if !ok then return ((db, false), n)
  let db ← db.fixAllBlocks
  return ((db, true), n)

end DictBuilder

/-- dictionary_builder.go:43-50 `BuildWithUnused`, with the number of calls of `isGoodOffset`. -/
def Dawg.buildWithUnusedN (dawg : Dawg) : Go (Option (Dictionary × Nat) × Nat) := do
  let ((db, ok), n) ← DictBuilder.buildDictionaryN dawg
  return (if ok then some ({ units := db.units }, db.numOfUnusedUnits) else none, n)

end Dawg
