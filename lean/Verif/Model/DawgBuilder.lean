import Verif.Model.Dawg
/-! # DawgBuilder (dawg_builder.go) -/
namespace Dawg

/-- dawg_builder.go:5-17 `DawgBuilder`.  `unfixedUnits` and `unusedUnits` are stacks and are kept
top-first here (last element of the Go slice = head of the list).  `initialHashTableSize` is a Go
`int`; a negative one makes `init` panic, so only naturals are modelled. -/
structure Builder where
  initialHashTableSize : Nat
  basePool : List Nat
  labelPool : List UInt8
  flagPool : BitPool
  unitPool : List DawgUnit
  hashTable : List Nat
  unfixedUnits : List Nat
  unusedUnits : List Nat
  numOfStates : Nat
  numOfMergedTransitions : Nat
  numOfMergingStates : Nat
  deriving DecidableEq, Repr

namespace Builder

/-- dawg_builder.go:22-36 `NewDawgBuilderWithSize`. -/
def newWithSize (n : Nat) : Builder :=
  { initialHashTableSize := n, basePool := [], labelPool := [], flagPool := BitPool.new,
    unitPool := [], hashTable := [], unfixedUnits := [], unusedUnits := [],
    numOfStates := 1, numOfMergedTransitions := 0, numOfMergingStates := 0 }

/-- dawg_builder.go:3, 19-21 `NewDawgBuilder`. -/
def new : Builder := newWithSize 256

/-- dawg_builder.go:38-40 `numOfTransitions`. -/
def numOfTransitions (db : Builder) : Int := (db.basePool.length : Int) - 1
/-- dawg_builder.go:42-44 `numOfMergedStates`. -/
def numOfMergedStates (db : Builder) : Int :=
  db.numOfTransitions + db.numOfMergedTransitions + 1 - db.numOfStates

/-- dawg_builder.go:47-58 `allocateUnit`. -/
def allocateUnit (db : Builder) : Go (Builder × Nat) :=
  match db.unusedUnits with
  | [] => .ok ({ db with unitPool := db.unitPool ++ [DawgUnit.empty] }, u32 db.unitPool.length)
  | i :: rest => do
    let up ← wr db.unitPool i DawgUnit.empty
    return ({ db with unusedUnits := rest, unitPool := up }, i)

/-- dawg_builder.go:61-63 `freeUnit`. -/
def freeUnit (db : Builder) (i : Nat) : Builder := { db with unusedUnits := i :: db.unusedUnits }

/-- dawg_builder.go:66-71 `allocateTransition`. -/
def allocateTransition (db : Builder) : Builder × Nat :=
  let db' := { db with flagPool := db.flagPool.allocate, basePool := db.basePool ++ [0],
                       labelPool := db.labelPool ++ [0] }
  (db', u32 (db'.labelPool.length - 1))

/-- dawg_builder.go:73-79 `init`. -/
def init (db : Builder) : Go Builder := do
  let db := { db with hashTable := List.replicate db.initialHashTableSize 0 }
  let (db, _) ← db.allocateUnit
  let (db, _) := db.allocateTransition
  let u ← rd db.unitPool 0
  let up ← wr db.unitPool 0 { u with label := 0xff }
  return { db with unitPool := up, unfixedUnits := 0 :: db.unfixedUnits }

/-- dawg_builder.go:99, 115: the hash of one (label, base) pair. -/
def hashPair (label : UInt8) (base : Nat) : Nat := intHash (u32 (label.toNat <<< 24) ^^^ base)

/-- dawg_builder.go:94-107 `hashTransition` (the index only grows: it ends or panics). -/
def hashTransitionLoop (db : Builder) : Nat → Nat → Nat → Go Nat
  | 0, _, _ => .error .hang
  | fuel + 1, index, h =>
    if index = 0 then .ok h else do
      let base ← rd db.basePool index
      let label ← rd db.labelPool index
      let h := h ^^^ hashPair label base
      if baseHasSibling base then hashTransitionLoop db fuel (u32 (index + 1)) h
      else return h

/-- dawg_builder.go:94-107 `hashTransition`. -/
def hashTransition (db : Builder) (index : Nat) : Go Nat :=
  hashTransitionLoop db (db.basePool.length + 1) index 0

/-- The unit indices met by `for i := start; i != 0; i = db.unitPool[i].sibling` (loops at
dawg_builder.go:112-117, 124, 135, 207, 227, 239).  More steps than units means a cycle. -/
def unitChain (up : List DawgUnit) : Nat → Nat → Go (List Nat)
  | 0, _ => .error .hang
  | fuel + 1, i =>
    if i = 0 then .ok [] else do
      let u ← rd up i
      let rest ← unitChain up fuel u.sibling
      return i :: rest

/-- The sibling chain of unit `i`. -/
def unitsFrom (db : Builder) (i : Nat) : Go (List Nat) :=
  unitChain db.unitPool (db.unitPool.length + 1) i

/-- dawg_builder.go:110-119 `hashUnit`: the loop body over the chain. -/
def hashUnits (db : Builder) : List Nat → Nat → Go Nat
  | [], h => .ok h
  | i :: rest, h => do
    let u ← rd db.unitPool i
    hashUnits db rest (h ^^^ hashPair u.label u.base)

/-- dawg_builder.go:110-119 `hashUnit`. -/
def hashUnit (db : Builder) (index : Nat) : Go Nat := do
  hashUnits db (← db.unitsFrom index) 0

/-- dawg_builder.go:124-129: one step of `transitionIndex` per remaining sibling; `none` = `return false`. -/
def areEqualCount (db : Builder) : List Nat → Nat → Go (Option Nat)
  | [], t => .ok (some t)
  | _ :: rest, t => do
    let b ← rd db.basePool t
    if baseHasSibling b then areEqualCount db rest (u32 (t + 1)) else return none

/-- dawg_builder.go:135-141: compares the chain with the transitions, downwards. -/
def areEqualLoop (db : Builder) : List Nat → Nat → Go Bool
  | [], _ => .ok true
  | i :: rest, t => do
    let u ← rd db.unitPool i
    let b ← rd db.basePool t
    if u.base ≠ b then return false
    let l ← rd db.labelPool t
    if u.label ≠ l then return false
    areEqualLoop db rest (t - 1)

/-- dawg_builder.go:122-143 `areEqual`.  (`transitionIndex -= 1` may wrap below 0 in Go only after
the last comparison, where it is not used any more.) -/
def areEqual (db : Builder) (unitIndex transitionIndex : Nat) : Go Bool := do
  let u ← rd db.unitPool unitIndex
  match ← areEqualCount db (← db.unitsFrom u.sibling) transitionIndex with
  | none => return false
  | some t => do
    let b ← rd db.basePool t
    if baseHasSibling b then return false
    areEqualLoop db (← db.unitsFrom unitIndex) t

/-- dawg_builder.go:148-156: the probe loop of `findTransition`.  It only changes `hashId`. -/
def findTransitionLoop (db : Builder) : Nat → Nat → Go Nat
  | 0, _ => .error .hang
  | fuel + 1, hashId => do
    let t ← rd db.hashTable hashId
    if t = 0 then return hashId
    let h ← md (u32 (hashId + 1)) (u32 db.hashTable.length)
    findTransitionLoop db fuel h

/-- dawg_builder.go:146-158 `findTransition`; returns the final `*hashId` (the Go result is always 0). -/
def findTransition (db : Builder) (index : Nat) : Go Nat := do
  let h ← md (← db.hashTransition index) (u32 db.hashTable.length)
  findTransitionLoop db (db.hashTable.length + 1) h

/-- dawg_builder.go:163-173: the probe loop of `findUnit`.  Returns (result, final `*hashId`). -/
def findUnitLoop (db : Builder) (unitIndex : Nat) : Nat → Nat → Go (Nat × Nat)
  | 0, _ => .error .hang
  | fuel + 1, hashId => do
    let t ← rd db.hashTable hashId
    if t = 0 then return (0, hashId)
    if ← db.areEqual unitIndex t then return (t, hashId)
    let h ← md (u32 (hashId + 1)) (u32 db.hashTable.length)
    findUnitLoop db unitIndex fuel h

/-- dawg_builder.go:161-175 `findUnit`. -/
def findUnit (db : Builder) (unitIndex : Nat) : Go (Nat × Nat) := do
  let h ← md (← db.hashUnit unitIndex) (u32 db.hashTable.length)
  findUnitLoop db unitIndex (db.hashTable.length + 1) h

/-- dawg_builder.go:184-192: the re-insertion loop of `expandHashTable`, for `i = len - n, …, len - 1`. -/
def expandLoop : Nat → Builder → Go Builder
  | 0, db => .ok db
  | n + 1, db => do
    let index := db.basePool.length - (n + 1)
    let l ← rd db.labelPool index
    let b ← rd db.basePool index
    if l = 0 || baseIsState b then
      let h ← db.findTransition index
      let ht ← wr db.hashTable h (u32 index)
      expandLoop n { db with hashTable := ht }
    else expandLoop n db

/-- dawg_builder.go:178-193 `expandHashTable`. -/
def expandHashTable (db : Builder) : Go Builder :=
  expandLoop (db.basePool.length - 1)
    { db with hashTable := List.replicate (db.hashTable.length <<< 1) 0 }

/-- dawg_builder.go:224-226: allocates `n` transitions, returning the index of the last. -/
def allocateTransitions : Nat → Builder → Nat → Builder × Nat
  | 0, db, t => (db, t)
  | n + 1, db, _ =>
    let (db, t) := db.allocateTransition
    allocateTransitions n db t

/-- dawg_builder.go:227-231: copies the units into the transitions, downwards; returns the final
`transitionIndex`. -/
def storeUnits : List Nat → Builder → Nat → Go (Builder × Nat)
  | [], db, t => .ok (db, t)
  | i :: rest, db, t => do
    let u ← rd db.unitPool i
    let bp ← wr db.basePool t u.base
    let lp ← wr db.labelPool t u.label
    storeUnits rest { db with basePool := bp, labelPool := lp } (t - 1)

/-- dawg_builder.go:238-242: frees the chain. -/
def freeUnits : List Nat → Builder → Builder
  | [], db => db
  | i :: rest, db => freeUnits rest (db.freeUnit i)

/-- dawg_builder.go:202-204. -/
def maybeExpand (db : Builder) : Go Builder :=
  if db.numOfStates ≥ db.hashTable.length - (db.hashTable.length >>> 2) then db.expandHashTable
  else .ok db

/-- dawg_builder.go:206-235: finds or stores the state whose transitions are the chain of
`unfixedIndex`; returns `matchedIndex`. -/
def fixState (db : Builder) (unfixedIndex : Nat) : Go (Builder × Nat) := do
  let ch ← db.unitsFrom unfixedIndex
  let (matched, hashId) ← db.findUnit unfixedIndex
  if matched ≠ 0 then
    let db := { db with numOfMergedTransitions := db.numOfMergedTransitions + ch.length }
    if ← db.flagPool.get matched then return (db, matched)
    let fp ← db.flagPool.set matched true
    return ({ db with numOfMergingStates := db.numOfMergingStates + 1, flagPool := fp }, matched)
  else
    let (db, t) := allocateTransitions ch.length db 0
    let (db, t) ← storeUnits ch db t
    let matched := u32 (t + 1)
    let ht ← wr db.hashTable hashId matched
    return ({ db with hashTable := ht, numOfStates := db.numOfStates + 1 }, matched)

/-- dawg_builder.go:199-244: one iteration of `fixUnits`, after popping `unfixedIndex`. -/
def fixOne (db : Builder) (unfixedIndex : Nat) : Go Builder := do
  let db ← db.maybeExpand
  let (db, matched) ← db.fixState unfixedIndex
  let ch ← db.unitsFrom unfixedIndex
  let db := freeUnits ch db
  match db.unfixedUnits with
  | [] => .error .panic
  | p :: _ => do
    let u ← rd db.unitPool p
    let up ← wr db.unitPool p { u with child := matched }
    return { db with unitPool := up }

/-- dawg_builder.go:197-247 `fixUnits`: every iteration pops one element of `unfixedUnits`, an empty
stack panics. -/
def fixLoop : Nat → Builder → Nat → Go Builder
  | 0, _, _ => .error .hang
  | fuel + 1, db, index =>
    match db.unfixedUnits with
    | [] => .error .panic
    | top :: rest =>
      if top = index then .ok { db with unfixedUnits := rest }
      else do
        let db ← fixOne { db with unfixedUnits := rest } top
        fixLoop fuel db index

/-- dawg_builder.go:197-247 `fixUnits`. -/
def fixUnits (db : Builder) (index : Nat) : Go Builder :=
  fixLoop (db.unfixedUnits.length + 1) db index

/-- dawg_builder.go:249-262 `clear`.  Note `hashTable = []baseType{0}`, of length one. -/
def clear (db : Builder) : Builder :=
  { db with basePool := [], labelPool := [], flagPool := db.flagPool.clear, unitPool := [],
            hashTable := [0], unfixedUnits := [], unusedUnits := [],
            numOfStates := 1, numOfMergedTransitions := 0, numOfMergingStates := 0 }

/-- dawg_builder.go:280-283, 301-304: the label at `keyPos`, 0 at the end. -/
def keyLabel (key : List UInt8) (length : Int) (keyPos : Nat) : Go UInt8 :=
  if (keyPos : Int) < length then rd key keyPos else .ok 0

/-- dawg_builder.go:274-297 "Finds a separate unit".  `n` is the number of iterations left,
`length + 1 - keyPos`.  Result: the builder, and `none` for `return false`, or the final
(`index`, `keyPos`). -/
def descend (key : List UInt8) (length : Int) :
    Nat → Builder → Nat → Nat → Go (Builder × Option (Nat × Nat))
  | 0, db, index, keyPos => .ok (db, some (index, keyPos))
  | n + 1, db, index, keyPos => do
    let u ← rd db.unitPool index
    let c := u.child
    if c = 0 then return (db, some (index, keyPos))
    let kl ← keyLabel key length keyPos
    let cu ← rd db.unitPool c
    if kl < cu.label then return (db, none)
    if kl > cu.label then
      let up ← wr db.unitPool c { cu with hasSibling := true }
      let db ← fixUnits { db with unitPool := up } c
      return (db, some (index, keyPos))
    descend key length n db c (keyPos + 1)

/-- dawg_builder.go:300-317 "Adds new units"; `n` = `length + 1 - keyPos` iterations.  Returns the
final `index`. -/
def addUnits (key : List UInt8) (length : Int) :
    Nat → Builder → Nat → Nat → Go (Builder × Nat)
  | 0, db, index, _ => .ok (db, index)
  | n + 1, db, index, keyPos => do
    let kl ← keyLabel key length keyPos
    let (db, c) ← db.allocateUnit
    let u ← rd db.unitPool index
    let cu ← rd db.unitPool c
    let up ← wr db.unitPool c
      { cu with isState := (if u.child = 0 then true else cu.isState), sibling := u.child, label := kl }
    let u ← rd up index
    let up ← wr up index { u with child := c }
    addUnits key length n { db with unitPool := up, unfixedUnits := c :: db.unfixedUnits } c (keyPos + 1)

/-- dawg_builder.go:264-320 `InsertKeyValue`. -/
def insertKeyValue (db : Builder) (key : List UInt8) (length : Int) (value : Int) :
    Go (Builder × Bool) := do
  let db ← if db.hashTable.length = 0 then db.init else .ok db
  match ← descend key length (length + 1).toNat db 0 0 with
  | (db, none) => return (db, false)
  | (db, some (index, keyPos)) =>
    let (db, index) ← addUnits key length (length + 1 - keyPos).toNat db index keyPos
    let u ← rd db.unitPool index
    let up ← wr db.unitPool index { u with child := baseOfValue value }
    return ({ db with unitPool := up }, true)

/-- dawg_builder.go:322-324 `InsertStringValue` (a Go string is its bytes). -/
def insertStringValue (db : Builder) (key : List UInt8) (value : Int) : Go (Builder × Bool) :=
  db.insertKeyValue key key.length value

/-- dawg_builder.go:326-328 `InsertString`. -/
def insertString (db : Builder) (key : List UInt8) : Go (Builder × Bool) :=
  db.insertKeyValue key key.length 0

/-- dawg_builder.go:331-351 `Finish`.  The pools of the receiver and of the argument are swapped, and
the builder then drops what it received; `Model/Finish` has the same function with the argument, which
matters only if its bit pool is nil. -/
def finish (db : Builder) : Go (Builder × Dawg) := do
  let db ← if db.hashTable.length = 0 then db.init else .ok db
  let db ← db.fixUnits 0
  let u ← rd db.unitPool 0
  let bp ← wr db.basePool 0 u.base
  let lp ← wr db.labelPool 0 u.label
  let db := { db with basePool := bp, labelPool := lp }
  let dawg : Dawg :=
    { basePool := db.basePool, labelPool := db.labelPool, flagPool := db.flagPool,
      numOfStates := db.numOfStates, numOfMergedTransitions := db.numOfMergedTransitions,
      numOfMergedStates := db.numOfMergedStates, numOfMergingStates := db.numOfMergingStates }
  return (db.clear, dawg)

end Builder
end Dawg
