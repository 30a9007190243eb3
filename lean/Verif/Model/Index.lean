import Verif.Model.Guide
/-! # Index, IndexBuilder and Indexer (index.go, index_builder.go, indexer.go) -/
namespace Dawg

/-- index.go:12-14 `Index`. -/
structure Index where
  units : List Nat
  deriving DecidableEq, Repr

namespace Index
/-- index.go:16-18 `NewIndex`. -/
def new : Index := { units := [] }
/-- index.go:20-22 `Size`. -/
def size (x : Index) : Nat := x.units.length
/-- index.go:24-26 `TotalSize`. -/
def totalSize (x : Index) : Nat := 4 * x.size
/-- index.go:28-30 `FileSize`. -/
def fileSize (x : Index) : Nat := 4 + x.totalSize
/-- index.go:33-35 `Root`. -/
def root (_x : Index) : Nat := 0
/-- index.go:37-39 `ChildCount`. -/
def childCount (x : Index) (i : Nat) : Go Nat := rd x.units i
/-- index.go:41-43 `TotalCount`. -/
def totalCount (x : Index) : Go Nat := rd x.units 0
end Index

namespace IndexBuilder

/-- `ib.index.units[i] += n` (index_builder.go:32, 46), on 32-bit units. -/
def addTo (us : List Nat) (i n : Nat) : Go (List Nat) := do
  wr us i (u32 ((← rd us i) + n))

/-- index_builder.go:36-48: the loop over the children, given the recursive call.  The control state
is the label `child`, so more than 256 iterations mean looping forever. -/
def loop (dict : Dictionary) (guide : Guide) (rec : List Nat → Nat → Go (List Nat × Bool)) (index : Nat) :
    Nat → List Nat → UInt8 → Go (List Nat × Bool)
  | 0, _, _ => .error .hang
  | fuel + 1, us, child =>
    if child = 0 then .ok (us, true) else do
      match ← dict.follow child index with
      | none => return (us, false)
      | some childIndex =>
        let n ← rd us childIndex
        let (us, ok) ← if n = 0 then rec us childIndex else pure (us, true)
        if !ok then return (us, false)
        let us ← addTo us index (← rd us childIndex)
        let s ← guide.sibling childIndex
        loop dict guide rec index fuel us s

/-- index_builder.go:30-51 `buildIndices`; the fuel bounds the recursion depth. -/
def buildIndices (dict : Dictionary) (guide : Guide) : Nat → List Nat → Nat → Go (List Nat × Bool)
  | 0, _, _ => .error .hang
  | fuel + 1, us, index => do
    let us ← if ← dict.hasValue index then addTo us index 1 else pure us
    let child ← guide.child index
    loop dict guide (fun us i => buildIndices dict guide fuel us i) index 257 us child

/-- index_builder.go:25-28 `Build`. -/
def build (dict : Dictionary) (guide : Guide) : Go (Option Index) := do
  let (us, ok) ← buildIndices dict guide (dict.size + 1) (List.replicate dict.size 0) guide.root
  return if ok then some { units := us } else none

end IndexBuilder

/-- index_builder.go:17-23 `BuildIndex`. -/
def buildIndex (dict : Dictionary) (guide : Guide) : Go (Option Index) := IndexBuilder.build dict guide

namespace Indexer

/-- indexer.go:17 `NotFound`. -/
def notFound : Nat := 4294967295
/-- indexer.go:18 `Failed`. -/
def failed : Nat := 4294967294

/-- indexer.go:20-22 `TotalCount`. -/
def totalCount (idx : Index) : Go Nat := idx.totalCount

/-- indexer.go:41-48: skips the children below `b`.  Result: `none` = `return Failed`, otherwise the
updated `result` and the final `childLabel`.  The control state is the label. -/
def skip (dict : Dictionary) (guide : Guide) (idx : Index) (index : Nat) (b : UInt8) :
    Nat → Nat → UInt8 → Go (Option (Nat × UInt8))
  | 0, _, _ => .error .hang
  | fuel + 1, result, childLabel =>
    if childLabel < b ∧ childLabel ≠ 0 then do
      match ← dict.follow childLabel index with
      | none => return none
      | some childIndex =>
        let result := u32 (result + (← idx.childCount childIndex))
        let s ← guide.sibling childIndex
        skip dict guide idx index b fuel result s
    else .ok (some (result, childLabel))

/-- indexer.go:35-65: the loop over the bytes. -/
def bytesLoop (dict : Dictionary) (guide : Guide) (idx : Index) : List UInt8 → Nat → Nat → Go Nat
  | [], index, result => do
    if !(← dict.hasValue index) then return notFound
    return result
  | b :: bytes, index, result => do
    let result := if ← dict.hasValue index then u32 (result + 1) else result
    match ← skip dict guide idx index b 257 result (← guide.child index) with
    | none => return failed
    | some (result, childLabel) =>
      if childLabel = 0 then return notFound
      match ← dict.follow b index with
      | none => return notFound
      | some childIndex => bytesLoop dict guide idx bytes childIndex result

/-- indexer.go:32-66 `BytesToIndex`; indexer.go:24-26 `StringToIndex` is the same on the bytes. -/
def bytesToIndex (dict : Dictionary) (guide : Guide) (idx : Index) (bytes : List UInt8) : Go Nat :=
  bytesLoop dict guide idx bytes dict.root 0

/-- Outcome of the loop indexer.go:81-95. -/
inductive Pick
  | nil                                           -- `return nil`
  | stop (cur : Nat)                              -- `childLabel` became 0
  | into (cur index : Nat) (label : UInt8)        -- `break` after entering a child

/-- indexer.go:80-95: finds the child whose key range contains `i`. -/
def pick (dict : Dictionary) (guide : Guide) (idx : Index) (i index : Nat) :
    Nat → Nat → UInt8 → Go Pick
  | 0, _, _ => .error .hang
  | fuel + 1, cur, childLabel =>
    if childLabel = 0 then .ok (.stop cur) else do
      match ← dict.follow childLabel index with
      | none => return .nil
      | some childIndex =>
        let count ← idx.childCount childIndex
        if i < u32 (cur + count) then return .into cur childIndex childLabel
        let s ← guide.sibling childIndex
        pick dict guide idx i index fuel (u32 (cur + count)) s

/-- indexer.go:72-102: the outer loop; every iteration but the last descends one level.  (On a
malformed cyclic dictionary the model may report `hang` where Go would still be able to finish.) -/
def selectLoop (dict : Dictionary) (guide : Guide) (idx : Index) (i : Nat) :
    Nat → Nat → Nat → List UInt8 → Go (Option (List UInt8))
  | 0, _, _, _ => .error .hang
  | fuel + 1, index, cur, buf =>
    if cur ≤ i then do
      let hv ← dict.hasValue index
      if hv ∧ cur = i then return some buf
      let cur := if hv then u32 (cur + 1) else cur
      match ← pick dict guide idx i index 257 cur (← guide.child index) with
      | .nil => return none
      | .stop _ => return none
      | .into cur index label => selectLoop dict guide idx i fuel index cur (buf ++ [label])
    else .ok none

/-- indexer.go:68-103 `IndexToBytes`; `none` is `nil`. -/
def indexToBytes (dict : Dictionary) (guide : Guide) (idx : Index) (i : Nat) : Go (Option (List UInt8)) :=
  selectLoop dict guide idx i (dict.size + 1) dict.root 0 []

/-- indexer.go:28-30 `IndexToString`: `string(nil)` is the empty string. -/
def indexToString (dict : Dictionary) (guide : Guide) (idx : Index) (i : Nat) : Go (List UInt8) := do
  return (← indexToBytes dict guide idx i).getD []

end Indexer
end Dawg
