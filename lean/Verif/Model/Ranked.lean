import Verif.Model.Guide
/-! # RankedGuideBuilder and RankedCompleter
(ranked_guide_link.go, ranked_guide_builder.go, ranked_completer.go, ranked_completer_node.go,
ranked_completer_candidate.go, and Go's container/heap) -/
namespace Dawg

/-- ranked_guide_link.go:3-6 `RankedGuideLink`.  Values are non-negative `int32`s, or -1. -/
structure Link where
  label : UInt8
  value : Int
  deriving DecidableEq, Repr

/-- ranked_guide_link.go:8-15 `makeRankedGuideLinkCmp`. -/
def linkCmp (valuesCmp : Int → Int → Bool) (lhs rhs : Link) : Bool :=
  if lhs.value ≠ rhs.value then valuesCmp rhs.value lhs.value
  else lhs.label < rhs.label

/-- The sorting routine `sort.SliceStable` as used at ranked_guide_builder.go:65-67: it gets a
comparator and the slice.  It is a parameter of the model; see `StableSort` for its contract. -/
abbrev Sorter := (Link → Link → Bool) → List Link → List Link

/-- Insertion of `x` into the sorted `l`, from the right end: `x` moves left while it is less than its
left neighbour (`l` is reversed: its head is the left neighbour). -/
def insertFromRight {α : Type} (less : α → α → Bool) (x : α) : List α → List α
  | [] => [x]
  | y :: ys => if less x y then y :: insertFromRight less x ys else x :: y :: ys

/-- Go's `insertionSort_func` (sort/zsortfunc.go), which is what `SliceStable` runs on up to 20 elements;
the list is processed left to right, keeping the sorted part reversed. -/
def insertionSort {α : Type} (less : α → α → Bool) (l : List α) : List α :=
  (l.foldl (fun acc x => insertFromRight less x acc) []).reverse

/-- ranked_guide_builder.go:5-13 `RankedGuideBuilder`, the mutable part.  `links` is a stack whose
top segment belongs to the state being processed; the model passes that segment explicitly (as the
result of `enumerateLinks`) instead of keeping the lower segments, which are never accessed. -/
structure RankedBuilder where
  units : List GuideUnit
  isFixedTable : List UInt8
  deriving DecidableEq, Repr

namespace RankedBuilder

/-- ranked_guide_builder.go:144-146, ranked_completer.go:166-168 `followWithoutCheck`. -/
def followWithoutCheck (dict : Dictionary) (index : Nat) (label : UInt8) : Go Nat := do
  let u ← rd dict.units index
  return index ^^^ dictOffset u ^^^ label.toNat

/-- ranked_guide_builder.go:81-93 `findMaxValue`; `none` = `return false`.  The control state of the
loop is `dictIndex`. -/
def findMaxValue (dict : Dictionary) (us : List GuideUnit) : Nat → Nat → Go (Option Int)
  | 0, _ => .error .hang
  | fuel + 1, dictIndex => do
    let u ← rd us dictIndex
    if u.child ≠ 0 then
      match ← dict.follow u.child dictIndex with
      | none => return none
      | some x => findMaxValue dict us fuel x
    else
      if !(← dict.hasValue dictIndex) then return none
      return some (Int.ofNat (← dict.value dictIndex))

/-- ranked_guide_builder.go:132-138: links the remaining children. -/
def turnLoop (dict : Dictionary) (dictIndex : Nat) : List Link → List GuideUnit → Nat → Go (List GuideUnit)
  | [], us, _ => .ok us
  | k :: ks, us, dictChild => do
    let sib ← followWithoutCheck dict dictIndex k.label
    let us ← GuideBuilder.setSibling us dictChild k.label
    turnLoop dict dictIndex ks us sib

/-- ranked_guide_builder.go:125-141 `turnLinksToUnits`. -/
def turnLinksToUnits (dict : Dictionary) (dictIndex : Nat) (links : List Link) (us : List GuideUnit) :
    Go (List GuideUnit) :=
  match links with
  | [] => .error .panic
  | k :: ks => do
    let us ← GuideBuilder.setChild us dictIndex k.label
    let c ← followWithoutCheck dict dictIndex k.label
    turnLoop dict dictIndex ks us c

/-- ranked_guide_builder.go:96-122 `enumerateLinks`, given the recursive call (`buildIndices`, which
returns the child's `maxValue`); returns the links of the children in order, `none` for false. -/
def enumerateLinks (dawg : Dawg) (dict : Dictionary)
    (rec : RankedBuilder → Nat → Nat → Go (RankedBuilder × Option Int)) (dictIndex : Nat) :
    List Nat → RankedBuilder → Go (RankedBuilder × Option (List Link))
  | [], rb => .ok (rb, some [])
  | c :: rest, rb => do
    let l ← dawg.label c
    let (rb, v) ←
      if l = 0 then do
        if !(← dict.hasValue dictIndex) then pure (rb, none)
        else pure (rb, some (Int.ofNat (← dict.value dictIndex)))
      else
        match ← dict.follow l dictIndex with
        | none => pure (rb, none)
        | some x => rec rb c x
    match v with
    | none => return (rb, none)
    | some v =>
      let (rb, ks) ← enumerateLinks dawg dict rec dictIndex rest rb
      return (rb, ks.map ({ label := l, value := v } :: ·))

/-- ranked_guide_builder.go:51-78 `buildIndices`: `none` for false, otherwise `*maxValue`. -/
def buildIndices (sorter : Sorter) (dawg : Dawg) (dict : Dictionary) (valuesCmp : Int → Int → Bool) :
    Nat → RankedBuilder → Nat → Nat → Go (RankedBuilder × Option Int)
  | 0, _, _, _ => .error .hang
  | fuel + 1, rb, dawgIndex, dictIndex => do
    if ← GuideBuilder.isFixed rb.isFixedTable dictIndex then
      return (rb, ← findMaxValue dict rb.units (dict.size + 1) dictIndex)
    let t ← GuideBuilder.setIsFixed rb.isFixedTable dictIndex
    let rb := { rb with isFixedTable := t }
    let kids ← DictBuilder.dawgKids dawg dawgIndex
    let (rb, links) ← enumerateLinks dawg dict
      (fun rb i x => buildIndices sorter dawg dict valuesCmp fuel rb i x) dictIndex kids rb
    match links with
    | none => return (rb, none)
    | some links =>
      let links := sorter (linkCmp valuesCmp) links
      let us ← turnLinksToUnits dict dictIndex links rb.units
      let rb := { rb with units := us }
      let first ← rd links 0
      return (rb, some first.value)

/-- ranked_guide_builder.go:32-48 `Build`. -/
def build (sorter : Sorter) (dawg : Dawg) (dict : Dictionary) (valuesCmp : Int → Int → Bool) :
    Go (Option Guide) := do
  let rb : RankedBuilder :=
    { units := List.replicate dict.size ⟨0, 0⟩, isFixedTable := List.replicate (dict.size / 8) 0 }
  if dawg.size ≤ 1 then return some Guide.new
  let (rb, ok) ← buildIndices sorter dawg dict valuesCmp (dawg.size + 1) rb dawg.root dict.root
  return if ok.isSome then some { units := rb.units } else none

end RankedBuilder

/-- ranked_guide_builder.go:15-25 `BuildRankedGuideCmp`. -/
def buildRankedGuideCmp (sorter : Sorter) (dawg : Dawg) (dict : Dictionary) (valuesCmp : Int → Int → Bool) :
    Go (Option Guide) := RankedBuilder.build sorter dawg dict valuesCmp

/-- ranked_guide_builder.go:26-30 `BuildRankedGuide`. -/
def buildRankedGuide (sorter : Sorter) (dawg : Dawg) (dict : Dictionary) : Go (Option Guide) :=
  buildRankedGuideCmp sorter dawg dict (fun lhs rhs => lhs < rhs)

/-- ranked_completer_candidate.go:3-6 `RankedCompleterCandidate`. -/
structure Candidate where
  nodeIndex : Nat
  value : Nat
  deriving DecidableEq, Repr

namespace Heap

/-- ranked_completer_candidate.go:24-29 `Less` on two candidates. -/
def less (a b : Candidate) : Bool :=
  if a.value ≠ b.value then a.value > b.value else a.nodeIndex > b.nodeIndex

/-- `Less(i, j)` with slice bounds checks. -/
def lessAt (q : List Candidate) (i j : Nat) : Go Bool := do
  return less (← rd q i) (← rd q j)

/-- ranked_completer_candidate.go:31-33 `Swap`. -/
def swap (q : List Candidate) (i j : Nat) : Go (List Candidate) := do
  let a ← rd q i
  let b ← rd q j
  let q ← wr q i b
  wr q j a

/-- container/heap `up`: `j` strictly decreases. -/
def up : Nat → List Candidate → Nat → Go (List Candidate)
  | 0, _, _ => .error .hang
  | fuel + 1, q, j => do
    let i := (j - 1) / 2
    if i = j then return q
    if !(← lessAt q j i) then return q
    let q ← swap q i j
    up fuel q i

/-- container/heap `down` on the first `n` elements: `i` strictly increases. -/
def down : Nat → List Candidate → Nat → Nat → Go (List Candidate)
  | 0, _, _, _ => .error .hang
  | fuel + 1, q, i, n => do
    let j1 := 2 * i + 1
    if j1 ≥ n then return q
    let j2 := j1 + 1
    let j ← if j2 < n then do (if ← lessAt q j2 j1 then pure j2 else pure j1) else pure j1
    if !(← lessAt q j i) then return q
    let q ← swap q i j
    down fuel q j n

/-- container/heap `Push` with ranked_completer_candidate.go:35-37. -/
def push (q : List Candidate) (x : Candidate) : Go (List Candidate) :=
  up (q.length + 2) (q ++ [x]) q.length

/-- container/heap `Pop` with ranked_completer_candidate.go:39-46 (the popped element is dropped:
ranked_completer.go:105 ignores it). -/
def pop (q : List Candidate) : Go (List Candidate) :=
  if q.length = 0 then .error .panic else do
    let n := q.length - 1
    let q ← swap q 0 n
    let q ← down (q.length + 1) q 0 n
    return q.take n

end Heap

/-- ranked_completer_node.go:3-9 `RankedCompleterNode`. -/
structure RNode where
  dictIndex : Nat
  prevNodeIndex : Nat
  label : UInt8
  isQueued : Bool
  hasTerminal : Bool
  deriving DecidableEq, Repr

/-- ranked_completer.go:7-18 `RankedCompleter`, the mutable part. -/
structure RankedCompleter where
  path : List UInt8
  prefixLength : Nat
  value : Int
  nodes : List RNode
  nodeQueue : List Nat
  candidateQueue : List Candidate
  deriving DecidableEq, Repr

namespace RankedCompleter

/-- ranked_completer.go:20-27 `NewRankedCompleter`. -/
def new : RankedCompleter :=
  { path := [], prefixLength := 0, value := -1, nodes := [], nodeQueue := [], candidateQueue := [] }

/-- ranked_completer.go:29-31 `Key`. -/
def key (rc : RankedCompleter) : List UInt8 := rc.path
/-- ranked_completer.go:37-39 `Length`. -/
def length (rc : RankedCompleter) : Int := (rc.path.length : Int) - 1

/-- ranked_completer.go:171-179 `createNode`. -/
def createNode (dict : Dictionary) (rc : RankedCompleter) (dictIndex prev : Nat) (label : UInt8) :
    Go (RankedCompleter × Nat) := do
  let ht ← if label ≠ 0 then dict.hasValue dictIndex else pure false
  let nodes := rc.nodes ++ [{ dictIndex := dictIndex, prevNodeIndex := prev, label := label,
                              isQueued := false, hasTerminal := ht }]
  return ({ rc with nodes := nodes }, u32 (nodes.length - 1))

/-- ranked_completer.go:111-118 `enqueueNode`. -/
def enqueueNode (rc : RankedCompleter) (i : Nat) : Go RankedCompleter := do
  let n ← rd rc.nodes i
  if n.isQueued then return rc
  let nodes ← wr rc.nodes i { n with isQueued := true }
  return { rc with nodeQueue := rc.nodeQueue ++ [i], nodes := nodes }

/-- ranked_completer.go:121-126 `enqueueCandidate`. -/
def enqueueCandidate (dict : Dictionary) (rc : RankedCompleter) (i : Nat) : Go RankedCompleter := do
  let n ← rd rc.nodes i
  let u ← rd dict.units n.dictIndex
  let q ← Heap.push rc.candidateQueue { nodeIndex := i, value := dictValue u }
  return { rc with candidateQueue := q }

/-- ranked_completer.go:47-63 `StartStringLen`. -/
def startStringLen (dict : Dictionary) (guide : Guide) (rc : RankedCompleter) (index : Nat) (pre : List UInt8)
    (length : Int) : Go RankedCompleter := do
  if length < 0 then .error .panic
  let p ← Completer.takeLen pre length
  let rc := { rc with path := p, prefixLength := length.toNat, value := -1 }
  let rc := { rc with nodes := rc.nodes.take 0, nodeQueue := rc.nodeQueue.take 0, candidateQueue := rc.candidateQueue.take 0 }
  if guide.size ≠ 0 then
    let (rc, _) ← createNode dict rc index 0 88
    enqueueNode rc 0
  else return rc

/-- ranked_completer.go:41-43 `Start`. -/
def start (dict : Dictionary) (guide : Guide) (rc : RankedCompleter) (index : Nat) : Go RankedCompleter :=
  startStringLen dict guide rc index [] 0
/-- ranked_completer.go:44-46 `StartString`. -/
def startString (dict : Dictionary) (guide : Guide) (rc : RankedCompleter) (index : Nat) (pre : List UInt8) : Go RankedCompleter :=
  startStringLen dict guide rc index pre pre.length

/-- ranked_completer.go:129-147 `findSibling`: `none` for false, otherwise the new `*nodeIndex`. -/
def findSibling (dict : Dictionary) (guide : Guide) (rc : RankedCompleter) (i : Nat) :
    Go (RankedCompleter × Option Nat) := do
  let n ← rd rc.nodes i
  let sl ← guide.sibling n.dictIndex
  let p ← rd rc.nodes n.prevNodeIndex
  if sl = 0 ∧ !p.hasTerminal then return (rc, none)
  let rc ← if sl = 0 then do
      let nodes ← wr rc.nodes n.prevNodeIndex { p with hasTerminal := false }
      pure { rc with nodes := nodes }
    else pure rc
  let x ← RankedBuilder.followWithoutCheck dict p.dictIndex sl
  let (rc, j) ← createNode dict rc x n.prevNodeIndex sl
  return (rc, some j)

/-- ranked_completer.go:150-163 `findTerminal`.  The control state of the loop is (`dictIndex`,
`label`) of the current node. -/
def findTerminalLoop (dict : Dictionary) (guide : Guide) : Nat → RankedCompleter → Nat → Go (RankedCompleter × Nat)
  | 0, _, _ => .error .hang
  | fuel + 1, rc, i => do
    let n ← rd rc.nodes i
    if n.label = 0 then return (rc, i)
    let cl ← guide.child n.dictIndex
    let rc ← if cl = 0 then do
        let nodes ← wr rc.nodes i { n with hasTerminal := false }
        pure { rc with nodes := nodes }
      else pure rc
    let x ← RankedBuilder.followWithoutCheck dict n.dictIndex cl
    let (rc, j) ← createNode dict rc x i cl
    findTerminalLoop dict guide fuel rc j

/-- ranked_completer.go:150-163 `findTerminal`. -/
def findTerminal (dict : Dictionary) (guide : Guide) (rc : RankedCompleter) (i : Nat) :
    Go (RankedCompleter × Nat) :=
  findTerminalLoop dict guide (2 * dict.size + 2) rc i

/-- ranked_completer.go:74-81: turns the queued nodes into candidates (`nodeQueue` itself is not
extended by the loop body). -/
def drainQueue (dict : Dictionary) (guide : Guide) : List Nat → RankedCompleter → Go RankedCompleter
  | [], rc => .ok rc
  | i :: rest, rc => do
    let (rc, j) ← if rc.value ≠ -1 then findSibling dict guide rc i else pure (rc, some i)
    match j with
    | none => drainQueue dict guide rest rc
    | some j =>
      let (rc, t) ← findTerminal dict guide rc j
      let rc ← enqueueCandidate dict rc t
      drainQueue dict guide rest rc

/-- ranked_completer.go:96-100: walks up from the candidate; `labels` are appended to the path. -/
def walkUp : Nat → RankedCompleter → Nat → Go RankedCompleter
  | 0, _, _ => .error .hang
  | fuel + 1, rc, i =>
    if i = 0 then .ok rc else do
      let n ← rd rc.nodes i
      let rc ← enqueueNode { rc with path := rc.path ++ [n.label] } i
      walkUp fuel rc n.prevNodeIndex

/-- ranked_completer.go:73-108 `Next`. -/
def next (dict : Dictionary) (guide : Guide) (rc : RankedCompleter) : Go (RankedCompleter × Bool) := do
  let rc ← drainQueue dict guide rc.nodeQueue rc
  let rc := { rc with nodeQueue := [] }
  match rc.candidateQueue with
  | [] => return (rc, false)
  | cand :: _ =>
    let rc ← enqueueNode rc cand.nodeIndex
    let n ← rd rc.nodes cand.nodeIndex
    if rc.path.length < rc.prefixLength then .error .panic
    let rc := { rc with path := rc.path.take rc.prefixLength }
    let rc ← walkUp (rc.nodes.length + 1) rc n.prevNodeIndex
    let path := rc.path.take rc.prefixLength ++ (rc.path.drop rc.prefixLength).reverse ++ [0]
    let q ← Heap.pop rc.candidateQueue
    return ({ rc with path := path, value := Int.ofNat cand.value, candidateQueue := q }, true)

end RankedCompleter
end Dawg
