import Verif.Model.DawgBuilder
/-! # The abstract builder

The concrete builder (unit pool with free list, hash table with linear probing, bit pool) is shown to
refine this purely functional one, whose state holds the finished groups of transitions and the open
path of the last key. -/
namespace Dawg.Abs

/-- What the pools hold for one transition: label and base word. -/
abbrev Pair := UInt8 × Nat

/-- The transitions of one finished state, in pool order (ascending labels). -/
abbrev Group := List Pair

/-- A transition whose target is finished: `child` is the target's index, or the raw value word
if the label is 0. -/
structure Edge where
  label : UInt8
  child : Nat
  deriving DecidableEq, Repr

/-- A state on the path of the last key: the label of the transition that is still open, and the
finished transitions, in descending order. -/
structure Frame where
  closed : List Edge
  label : UInt8
  deriving DecidableEq, Repr

/-- The finished part of the automaton. -/
structure Core where
  groups : List Group
  merged : Nat
  marked : List Nat
  deriving DecidableEq, Repr

/-- Builder state: frames deepest first, and the value word of the last key. -/
structure St where
  core : Core
  frames : List Frame
  val : Nat
  deriving DecidableEq, Repr

/-- The base word of a transition. -/
def baseOf (label : UInt8) (child : Nat) (isState hasSibling : Bool) : Nat :=
  DawgUnit.base { child := child, sibling := 0, label := label, isState := isState, hasSibling := hasSibling }

/-- Finished transitions of a state, in descending order. -/
def encClosed : List Edge → List Pair
  | [] => []
  | e :: es => (e.label, baseOf e.label e.child (es == []) true) :: encClosed es

/-- The group of a state whose last transition is `(label, child)`. -/
def encNode (label : UInt8) (child : Nat) (closed : List Edge) : Group :=
  ((label, baseOf label child (closed == []) false) :: encClosed closed).reverse

/-- The start index of group `g`, the first group starting at `s`. -/
def findStart (g : Group) : Nat → List Group → Option Nat
  | _, [] => none
  | s, g' :: gs => if g' = g then some s else findStart g (s + g'.length) gs

/-- Length of the pools. -/
def poolLen (gs : List Group) : Nat := 1 + gs.flatten.length

/-- Finding or adding a group. -/
def Core.put (c : Core) (g : Group) : Core × Nat :=
  match findStart g 1 c.groups with
  | some i => ({ c with merged := c.merged + g.length,
                        marked := if i ∈ c.marked then c.marked else i :: c.marked }, i)
  | none => ({ c with groups := c.groups ++ [g] }, poolLen c.groups)

/-- Finishing the states of the frames, deepest first; `child` is the target of the deepest one. -/
def closeFrames : List Frame → Nat → Core → Core × Nat
  | [], child, c => (c, child)
  | f :: fs, child, c =>
    let r := c.put (encNode f.label child f.closed)
    closeFrames fs r.2 r.1

/-- New frames for the rest of a key. -/
def pushAll : List UInt8 → List Frame → List Frame
  | [], fs => fs
  | k :: ks, fs => pushAll ks (⟨[], k⟩ :: fs)

/-- Walking down the open path (`down`: rest of the path, shallowest first; `up`: the part already walked,
deepest first) along the labels of a key.  `none`: out of order. -/
def walk (c : Core) (val : Nat) : List UInt8 → List Frame → List Frame → Option (Core × List Frame)
  | [], _, up => some (c, up)
  | k :: ks, [], up => some (c, pushAll (k :: ks) up)
  | k :: ks, f :: down, up =>
    if k < f.label then none
    else if f.label < k then
      let r := closeFrames down.reverse val c
      some (r.1, pushAll ks (⟨⟨f.label, r.2⟩ :: f.closed, k⟩ :: up))
    else walk c val ks down (f :: up)

/-- Insertion of a key given as labels (the key followed by 0). -/
def St.insert (s : St) (labels : List UInt8) (v : Nat) : St × Bool :=
  match walk s.core s.val labels s.frames.reverse [] with
  | none => (s, false)
  | some (c, fs) => ({ core := c, frames := fs, val := v }, true)

/-- The initial state. -/
def St.init : St := { core := { groups := [], merged := 0, marked := [] }, frames := [], val := 0 }

/-- Finishing all frames: the finished core and the child of the root. -/
def St.finish (s : St) : Core × Nat := closeFrames s.frames s.val s.core

end Dawg.Abs
