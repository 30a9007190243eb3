import Verif.Model.Pools
/-! # Units and the finished Dawg (base_unit.go, dawg_unit.go, dawg.go) -/
namespace Dawg

/-- base_unit.go:5-7 `BaseUnit.child`. -/
def baseChild (b : Nat) : Nat := b >>> 2
/-- base_unit.go:9-11 `BaseUnit.hasSibling`. -/
def baseHasSibling (b : Nat) : Bool := (b &&& 1) != 0
/-- base_unit.go:13-15 `BaseUnit.isState`. -/
def baseIsState (b : Nat) : Bool := (b &&& 2) != 0
/-- base_unit.go:17-19 `BaseUnit.value`: `int32(b >> 1)`; the shifted word has 31 bits, so the
conversion never yields a negative number. -/
def baseValue (b : Nat) : Nat := b >>> 1

/-- dawg_unit.go:3-9 `DawgUnit`. -/
structure DawgUnit where
  child : Nat
  sibling : Nat
  label : UInt8
  isState : Bool
  hasSibling : Bool
  deriving DecidableEq, Repr

namespace DawgUnit
/-- `DawgUnit{}`; also dawg_unit.go:39-45 `clear`. -/
def empty : DawgUnit := { child := 0, sibling := 0, label := 0, isState := false, hasSibling := false }

/-- dawg_unit.go:31-33 `setValue`. -/
def setValue (u : DawgUnit) (value : Int) : DawgUnit := { u with child := baseOfValue value }
/-- dawg_unit.go:35-37 `value` (unused by the package): the conversion of a `uint32` to `int32`. -/
def value (u : DawgUnit) : Int := if u.child < 2147483648 then u.child else (u.child : Int) - 4294967296

/-- dawg_unit.go:12-29 `base`. -/
def base (u : DawgUnit) : Nat :=
  if u.label = 0 then
    let b := u32 (u.child <<< 1)
    if u.hasSibling then b ||| 1 else b
  else
    let b := u32 (u.child <<< 2)
    let b := if u.isState then b ||| 2 else b
    if u.hasSibling then b ||| 1 else b
end DawgUnit

/-- dawg.go:3-11 `Dawg`. -/
structure Dawg where
  basePool : List Nat
  labelPool : List UInt8
  flagPool : BitPool
  numOfStates : Nat
  numOfMergedTransitions : Nat
  /-- `int` in Go; computed by a subtraction, hence `Int`. -/
  numOfMergedStates : Int
  numOfMergingStates : Nat
  deriving DecidableEq, Repr

namespace Dawg
/-- dawg.go:13-23 `NewDawg`. -/
def new : Dawg :=
  { basePool := [], labelPool := [], flagPool := BitPool.new, numOfStates := 0,
    numOfMergedTransitions := 0, numOfMergedStates := 0, numOfMergingStates := 0 }

/-- dawg.go:26-28 `Root`. -/
def root (_d : Dawg) : Nat := 0
/-- dawg.go:31-33 `Size`. -/
def size (d : Dawg) : Nat := d.basePool.length
/-- dawg.go:56-58 `NumOfTransitions` (`int` subtraction). -/
def numOfTransitions (d : Dawg) : Int := (d.basePool.length : Int) - 1

/-- dawg.go:61-63 `Child`. -/
def child (d : Dawg) (i : Nat) : Go Nat := do return baseChild (← rd d.basePool i)
/-- dawg.go:64-69 `Sibling`. -/
def sibling (d : Dawg) (i : Nat) : Go Nat := do
  return if baseHasSibling (← rd d.basePool i) then u32 (i + 1) else 0
/-- dawg.go:70-72 `Value`. -/
def value (d : Dawg) (i : Nat) : Go Nat := do return baseValue (← rd d.basePool i)
/-- dawg.go:77-79 `Label`. -/
def label (d : Dawg) (i : Nat) : Go UInt8 := rd d.labelPool i
/-- dawg.go:74-76 `IsLeaf`. -/
def isLeaf (d : Dawg) (i : Nat) : Go Bool := do return (← d.label i) == 0
/-- dawg.go:80-82 `IsMerging`. -/
def isMerging (d : Dawg) (i : Nat) : Go Bool := d.flagPool.get i
/-- dawg.go:85-91 `Clear`: two counters are kept. -/
def clear (d : Dawg) : Dawg :=
  { d with basePool := [], labelPool := [], flagPool := d.flagPool.clear,
           numOfStates := 0, numOfMergedStates := 0 }

/-- The indices met by a `for { …; i = dawg.Sibling(i); if i == 0 {break} }` loop started at `i`.
`Sibling(i)` is `i + 1` or `0`, so such a loop ends (or panics) within `Size()` steps.
(Loops of this shape: dictionary_builder.go:116-125, 133-137; guide_builder.go:62-83;
ranked_guide_builder.go:97.) -/
def chain (d : Dawg) : Nat → Nat → Go (List Nat)
  | 0, _ => .error .hang
  | fuel + 1, i => do
    let s ← d.sibling i
    if s = 0 then return [i]
    let rest ← chain d fuel s
    return i :: rest

end Dawg
end Dawg
