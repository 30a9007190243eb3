import Verif.Model.Base
/-! # Dictionary units and look-ups (dictionary_unit.go, dictionary_extra_unit.go, dictionary.go) -/
namespace Dawg

/-- dictionary_unit.go:3 `offsetMax`. -/
def offsetMax : Nat := 2097152
/-- dictionary_unit.go:4 `isLeafBit`. -/
def isLeafBit : Nat := 2147483648
/-- dictionary_unit.go:5 `hasLeafBit`. -/
def hasLeafBit : Nat := 256
/-- dictionary_unit.go:6 `extensionBit`. -/
def extensionBit : Nat := 512

/-- dictionary_unit.go:13-15 `dictSetHasLeaf`. -/
def dictSetHasLeaf (base : Nat) : Nat := base ||| hasLeafBit
/-- dictionary_unit.go:18-20 `dictSetValue` (the old unit is overwritten).  The argument is
`Dawg.Value`, a non-negative `int32`. -/
def dictSetValue (value : Nat) : Nat := u32 value ||| isLeafBit
/-- dictionary_unit.go:23-25 `dictSetLabel`; `x &^ 0xff` is `x &&& 0xffffff00`. -/
def dictSetLabel (base : Nat) (label : UInt8) : Nat := (base &&& 4294967040) ||| label.toNat
/-- dictionary_unit.go:28-40 `dictSetOffset`; `none` = `return false` (unit untouched). -/
def dictSetOffset (base offset : Nat) : Option Nat :=
  if offset ≥ u32 (offsetMax <<< 8) then none
  else
    let b := base &&& (isLeafBit ||| hasLeafBit ||| 255)
    if offset < offsetMax then some (b ||| u32 (offset <<< 10))
    else some (b ||| (u32 (offset <<< 2) ||| extensionBit))
/-- dictionary_unit.go:43-45 `dictHasLeaf`. -/
def dictHasLeaf (base : Nat) : Bool := (base &&& hasLeafBit) != 0
/-- dictionary_unit.go:48-50 `dictValue`; the result is a non-negative `int32`. -/
def dictValue (base : Nat) : Nat := base &&& 2147483647
/-- dictionary_unit.go:53-55 `dictLabel`.  The conversion to `uint8` drops the leaf bit. -/
def dictLabel (base : Nat) : UInt8 := UInt8.ofNat (base &&& (isLeafBit ||| 255))
/-- dictionary_unit.go:58-60 `dictOffset`. -/
def dictOffset (base : Nat) : Nat := u32 ((base >>> 10) <<< ((base &&& extensionBit) >>> 6))
/-- dictionary_unit.go:62-64 `dictHasExtBit` (unused by the package). -/
def dictHasExtBit (base : Nat) : Bool := (base &&& extensionBit) != 0
/-- dictionary_unit.go:66-68 `dictIsLeaf` (unused by the package). -/
def dictIsLeaf (base : Nat) : Bool := (base &&& isLeafBit) != 0

/-- dictionary.go:8-11 `Dictionary`.  The field `size` always equals `len(units)` (it is only set by
`setUnits`, dictionary.go:17-20) and is not modelled separately. -/
structure Dictionary where
  units : List Nat
  deriving DecidableEq, Repr

namespace Dictionary

/-- dictionary.go:13-15 `NewDictionary`. -/
def new : Dictionary := { units := [] }
/-- dictionary.go:22-24 `Size`. -/
def size (d : Dictionary) : Nat := d.units.length
/-- dictionary.go:26-28 `TotalSize`, dictionary_unit.go:10. -/
def totalSize (d : Dictionary) : Nat := 4 * d.size
/-- dictionary.go:30-32 `FileSize`. -/
def fileSize (d : Dictionary) : Nat := 4 + d.totalSize
/-- dictionary.go:35-37 `Root`. -/
def root (_d : Dictionary) : Nat := 0

/-- dictionary.go:40-42 `HasValue`. -/
def hasValue (d : Dictionary) (index : Nat) : Go Bool := do
  return dictHasLeaf (← rd d.units index)

/-- dictionary.go:45-47 `Value`. -/
def value (d : Dictionary) (index : Nat) : Go Nat := do
  let u ← rd d.units index
  return dictValue (← rd d.units (index ^^^ dictOffset u))

/-- dictionary.go:147-154 `Follow`: `some next` when it returns true, `none` (index untouched)
when it returns false. -/
def follow (d : Dictionary) (label : UInt8) (index : Nat) : Go (Option Nat) := do
  let u ← rd d.units index
  let next := index ^^^ dictOffset u ^^^ label.toNat
  let nu ← rd d.units next
  return if dictLabel nu ≠ label then none else some next

/-- dictionary.go:157-173 `FollowString` / `FollowStringCount`: result, final `*index`, and the
number of increments of `*count`. -/
def followString (d : Dictionary) : List UInt8 → Nat → Go (Bool × Nat × Nat)
  | [], index => .ok (true, index, 0)
  | c :: key, index => do
    match ← d.follow c index with
    | none => return (false, index, 0)
    | some next =>
      let (ok, i, n) ← followString d key next
      return (ok, i, n + 1)

/-- dictionary.go:176-192 `FollowStringLen` / `FollowStringLenCount`: `n` iterations left, at
position `pos`. -/
def followLenLoop (d : Dictionary) (key : List UInt8) : Nat → Nat → Nat → Go (Bool × Nat × Nat)
  | 0, _, index => .ok (true, index, 0)
  | n + 1, pos, index => do
    let c ← rd key pos
    match ← d.follow c index with
    | none => return (false, index, 0)
    | some next =>
      let (ok, i, k) ← followLenLoop d key n (pos + 1) next
      return (ok, i, k + 1)

/-- dictionary.go:176-192 `FollowStringLen` / `FollowStringLenCount`. -/
def followStringLen (d : Dictionary) (key : List UInt8) (length : Int) (index : Nat) :
    Go (Bool × Nat × Nat) :=
  followLenLoop d key length.toNat 0 index

/-- dictionary.go:93-99 `ContainsString`. -/
def containsString (d : Dictionary) (key : List UInt8) : Go Bool := do
  let (ok, index, _) ← d.followString key d.root
  if !ok then return false
  d.hasValue index

/-- dictionary.go:100-106 `ContainsStringLen`. -/
def containsStringLen (d : Dictionary) (key : List UInt8) (length : Int) : Go Bool := do
  let (ok, index, _) ← d.followStringLen key length d.root
  if !ok then return false
  d.hasValue index

/-- dictionary.go:109-118 `FindString`. -/
def findString (d : Dictionary) (key : List UInt8) : Go Int := do
  let (ok, index, _) ← d.followString key d.root
  if !ok then return -1
  if ← d.hasValue index then return Int.ofNat (← d.value index)
  return -1

/-- dictionary.go:119-128 `FindStringLen`. -/
def findStringLen (d : Dictionary) (key : List UInt8) (length : Int) : Go Int := do
  let (ok, index, _) ← d.followStringLen key length d.root
  if !ok then return -1
  if ← d.hasValue index then return Int.ofNat (← d.value index)
  return -1

/-- dictionary.go:129-136 `FindStringValue`: the result and the final `*value`, given the initial one. -/
def findStringValue (d : Dictionary) (key : List UInt8) (value : Int) : Go (Bool × Int) := do
  let (ok, index, _) ← d.followString key d.root
  if !ok then return (false, value)
  if !(← d.hasValue index) then return (false, value)
  return (true, Int.ofNat (← d.value index))

/-- dictionary.go:137-144 `FindStringLenValue`. -/
def findStringLenValue (d : Dictionary) (key : List UInt8) (length : Int) (value : Int) :
    Go (Bool × Int) := do
  let (ok, index, _) ← d.followStringLen key length d.root
  if !ok then return (false, value)
  if !(← d.hasValue index) then return (false, value)
  return (true, Int.ofNat (← d.value index))

end Dictionary

/-- dictionary_extra_unit.go:3-6 `DictionaryExtraUnit`. -/
structure ExtraUnit where
  loValues : Nat
  hiValues : Nat
  deriving DecidableEq, Repr

namespace ExtraUnit
/-- `DictionaryExtraUnit{}`; dictionary_extra_unit.go:8-11 `clear`. -/
def empty : ExtraUnit := ⟨0, 0⟩
/-- dictionary_extra_unit.go:14-16 `setIsFixed`. -/
def setIsFixed (e : ExtraUnit) : ExtraUnit := { e with loValues := e.loValues ||| 1 }
/-- dictionary_extra_unit.go:19-21 `setNext`. -/
def setNext (e : ExtraUnit) (next : Nat) : ExtraUnit :=
  { e with loValues := (e.loValues &&& 1) ||| u32 (next <<< 1) }
/-- dictionary_extra_unit.go:24-26 `setIsUsed`. -/
def setIsUsed (e : ExtraUnit) : ExtraUnit := { e with hiValues := e.hiValues ||| 1 }
/-- dictionary_extra_unit.go:29-31 `setPrev`. -/
def setPrev (e : ExtraUnit) (prev : Nat) : ExtraUnit :=
  { e with hiValues := (e.hiValues &&& 1) ||| u32 (prev <<< 1) }
/-- dictionary_extra_unit.go:34-36 `isFixed`. -/
def isFixed (e : ExtraUnit) : Bool := (e.loValues &&& 1) == 1
/-- dictionary_extra_unit.go:39-41 `next`. -/
def next (e : ExtraUnit) : Nat := e.loValues >>> 1
/-- dictionary_extra_unit.go:44-46 `isUsed`. -/
def isUsed (e : ExtraUnit) : Bool := (e.hiValues &&& 1) == 1
/-- dictionary_extra_unit.go:49-51 `prev`. -/
def prev (e : ExtraUnit) : Nat := e.hiValues >>> 1
end ExtraUnit

end Dawg
