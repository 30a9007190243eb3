import Verif.Model.Index
/-! # Reading and writing files (dictionary.go, guide.go, ranked_guide.go, index.go)

A reader is the list of bytes still to come, a writer the list of bytes written so far; other I/O
errors are not modelled.  `encoding/binary` with `LittleEndian` on `uint32`s and on structs of two
bytes is the fixed-size little-endian coding; `binary.Read` uses `io.ReadFull`. -/
namespace Dawg

/-- `binary.LittleEndian.PutUint32`. -/
def putU32 (n : Nat) : List UInt8 :=
  [UInt8.ofNat n, UInt8.ofNat (n / 256), UInt8.ofNat (n / 65536), UInt8.ofNat (n / 16777216)]

/-- `binary.LittleEndian.Uint32`. -/
def getU32 (a b c d : UInt8) : Nat :=
  a.toNat + 256 * b.toNat + 65536 * c.toNat + 16777216 * d.toNat

/-- `io.ReadFull(r, buf)` with `len(buf) = n`: `none` (error) when fewer bytes are left; the bytes
that are left are consumed nevertheless. -/
def readFull (n : Nat) (r : List UInt8) : Option (List UInt8) × List UInt8 :=
  if n ≤ r.length then (some (r.take n), r.drop n) else (none, [])

/-- Decoding of a byte buffer into 32-bit units. -/
def unitsOfBytes : List UInt8 → List Nat
  | a :: b :: c :: d :: rest => getU32 a b c d :: unitsOfBytes rest
  | _ => []

/-- Decoding of a byte buffer into two-byte structs. -/
def guideUnitsOfBytes : List UInt8 → List GuideUnit
  | a :: b :: rest => { child := a, sibling := b } :: guideUnitsOfBytes rest
  | _ => []

/-- Encoding of 32-bit units. -/
def bytesOfUnits (us : List Nat) : List UInt8 := us.flatMap putU32
/-- Encoding of guide units. -/
def bytesOfGuideUnits (us : List GuideUnit) : List UInt8 := us.flatMap (fun u => [u.child, u.sibling])

/-- The common shape of the `Read` methods (dictionary.go:58-74, guide.go:69-86,
ranked_guide.go:55-72): the size, then `size` units of `k` bytes.  Result: the units (or failure) and
the rest of the stream. -/
def readUnits {α : Type} (k : Nat) (dec : List UInt8 → List α) (r : List UInt8) :
    Option (List α) × List UInt8 :=
  match readFull 4 r with
  | (some [a, b, c, d], r) =>
    match readFull (k * getU32 a b c d) r with
    | (some buf, r) => (some (dec buf), r)
    | (none, r) => (none, r)
  | (_, r) => (none, r)

namespace Dictionary
/-- dictionary.go:77-90 `Write`. -/
def write (d : Dictionary) : List UInt8 := putU32 (u32 d.size) ++ bytesOfUnits d.units
/-- dictionary.go:58-74 `Read`: the receiver afterwards, the result and the rest of the stream. -/
def read (d : Dictionary) (r : List UInt8) : Dictionary × Bool × List UInt8 :=
  match readUnits 4 unitsOfBytes r with
  | (some us, r) => ({ units := us }, true, r)
  | (none, r) => (d, false, r)
/-- dictionary.go:49-55 `ReadDictionary`; `none` is `nil`. -/
def readNew (r : List UInt8) : Option Dictionary × List UInt8 :=
  match read new r with
  | (d, true, r) => (some d, r)
  | (_, false, r) => (none, r)
end Dictionary

namespace Guide
/-- guide.go:89-102 and ranked_guide.go:75-88 `Write`. -/
def write (g : Guide) : List UInt8 := putU32 (u32 g.size) ++ bytesOfGuideUnits g.units
/-- guide.go:69-86 and ranked_guide.go:55-72 `Read`. -/
def read (g : Guide) (r : List UInt8) : Guide × Bool × List UInt8 :=
  match readUnits 2 guideUnitsOfBytes r with
  | (some us, r) => ({ units := us }, true, r)
  | (none, r) => (g, false, r)
/-- guide.go:60-66 `ReadGuide`, ranked_guide.go:46-52 `ReadRankedGuide`. -/
def readNew (r : List UInt8) : Option Guide × List UInt8 :=
  match read new r with
  | (d, true, r) => (some d, r)
  | (_, false, r) => (none, r)
end Guide

namespace Index
/-- index.go:71-84 `Write`. -/
def write (x : Index) : List UInt8 := putU32 (u32 x.size) ++ bytesOfUnits x.units
/-- index.go:54-68 `Read`.  Unlike the other readers it assigns `index.units` (line 62) before the
units are read, so a failure leaves zeroed units behind.  (`binary.Read` decodes only after the whole
buffer was read.) -/
def read (x : Index) (r : List UInt8) : Index × Bool × List UInt8 :=
  match readFull 4 r with
  | (some [a, b, c, d], r) =>
    let size := getU32 a b c d
    match readFull (4 * size) r with
    | (some buf, r) => ({ units := unitsOfBytes buf }, true, r)
    | (none, r) => ({ units := List.replicate size 0 }, false, r)
  | (_, r) => (x, false, r)
/-- index.go:45-51 `ReadIndex`. -/
def readNew (r : List UInt8) : Option Index × List UInt8 :=
  match read new r with
  | (d, true, r) => (some d, r)
  | (_, false, r) => (none, r)
end Index

end Dawg
