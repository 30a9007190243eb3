import Verif.Model.Base
/-! # BitPool and LinkTable (bit_pool.go, link_table.go) -/
namespace Dawg

/-- bit_pool.go:5-8 `BitPool` (words are 64-bit). -/
structure BitPool where
  words : List Nat
  size : Nat
  deriving DecidableEq, Repr

namespace BitPool

/-- bit_pool.go:10-15 `NewBitPool`. -/
def new : BitPool := { words := [], size := 0 }

/-- bit_pool.go:17-20 `clear`. -/
def clear (_p : BitPool) : BitPool := { words := [], size := 0 }

/-- bit_pool.go:22-27 `allocate`. -/
def allocate (p : BitPool) : BitPool :=
  { words := if p.size % 64 = 0 then p.words ++ [0] else p.words
    size := p.size + 1 }

/-- bit_pool.go:29-31 `get`. -/
def get (p : BitPool) (index : Nat) : Go Bool := do
  let w ← rd p.words (index >>> 6)
  return (w &&& (1 <<< (index &&& 63))) != 0

/-- bit_pool.go:33-39 `set`; `x &^ y` is `x &&& (y ^^^ (2^64-1))`. -/
def set (p : BitPool) (index : Nat) (bit : Bool) : Go BitPool := do
  let w ← rd p.words (index >>> 6)
  let m := 1 <<< (index &&& 63)
  let w' := if bit then w ||| m else w &&& (m ^^^ 18446744073709551615)
  return { p with words := p.words.set (index >>> 6) w' }

end BitPool

/-- dawg_builder.go:83-91 `intHash`, on 32-bit words. -/
def intHash (key : Nat) : Nat :=
  let key := u32 ((4294967295 ^^^ key) + u32 (key <<< 15))
  let key := key ^^^ (key >>> 12)
  let key := u32 (key + u32 (key <<< 2))
  let key := key ^^^ (key >>> 4)
  let key := u32 (key * 2057)
  let key := key ^^^ (key >>> 16)
  key

/-- link_table.go:3-6 `linkPair`. -/
structure LinkPair where
  index : Nat
  offset : Nat
  deriving DecidableEq, Repr

/-- link_table.go:8-10 `LinkTable`. -/
structure LinkTable where
  hashTable : List LinkPair
  deriving DecidableEq, Repr

namespace LinkTable

/-- link_table.go:12-16 `NewLinkTable`. -/
def new (tableSize : Nat) : LinkTable := { hashTable := List.replicate tableSize ⟨0, 0⟩ }

/-- link_table.go:21-26, the probe loop of `findId`.  The loop only changes `hashId`, which
takes at most `len(hashTable)` values, so exhausting the fuel means looping forever. -/
def findIdLoop (t : List LinkPair) (index : Nat) : Nat → Nat → Go Nat
  | 0, _ => .error .hang
  | fuel + 1, hashId => do
    let p ← rd t hashId
    if p.index = 0 then return hashId
    if index = p.index then return hashId
    let h ← md (u32 (hashId + 1)) (u32 t.length)
    findIdLoop t index fuel h

/-- link_table.go:19-28 `findId`. -/
def findId (lt : LinkTable) (index : Nat) : Go Nat := do
  let h ← md (intHash index) (u32 lt.hashTable.length)
  findIdLoop lt.hashTable index (lt.hashTable.length + 1) h

/-- link_table.go:31-35 `Insert`. -/
def insert (lt : LinkTable) (index offset : Nat) : Go LinkTable := do
  let h ← lt.findId index
  let t ← wr lt.hashTable h ⟨index, offset⟩
  return { hashTable := t }

/-- link_table.go:38-41 `Find`. -/
def find (lt : LinkTable) (index : Nat) : Go Nat := do
  let h ← lt.findId index
  let p ← rd lt.hashTable h
  return p.offset

end LinkTable
end Dawg
