import Verif.Model.Base
/-! # UTF-C (utfc.go)

A Go string is represented by the runes that `for _, ch := range str` yields: a list of Unicode
scalar values, which is what Lean's `Char` is.  Code points are `Nat`s. -/
namespace Dawg
namespace Utfc

/-- utfc.go:20-24 `UtfcState`. -/
structure State where
  offs : Nat
  auxOffs : Nat
  is21Bit : Bool
  deriving DecidableEq, Repr

/-- utfc.go:27. -/
def maxLatinCp : Nat := 0x02FF
/-- utfc.go:30. -/
def min21BitCp : Nat := 0x2600
/-- utfc.go:33. -/
def offsMask13Bit : Nat := 0xFFFFFF80
/-- utfc.go:34. -/
def offsMask21Bit : Nat := 0xFFFF8000
/-- utfc.go:36. -/
def markerAux : Nat := 0xc0
/-- utfc.go:37. -/
def marker13Bit : Nat := 0x80
/-- utfc.go:38. -/
def marker21Bit : Nat := 0xa0
/-- utfc.go:39. -/
def markerExtra : Nat := 0xb0
/-- utfc.go:41. -/
def marker0 : Nat := 0b10111011
/-- utfc.go:42. -/
def marker00 : Nat := 0b10111100
/-- utfc.go:43. -/
def marker10 : Nat := 0b10111110
/-- utfc.go:44. -/
def marker01 : Nat := 0b10111101
/-- utfc.go:45. -/
def marker11 : Nat := 0b10111111
/-- utfc.go:48. -/
def offsInitAux : Nat := 0x0410

/-- utfc.go:53-76 `auxOffset`. -/
def auxOffset : List (Nat × Nat) := [
  (0x0080, 0x00C0), (0x0380, 0x0391), (0x0400, 0x0410), (0x0580, 0x05BE), (0x0530, 0x0531),
  (0x0600, 0x060B), (0x0900, 0x090D), (0x0980, 0x098F), (0x0A00, 0x0A02), (0x0A80, 0x0A8F),
  (0x0B00, 0x0B0F), (0x0B80, 0x0B8E), (0x0C80, 0x0C8E), (0x0D00, 0x0D0E), (0x0D80, 0x0D9B),
  (0x0E00, 0x0E01), (0x0E80, 0x0E81), (0x0F00, 0x0F40), (0x0F80, 0x0F90), (0x1080, 0x10B0),
  (0x3000, 0x3040)]

/-- utfc.go:81-84 `rangesLatin`. -/
def rangesLatin : List (Nat × Nat) := [(0x41, 0x5B), (0x61, 0x7B), (0x30, 0x3A), (0x20, 0x21), (0x2D, 0x2E)]
/-- utfc.go:85-87 `rangesExtra` (with `rangeHK`, utfc.go:79, inlined). -/
def rangesExtra : List (Nat × Nat) := [(0x2000, 0x2600), (0x3000, 0x3100), (0xFE00, 0xFE10), (0x1F300, 0x1F5F0)]
/-- utfc.go:194, 339: membership in `rangeHK` (utfc.go:79). -/
def inHK (cp : Nat) : Bool := 0x3000 ≤ cp ∧ cp < 0x3100

/-- utfc.go:89-96 `inRanges`. -/
def inRanges (cp : Nat) : List (Nat × Nat) → Bool
  | [] => false
  | r :: rs => if r.1 ≤ cp ∧ cp < r.2 then true else inRanges cp rs

/-- utfc.go:98-107 `encodeRanges`; `none` is -1 (never reached: all calls are guarded by
`inRanges`). -/
def encodeRanges (cp v : Nat) : List (Nat × Nat) → Option Nat
  | [] => none
  | r :: rs => if r.1 ≤ cp ∧ cp < r.2 then some (v + (cp - r.1)) else encodeRanges cp (v + (r.2 - r.1)) rs

/-- utfc.go:109-117 `decodeRanges`; `none` is -1. -/
def decodeRanges (v : Nat) : List (Nat × Nat) → Option Nat
  | [] => none
  | r :: rs => if v < r.2 - r.1 then some (r.1 + v) else decodeRanges (v - (r.2 - r.1)) rs

/-- utfc.go:119-124 `getAuxOffset`. -/
def getAuxOffset (offs : Nat) : Nat := ((auxOffset.find? (fun p => p.1 == offs)).map (·.2)).getD offs

/-- utfc.go:132-138 `NewUtfcState`. -/
def State.init : State := { offs := 0, auxOffs := offsInitAux, is21Bit := false }

/-- utfc.go:140-144 `Clear`: the receiver afterwards. -/
def State.clear (st : State) : State := { st with offs := 0, auxOffs := offsInitAux, is21Bit := false }

/-- utfc.go:146-150 `Copy`: the receiver afterwards. -/
def State.copy (st src : State) : State := { st with offs := src.offs, auxOffs := src.auxOffs, is21Bit := src.is21Bit }

/-- Go's `byte(x)`. -/
def byte (n : Nat) : UInt8 := UInt8.ofNat n

/-- utfc.go:152-285 `Follow`, the part independent of the follower: the bytes offered to it in turn,
and the state afterwards (all assignments to `st` come after the last offered byte of their branch,
so they take effect only when every byte was accepted, see `follow`). -/
def encodeChar (st : State) (cp : Nat) : List UInt8 × State :=
  if st.auxOffs = 0 ∧ inRanges cp rangesLatin then
    ([byte (markerAux ||| (encodeRanges cp 0 rangesLatin).getD 0)], st)
  else if st.auxOffs ≠ 0 ∧ cp ≥ st.auxOffs ∧ cp ≤ st.auxOffs + 0x3F then
    ([byte (markerAux ||| (cp - st.auxOffs))], st)
  else if inRanges cp rangesExtra then
    let newOffs := cp &&& offsMask13Bit
    if !st.is21Bit ∧ newOffs = st.offs then
      let lo := byte (cp &&& 0x7F)
      if lo = 0 then ([byte marker0], st) else ([lo], st)
    else
      let extra := (encodeRanges cp 0 rangesExtra).getD 0
      let lo := byte extra
      let bs := if lo = 0 then [byte marker10, byte (markerExtra ||| (1 + (extra >>> 8)))]
        else [byte (markerExtra ||| (1 + (extra >>> 8))), lo]
      if inHK cp then (bs, { offs := newOffs, auxOffs := getAuxOffset st.offs, is21Bit := false })
      else (bs, st)
  else if cp ≥ min21BitCp then
    let cp := cp - min21BitCp
    let newOffs := cp &&& offsMask21Bit
    if st.is21Bit ∧ newOffs = st.offs then
      let hi := byte ((cp >>> 8) &&& 0x7F)
      let lo := byte cp
      let bs := if hi = 0 ∧ lo = 0 then [byte marker0]
        else if hi = 0 then [byte marker00, lo]
        else if lo = 0 then [byte marker10, hi]
        else [hi, lo]
      (bs, st)
    else
      let hi := byte (cp >>> 8)
      let lo := byte cp
      let top := byte (marker21Bit ||| (cp >>> 16))
      let bs := if hi = 0 ∧ lo = 0 then [byte marker11, top]
        else if hi = 0 then [byte marker10, top, lo]
        else if lo = 0 then [byte marker01, top, hi]
        else [top, hi, lo]
      (bs, { offs := newOffs, auxOffs := st.offs, is21Bit := true })
  else
    let newOffs := cp &&& offsMask13Bit
    if !st.is21Bit ∧ newOffs = st.offs then
      let lo := byte (cp &&& 0x7F)
      if lo = 0 then ([byte marker0], st) else ([lo], st)
    else
      let lo := byte (cp &&& 0xFF)
      let top := byte (marker13Bit ||| (cp >>> 8))
      let bs := if lo = 0 then [byte marker10, top] else [top, lo]
      (bs, { offs := if cp ≤ maxLatinCp then 0 else newOffs, auxOffs := getAuxOffset st.offs, is21Bit := false })

/-- The chains `!f.Follow(b1) || !f.Follow(b2) || …`: offers bytes until one is refused.  A follower
(utfc.go:3-5 `UtfcFollower`) is a state with a step function. -/
def feed {σ : Type} (f : σ → UInt8 → σ × Bool) (s : σ) : List UInt8 → σ × Bool
  | [] => (s, true)
  | b :: bs =>
    match f s b with
    | (s, true) => feed f s bs
    | (s, false) => (s, false)

/-- utfc.go:152-285 `Follow`. -/
def follow {σ : Type} (f : σ → UInt8 → σ × Bool) (st : State) (ch : Char) (s : σ) : State × σ × Bool :=
  let (bs, st') := encodeChar st ch.toNat
  match feed f s bs with
  | (s, true) => (st', s, true)
  | (s, false) => (st, s, false)

/-- utfc.go:291-299: the loop of `UtfcFollow`. -/
def followLoop {σ : Type} (f : σ → UInt8 → σ × Bool) : State → List Char → σ → σ × Bool
  | _, [], s => (s, true)
  | st, ch :: str, s =>
    match follow f st ch s with
    | (st, s, true) => followLoop f st str s
    | (_, s, false) => (s, false)

/-- utfc.go:291-299 `UtfcFollow`.  `sharedState` (utfc.go:127) is cleared first, so its old contents do not
matter (`State.clear` is `State.init` whatever the state was). -/
def utfcFollow {σ : Type} (f : σ → UInt8 → σ × Bool) (str : List Char) (s : σ) : σ × Bool :=
  followLoop f State.init str s

/-- utfc.go:11-14 `byteBuffer.Follow`, as a value. -/
def bufferFollow (buf : List UInt8) (b : UInt8) : List UInt8 × Bool := (buf ++ [b], true)

/-- utfc.go:302-306 `UtfcEncode`: the contents of the returned slice at the time of the return.
See `Verif.Model.UtfcMem` for the aliasing of the shared buffer. -/
def encode (str : List Char) : List UInt8 := (utfcFollow bufferFollow str []).1

/-- `string(rune(cp))` (utfc.go:384): values that are not code points give U+FFFD. -/
def runeOf : Option Nat → Char
  | none => Char.ofNat 0xFFFD
  | some n => if n.isValidChar then Char.ofNat n else Char.ofNat 0xFFFD

/-- `buf[i]; i++`. -/
def take1 : List UInt8 → Go (Nat × List UInt8)
  | [] => .error .panic
  | b :: bs => .ok (b.toNat, bs)

/-- `x := 0; if c { x = int(buf[i]); i++ }`. -/
def takeIf (c : Bool) (buf : List UInt8) : Go (Nat × List UInt8) :=
  if c then take1 buf else .ok (0, buf)

/-- utfc.go:316-384: one iteration of the decoding loop on the non-empty rest of the buffer. -/
def decodeChar (st : State) (buf : List UInt8) : Go (Char × State × List UInt8) := do
  let (b, _) ← take1 buf
  let isZm := decide (b ≥ marker0 ∧ b ≤ marker11)
  let (zm, buf) ← takeIf isZm buf
  let (cp, buf) ← takeIf (zm ≠ marker0 ∧ zm ≠ marker00) buf
  if cp &&& markerAux = markerAux then
    let cp := if st.auxOffs = 0 then decodeRanges (cp ^^^ markerAux) rangesLatin
      else some (st.auxOffs + (cp ^^^ markerAux))
    return (runeOf cp, st, buf)
  else if cp &&& markerExtra = markerExtra ∧ cp ^^^ markerExtra ≠ 0 then
    let (lo, buf) ← takeIf (zm ≠ marker10) buf
    let cp := decodeRanges ((((cp ^^^ markerExtra) - 1) <<< 8) ||| lo) rangesExtra
    let st := match cp with
      | some c => if inHK c then
          { offs := c &&& offsMask13Bit, auxOffs := getAuxOffset st.offs, is21Bit := false } else st
      | none => st
    return (runeOf cp, st, buf)
  else if cp &&& marker21Bit = marker21Bit then
    let (hi, buf) ← takeIf (zm ≠ marker10 ∧ zm ≠ marker11) buf
    let (lo, buf) ← takeIf (zm ≠ marker01 ∧ zm ≠ marker11) buf
    let cp := (((cp ^^^ marker21Bit) <<< 16) ||| (hi <<< 8)) ||| lo
    return (runeOf (some (cp + min21BitCp)),
      { offs := cp &&& offsMask21Bit, auxOffs := st.offs, is21Bit := true }, buf)
  else if cp &&& marker13Bit = marker13Bit then
    let (hi, buf) ← takeIf (zm ≠ marker10) buf
    let cp := ((cp ^^^ marker13Bit) <<< 8) ||| hi
    return (runeOf (some cp),
      { offs := if cp ≤ maxLatinCp then 0 else cp &&& offsMask13Bit,
        auxOffs := getAuxOffset st.offs, is21Bit := false }, buf)
  else if st.is21Bit then
    let (hi, buf) ← takeIf (zm ≠ marker10) buf
    return (runeOf (some (min21BitCp + ((st.offs ||| (cp <<< 8)) ||| hi))), st, buf)
  else
    return (runeOf (some (st.offs ||| cp)), st, buf)

/-- utfc.go:309-387 `UtfcDecode`: the loop; every iteration consumes a byte. -/
def decodeLoop : Nat → State → List UInt8 → Go (List Char)
  | _, _, [] => .ok []
  | 0, _, _ => .error .hang
  | fuel + 1, st, buf => do
    let (c, st, buf) ← decodeChar st buf
    let cs ← decodeLoop fuel st buf
    return c :: cs

/-- utfc.go:309-387 `UtfcDecode`. -/
def decode (buf : List UInt8) : Go (List Char) := decodeLoop buf.length State.init buf

end Utfc
end Dawg
