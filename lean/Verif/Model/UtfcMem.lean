import Verif.Model.Utfc
/-! # The shared buffer of `UtfcEncode` (utfc.go:127-130, 302-306), with its aliasing

A Go slice is a window of a backing array.  `append` writes into the backing array when there is room
and moves to a larger fresh array otherwise. -/
namespace Dawg
namespace Utfc

/-- The backing arrays allocated so far (the length of a list is the capacity of the array), and the
slice header of `sharedBuffer.buf` (utfc.go:128-130). -/
structure Mem where
  arrays : List (List UInt8)
  cur : Nat
  len : Nat
  deriving DecidableEq, Repr

/-- A slice header returned to a caller. -/
structure Slice where
  arr : Nat
  len : Nat
  deriving DecidableEq, Repr

namespace Mem

/-- utfc.go:128-130: `make([]byte, 0, 1024)`. -/
def init : Mem := { arrays := [List.replicate 1024 0], cur := 0, len := 0 }

/-- The backing array with number `i`. -/
def array (m : Mem) (i : Nat) : List UInt8 := (m.arrays[i]?).getD []

/-- `sharedBuffer.buf = append(sharedBuffer.buf, b)` (utfc.go:12).  `grow` is the capacity chosen by
the Go runtime for a full array; only `grow c > c` matters. -/
def append (grow : Nat → Nat) (m : Mem) (b : UInt8) : Mem :=
  let a := m.array m.cur
  if m.len < a.length then
    { m with arrays := m.arrays.set m.cur (a.set m.len b), len := m.len + 1 }
  else
    { arrays := m.arrays ++ [a.take m.len ++ [b] ++ List.replicate (grow m.len - (m.len + 1)) 0],
      cur := m.arrays.length, len := m.len + 1 }

/-- The bytes a slice shows at this moment. -/
def view (m : Mem) (s : Slice) : List UInt8 := (m.array s.arr).take s.len

/-- utfc.go:302-306 `UtfcEncode`. -/
def utfcEncode (grow : Nat → Nat) (m : Mem) (str : List Char) : Mem × Slice :=
  let m := (utfcFollow (fun m b => (append grow m b, true)) str { m with len := 0 }).1
  (m, { arr := m.cur, len := m.len })

end Mem
end Utfc
end Dawg
