/-!
# Faults, slices and machine words

Conventions shared by the whole model of `deNULL/dawg`.
-/
namespace Dawg

/-- The two ways a Go call can fail to return: a run-time panic (index out of range,
integer division by zero, …) or non-termination. -/
inductive Fault
  | panic
  | hang
  deriving DecidableEq, Repr

/-- Result of a Go call. -/
abbrev Go (α : Type) := Except Fault α

deriving instance DecidableEq for Except

/-- Truncation to `uint32` (`baseType`, base_types.go:14-15). -/
def u32 (n : Nat) : Nat := n % 4294967296

/-- `baseType(v)` for an `int32` `v` (base_types.go:9-15): two's complement. -/
def baseOfValue (v : Int) : Nat := (v % 4294967296).toNat

/-- Checked slice read `l[i]`. -/
def rd {α : Type} (l : List α) (i : Nat) : Go α :=
  match l[i]? with
  | some a => .ok a
  | none => .error .panic

/-- Checked slice write `l[i] = a`. -/
def wr {α : Type} (l : List α) (i : Nat) (a : α) : Go (List α) :=
  if i < l.length then .ok (l.set i a) else .error .panic

/-- `x % n` with Go's division-by-zero panic. -/
def md (x n : Nat) : Go Nat :=
  if n = 0 then .error .panic else .ok (x % n)

end Dawg
