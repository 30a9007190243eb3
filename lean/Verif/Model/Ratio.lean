import Verif.Model.Output
/-! # The ratio of unused units (cmd/dawgtool/main.go:141, 144)

`100.0 * float64(numOfUnusedUnits) / float64(dict.Size())`, printed with `%.2f`.  A positive `float64` is a pair `(m, k)` for `m / 2^k`.  The numbers of units are below
2^32 and the unused ones not more than all, so that the factors and the product are exact, the quotient is at most 100 and at least 2^-32 (no overflow, no subnormal
numbers), and only the division rounds.  The number of units is not 0. -/
namespace Dawg
namespace Tool

/-- `a / b` rounded to the nearest integer, halves to the even one. -/
def divRound (a b : Nat) : Nat :=
  if 2 * (a % b) < b ∨ (2 * (a % b) = b ∧ a / b % 2 = 0) then a / b else a / b + 1

/-- The least `k` (from the given one on) for which `a * 2^k / b` has 53 bits. -/
def scale (a b : Nat) : Nat → Nat → Nat
  | 0, k => k
  | fuel + 1, k => if 2 ^ 52 * b ≤ a * 2 ^ k then k else scale a b fuel (k + 1)

/-- The quotient of two `float64`s with the integral values `a` and `b`, below 2^53: 53 bits, rounded to the nearest, halves to even (IEEE 754). -/
def floatDiv (a b : Nat) : Nat × Nat :=
  if a = 0 then (0, 0) else (divRound (a * 2 ^ scale a b 1074 0) b, scale a b 1074 0)

/-- strconv `FormatFloat(x, 'f', 2, 64)`, in hundredths: the exact decimal value, rounded to the nearest, halves to even. -/
def hundredths (x : Nat × Nat) : Nat := divRound (100 * x.1) (2 ^ x.2)

/-- A digit. -/
def digit (n : Nat) : UInt8 := UInt8.ofNat (48 + n)

/-- The verb `%.2f`. -/
def fixed2 (x : Nat × Nat) : List UInt8 :=
  decimal (hundredths x / 100) ++ [46, digit (hundredths x / 10 % 10), digit (hundredths x % 10)]

/-- main.go:141, 144: the text of `unusedRatio`. -/
def ratioText (unused size : Nat) : List UInt8 := fixed2 (floatDiv (100 * unused) size)

end Tool
end Dawg
