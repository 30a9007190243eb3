import Verif.Proof.Dict.Witness
/-! # The dictionary of a key with a NUL byte, computed by the kernel -/
namespace Dawg.Witness
open Dawg.Spec Dawg.Client

/-- The key "a\0b" with value 5. -/
def histN : List (Key × Int) := [([97, 0, 98], 5)]
def dictN : Dictionary := block 1 [(0, 98304), (1, 3425), (2, 2147483650)]

/-- The Dawg of the key. -/
def partN : Go (Bool × Nat × Nat × Dictionary × Nat) := do
  let (_, _, d) ← Client.build 1 histN
  part 0 d

set_option maxRecDepth 100000 in
theorem partN_eq : partN = .ok (true, 0, 256, dictN, 253) := by decide +kernel

theorem runN : run histN = .ok (some (dictN, 253)) := by
  have h := partN_eq
  unfold partN at h
  unfold run
  cases hb : Client.build 1 histN with
  | error e => rw [hb] at h; cases h
  | ok x =>
    obtain ⟨oks, b, d⟩ := x
    rw [hb] at h
    exact built_of_part first_eq h

end Dawg.Witness
