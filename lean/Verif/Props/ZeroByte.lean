import Verif.Props.Lexicon
/-! # C58: keys with NUL bytes -/
namespace Dawg.Props
open Dawg Dawg.Spec Dawg.Client Dawg.Abs Dawg.Dict Dawg.Guided Dawg.Tool
attribute [-simp] List.length_flatten

/-- The claim of **C58**: insertions and `Finish` return, whatever bytes the keys have. -/
def C58_statement : Prop := ∀ n, 1 ≤ n → n < 2 ^ 32 → ∀ hist : List (Key × Int), (hist.map (fun e => e.1.length + 1)).sum < 1073741824 → ∃ r, Client.build n hist = .ok r

/-- **C58 is false**: after "a" with the value 574, the insertion of "a\0b" takes the value for the index of a unit and panics.  (The C++ library that this code
follows rejects keys with NUL bytes.) -/
theorem C58_nul_panics_false : ¬ C58_statement ∧ ∃ b oks, insertAll (Builder.newWithSize 256) [([97], 574)] = .ok (b, oks) ∧ b.insertStringValue [97, 0, 98] 1 = .error .panic := by
  have h2 : (insertAll (Builder.newWithSize 256) [([97], 574)] >>= fun r => r.1.insertStringValue [97, 0, 98] 1) = .error .panic := by decide +kernel
  have h3 : (insertAll (Builder.newWithSize 256) [([97], 574)]).isOk = true := by decide +kernel
  have h4 : (Client.build 256 [([97], 574), ([97, 0, 98], 1)]).isOk = false := by decide +kernel
  refine ⟨fun h => ?_, ?_⟩
  · obtain ⟨r, hr⟩ := h 256 (by omega) (by omega) [([97], 574), ([97, 0, 98], 1)] (by decide)
    rw [hr] at h4
    cases h4
  · cases hi : insertAll (Builder.newWithSize 256) [([97], 574)] with
    | error e => rw [hi] at h3; cases h3
    | ok r =>
      refine ⟨r.1, r.2, rfl, ?_⟩
      rw [hi] at h2
      exact h2

/-- **C58**, for keys without NUL bytes. -/
theorem C58_nul_free_partial (n : Nat) (h1 : 1 ≤ n) (h2 : n < 2 ^ 32) (hist : List (Key × Int)) (hnul : ∀ e ∈ hist, (0 : UInt8) ∉ e.1)
    (hsz : (hist.map (fun e => e.1.length + 1)).sum < 1073741824) : ∃ r, Client.build n hist = .ok r :=
  let ⟨b, d, h⟩ := C07_build_returns n h1 h2 hist ⟨hnul, hsz⟩
  ⟨_, h⟩

example : ∃ r, Client.build 4 [([97], 574), ([97, 98], 1), ([97], 2)] = .ok r := C58_nul_free_partial 4 (by omega) (by omega) _ (by decide) (by decide)

/-- The same with dawgtool: the lexicon "a\t574", "a\0b\t1" makes `dawgtool -b -t` panic. -/
theorem C54_nul_panics (sorter : LineSorter) (grow : Nat → Nat) :
    buildDawg sorter grow { tab := true } [[97, 9, 53, 55, 52], [97, 0, 98, 9, 49]] = .error (.fault .panic) := by
  have h : processLines { tab := true } [[97, 9, 53, 55, 52], [97, 0, 98, 9, 49]] Builder.new = .error (.fault .panic) := by decide +kernel
  unfold buildDawg orderLines
  rw [if_neg (by decide), h]
  rfl

end Dawg.Props
