import Verif.Proof.Dict.Witness
/-! # A dictionary with two keys, computed by the kernel -/
namespace Dawg.Witness
open Dawg.Spec Dawg.Client

/-- "a" with value 354 = 256 + 98 and "i" with value 256. -/
def histB : List (Key × Int) := [([97], 354), ([105], 256)]
def dictB : Dictionary := block 1 [(0, 98304), (1, 3425), (2, 2147484002), (3, 2147483904), (9, 10601)]

theorem admB : Admissible histB := ⟨by decide, by decide⟩

set_option maxRecDepth 100000 in
theorem runB : run histB = .ok (some (dictB, 251)) := run_of_start (m := 0) first_eq admB (by decide +kernel)

end Dawg.Witness
