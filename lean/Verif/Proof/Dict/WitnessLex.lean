import Verif.Proof.Dict.WitnessCmp
/-! # The test data of the repository, computed by the kernel

test/lexicon.txt, and the dictionary and guide stored in test/dictionary.dawg. -/
namespace Dawg.Witness
open Dawg.Spec Dawg.Client

/-- The keys and values of test/lexicon.txt. -/
def histL : List (Key × Int) := [
  ([97], 1), ([97, 110], 0), ([97, 110, 100], 2), ([97, 112, 112, 101, 97, 114], 1), ([97, 112, 112, 108, 101], 1), ([98, 105, 110], 2),
  ([98, 105, 110, 97, 114, 121], 1), ([98, 105, 110, 100], 0), ([98, 105, 110, 100, 101, 114], 2), ([98, 105, 110, 100, 105, 110, 103], 1),
  ([98, 108, 105, 110, 100], 0), ([99, 97, 110], 0), ([99, 97, 110, 99, 101, 114], 1), ([99, 97, 116], 2)]

/-- The units in test/dictionary.dawg, bytes 4 to 1027. -/
def dictL : Dictionary := block 1 [
  (0, 98304), (1, 5473), (2, 125026), (3, 129123), (4, 2147483649), (5, 2147483648), (6, 2147483650), (7, 116848), (8, 117857), (9, 3442),
  (10, 2147483649), (11, 1381), (12, 1390), (13, 2147483650), (14, 122994), (15, 5497), (16, 124005), (17, 117865), (18, 2147483648), (19, 21874),
  (20, 109676), (21, 32103), (22, 100457), (23, 103534), (24, 2147483648), (25, 121964), (26, 98414), (27, 2147483648), (28, 84065), (30, 6500),
  (32, 60782), (33, 92261), (58, 61812), (97, 105828), (105, 126308), (106, 114030), (108, 16481), (116, 3184), (119, 22629), (120, 61539),
  (123, 2153)]

/-- The units of the guide in test/dictionary.dawg, bytes 1032 to 1543. -/
def guideL : Guide := ⟨(List.range 256).map fun u => ((List.lookup u [
  (0, ⟨97, 0⟩), (1, ⟨110, 98⟩), (2, ⟨105, 99⟩), (3, ⟨97, 0⟩), (7, ⟨101, 0⟩), (8, ⟨114, 0⟩), (12, ⟨97, 0⟩), (14, ⟨121, 0⟩), (16, ⟨97, 108⟩),
  (17, ⟨110, 108⟩), (20, ⟨105, 0⟩), (22, ⟨110, 0⟩), (23, ⟨103, 0⟩), (25, ⟨101, 0⟩), (26, ⟨100, 0⟩), (28, ⟨110, 0⟩), (32, ⟨99, 116⟩), (33, ⟨114, 0⟩),
  (105, ⟨101, 0⟩), (106, ⟨100, 112⟩), (108, ⟨114, 100⟩), (116, ⟨112, 0⟩), (119, ⟨114, 105⟩), (120, ⟨101, 0⟩), (123, ⟨110, 0⟩)] : Option GuideUnit).getD ⟨0, 0⟩)⟩

theorem admL : Admissible histL := ⟨by decide, by decide⟩

set_option maxRecDepth 100000 in
theorem first_eq3 : First (3 + (3 >>> 1)) := by unfold First; decide +kernel

set_option maxRecDepth 100000 in
theorem startL : start 3 histL = .ok (3, 256, dictL, 215) := by decide +kernel

/-- The Dawg of test/lexicon.txt gives the units of test/dictionary.dawg. -/
theorem runL : run histL = .ok (some (dictL, 215)) := run_of_start (m := 3) first_eq3 admL startL

/-- The guide of test/lexicon.txt. -/
def guidesL : Go (Option Guide) := do
  let (_, _, d) ← Client.build 1 histL
  buildGuide d dictL

set_option maxRecDepth 100000 in
theorem guidesL_eq : guidesL = .ok (some guideL) := by decide +kernel

end Dawg.Witness
