import Verif.Props.Pipeline
import Verif.Proof.Dict.WitnessLex
import Verif.Model.Output
/-! # The model and the test data of the repository

The repository contains a lexicon (test/lexicon.txt) and the dictionary file that was made from it (test/dictionary.dawg: a dictionary
followed by a guide, `dawgtool -b -t -g`).  The model makes the same file, byte for byte; the kernel has computed it. -/
namespace Dawg.Conformance
open Dawg Dawg.Spec Dawg.Client Dawg.Tool Dawg.Props Dawg.Witness

/-- The lines of test/lexicon.txt. -/
def lines : List (List UInt8) := [
  [97, 9, 49], [97, 110, 9, 48], [97, 110, 100, 9, 50], [97, 112, 112, 101, 97, 114, 9, 49], [97, 112, 112, 108, 101, 9, 49], [98, 105, 110, 9, 50],
  [98, 105, 110, 97, 114, 121, 9, 49], [98, 105, 110, 100, 9, 48], [98, 105, 110, 100, 101, 114, 9, 50], [98, 105, 110, 100, 105, 110, 103, 9, 49],
  [98, 108, 105, 110, 100, 9, 48], [99, 97, 110, 9, 48], [99, 97, 110, 99, 101, 114, 9, 49], [99, 97, 116, 9, 50]
]

/-- The bytes of test/dictionary.dawg. -/
def file : List UInt8 := [
  0, 1, 0, 0, 0, 128, 1, 0, 97, 21, 0, 0, 98, 232, 1, 0, 99, 248, 1, 0, 1, 0, 0, 128, 0, 0, 0, 128, 2, 0, 0, 128, 112, 200, 1, 0, 97, 204, 1, 0, 114,
  13, 0, 0, 1, 0, 0, 128, 101, 5, 0, 0, 110, 5, 0, 0, 2, 0, 0, 128, 114, 224, 1, 0, 121, 21, 0, 0, 101, 228, 1, 0, 105, 204, 1, 0, 0, 0, 0, 128, 114,
  85, 0, 0, 108, 172, 1, 0, 103, 125, 0, 0, 105, 136, 1, 0, 110, 148, 1, 0, 0, 0, 0, 128, 108, 220, 1, 0, 110, 128, 1, 0, 0, 0, 0, 128, 97, 72, 1, 0,
  28, 0, 0, 0, 100, 25, 0, 0, 30, 0, 0, 0, 110, 237, 0, 0, 101, 104, 1, 0, 35, 0, 0, 0, 34, 0, 0, 0, 37, 0, 0, 0, 36, 0, 0, 0, 39, 0, 0, 0, 38, 0, 0,
  0, 41, 0, 0, 0, 40, 0, 0, 0, 43, 0, 0, 0, 42, 0, 0, 0, 45, 0, 0, 0, 44, 0, 0, 0, 47, 0, 0, 0, 46, 0, 0, 0, 49, 0, 0, 0, 48, 0, 0, 0, 51, 0, 0, 0,
  50, 0, 0, 0, 53, 0, 0, 0, 52, 0, 0, 0, 55, 0, 0, 0, 54, 0, 0, 0, 57, 0, 0, 0, 56, 0, 0, 0, 116, 241, 0, 0, 58, 0, 0, 0, 61, 0, 0, 0, 60, 0, 0, 0,
  63, 0, 0, 0, 62, 0, 0, 0, 65, 0, 0, 0, 64, 0, 0, 0, 67, 0, 0, 0, 66, 0, 0, 0, 69, 0, 0, 0, 68, 0, 0, 0, 71, 0, 0, 0, 70, 0, 0, 0, 73, 0, 0, 0, 72,
  0, 0, 0, 75, 0, 0, 0, 74, 0, 0, 0, 77, 0, 0, 0, 76, 0, 0, 0, 79, 0, 0, 0, 78, 0, 0, 0, 81, 0, 0, 0, 80, 0, 0, 0, 83, 0, 0, 0, 82, 0, 0, 0, 85, 0,
  0, 0, 84, 0, 0, 0, 87, 0, 0, 0, 86, 0, 0, 0, 89, 0, 0, 0, 88, 0, 0, 0, 91, 0, 0, 0, 90, 0, 0, 0, 93, 0, 0, 0, 92, 0, 0, 0, 95, 0, 0, 0, 94, 0, 0,
  0, 97, 0, 0, 0, 100, 157, 1, 0, 99, 0, 0, 0, 98, 0, 0, 0, 101, 0, 0, 0, 100, 0, 0, 0, 103, 0, 0, 0, 102, 0, 0, 0, 105, 0, 0, 0, 100, 237, 1, 0,
  110, 189, 1, 0, 106, 0, 0, 0, 97, 64, 0, 0, 108, 0, 0, 0, 111, 0, 0, 0, 110, 0, 0, 0, 113, 0, 0, 0, 112, 0, 0, 0, 115, 0, 0, 0, 114, 0, 0, 0, 112,
  12, 0, 0, 116, 0, 0, 0, 119, 0, 0, 0, 101, 88, 0, 0, 99, 240, 0, 0, 120, 0, 0, 0, 123, 0, 0, 0, 105, 8, 0, 0, 125, 0, 0, 0, 124, 0, 0, 0, 127, 0,
  0, 0, 126, 0, 0, 0, 129, 0, 0, 0, 128, 0, 0, 0, 131, 0, 0, 0, 130, 0, 0, 0, 133, 0, 0, 0, 132, 0, 0, 0, 135, 0, 0, 0, 134, 0, 0, 0, 137, 0, 0, 0,
  136, 0, 0, 0, 139, 0, 0, 0, 138, 0, 0, 0, 141, 0, 0, 0, 140, 0, 0, 0, 143, 0, 0, 0, 142, 0, 0, 0, 145, 0, 0, 0, 144, 0, 0, 0, 147, 0, 0, 0, 146, 0,
  0, 0, 149, 0, 0, 0, 148, 0, 0, 0, 151, 0, 0, 0, 150, 0, 0, 0, 153, 0, 0, 0, 152, 0, 0, 0, 155, 0, 0, 0, 154, 0, 0, 0, 157, 0, 0, 0, 156, 0, 0, 0,
  159, 0, 0, 0, 158, 0, 0, 0, 161, 0, 0, 0, 160, 0, 0, 0, 163, 0, 0, 0, 162, 0, 0, 0, 165, 0, 0, 0, 164, 0, 0, 0, 167, 0, 0, 0, 166, 0, 0, 0, 169, 0,
  0, 0, 168, 0, 0, 0, 171, 0, 0, 0, 170, 0, 0, 0, 173, 0, 0, 0, 172, 0, 0, 0, 175, 0, 0, 0, 174, 0, 0, 0, 177, 0, 0, 0, 176, 0, 0, 0, 179, 0, 0, 0,
  178, 0, 0, 0, 181, 0, 0, 0, 180, 0, 0, 0, 183, 0, 0, 0, 182, 0, 0, 0, 185, 0, 0, 0, 184, 0, 0, 0, 187, 0, 0, 0, 186, 0, 0, 0, 189, 0, 0, 0, 188, 0,
  0, 0, 191, 0, 0, 0, 190, 0, 0, 0, 193, 0, 0, 0, 192, 0, 0, 0, 195, 0, 0, 0, 194, 0, 0, 0, 197, 0, 0, 0, 196, 0, 0, 0, 199, 0, 0, 0, 198, 0, 0, 0,
  201, 0, 0, 0, 200, 0, 0, 0, 203, 0, 0, 0, 202, 0, 0, 0, 205, 0, 0, 0, 204, 0, 0, 0, 207, 0, 0, 0, 206, 0, 0, 0, 209, 0, 0, 0, 208, 0, 0, 0, 211, 0,
  0, 0, 210, 0, 0, 0, 213, 0, 0, 0, 212, 0, 0, 0, 215, 0, 0, 0, 214, 0, 0, 0, 217, 0, 0, 0, 216, 0, 0, 0, 219, 0, 0, 0, 218, 0, 0, 0, 221, 0, 0, 0,
  220, 0, 0, 0, 223, 0, 0, 0, 222, 0, 0, 0, 225, 0, 0, 0, 224, 0, 0, 0, 227, 0, 0, 0, 226, 0, 0, 0, 229, 0, 0, 0, 228, 0, 0, 0, 231, 0, 0, 0, 230, 0,
  0, 0, 233, 0, 0, 0, 232, 0, 0, 0, 235, 0, 0, 0, 234, 0, 0, 0, 237, 0, 0, 0, 236, 0, 0, 0, 239, 0, 0, 0, 238, 0, 0, 0, 241, 0, 0, 0, 240, 0, 0, 0,
  243, 0, 0, 0, 242, 0, 0, 0, 245, 0, 0, 0, 244, 0, 0, 0, 247, 0, 0, 0, 246, 0, 0, 0, 249, 0, 0, 0, 248, 0, 0, 0, 251, 0, 0, 0, 250, 0, 0, 0, 253, 0,
  0, 0, 252, 0, 0, 0, 255, 0, 0, 0, 254, 0, 0, 0, 0, 1, 0, 0, 97, 0, 110, 98, 105, 99, 97, 0, 0, 0, 0, 0, 0, 0, 101, 0, 114, 0, 0, 0, 0, 0, 0, 0, 97,
  0, 0, 0, 121, 0, 0, 0, 97, 108, 110, 108, 0, 0, 0, 0, 105, 0, 0, 0, 110, 0, 103, 0, 0, 0, 101, 0, 100, 0, 0, 0, 110, 0, 0, 0, 0, 0, 0, 0, 99, 116,
  114, 0, 0, 0, 0, 0, 0, 0, 0, 0, 0, 0, 0, 0, 0, 0, 0, 0, 0, 0, 0, 0, 0, 0, 0, 0, 0, 0, 0, 0, 0, 0, 0, 0, 0, 0, 0, 0, 0, 0, 0, 0, 0, 0, 0, 0, 0, 0,
  0, 0, 0, 0, 0, 0, 0, 0, 0, 0, 0, 0, 0, 0, 0, 0, 0, 0, 0, 0, 0, 0, 0, 0, 0, 0, 0, 0, 0, 0, 0, 0, 0, 0, 0, 0, 0, 0, 0, 0, 0, 0, 0, 0, 0, 0, 0, 0, 0,
  0, 0, 0, 0, 0, 0, 0, 0, 0, 0, 0, 0, 0, 0, 0, 0, 0, 0, 0, 0, 0, 0, 0, 0, 0, 0, 0, 0, 0, 0, 0, 0, 0, 0, 0, 0, 0, 0, 0, 0, 0, 0, 0, 0, 0, 0, 0, 101,
  0, 100, 112, 0, 0, 114, 100, 0, 0, 0, 0, 0, 0, 0, 0, 0, 0, 0, 0, 0, 0, 112, 0, 0, 0, 0, 0, 114, 105, 101, 0, 0, 0, 0, 0, 110, 0, 0, 0, 0, 0, 0, 0,
  0, 0, 0, 0, 0, 0, 0, 0, 0, 0, 0, 0, 0, 0, 0, 0, 0, 0, 0, 0, 0, 0, 0, 0, 0, 0, 0, 0, 0, 0, 0, 0, 0, 0, 0, 0, 0, 0, 0, 0, 0, 0, 0, 0, 0, 0, 0, 0, 0,
  0, 0, 0, 0, 0, 0, 0, 0, 0, 0, 0, 0, 0, 0, 0, 0, 0, 0, 0, 0, 0, 0, 0, 0, 0, 0, 0, 0, 0, 0, 0, 0, 0, 0, 0, 0, 0, 0, 0, 0, 0, 0, 0, 0, 0, 0, 0, 0, 0,
  0, 0, 0, 0, 0, 0, 0, 0, 0, 0, 0, 0, 0, 0, 0, 0, 0, 0, 0, 0, 0, 0, 0, 0, 0, 0, 0, 0, 0, 0, 0, 0, 0, 0, 0, 0, 0, 0, 0, 0, 0, 0, 0, 0, 0, 0, 0, 0, 0,
  0, 0, 0, 0, 0, 0, 0, 0, 0, 0, 0, 0, 0, 0, 0, 0, 0, 0, 0, 0, 0, 0, 0, 0, 0, 0, 0, 0, 0, 0, 0, 0, 0, 0, 0, 0, 0, 0, 0, 0, 0, 0, 0, 0, 0, 0, 0, 0, 0,
  0, 0, 0, 0, 0, 0, 0, 0, 0, 0, 0, 0, 0, 0, 0, 0, 0, 0, 0, 0, 0, 0, 0, 0, 0, 0, 0, 0, 0, 0, 0, 0, 0, 0, 0, 0, 0, 0, 0, 0, 0, 0, 0, 0, 0, 0, 0, 0, 0,
  0, 0, 0, 0, 0, 0, 0, 0, 0, 0, 0, 0, 0
]

set_option maxRecDepth 100000 in
theorem file_eq : dictL.write ++ guideL.write = file := by decide +kernel

theorem lines_eq : (lines.filter (fun l => l.length ≠ 0)).map (fun l => (fun p => (keyBytes false p.1, p.2)) <$> parseLine true l) = histL.map Except.ok := by decide +kernel

set_option maxRecDepth 100000 in
theorem verdicts_eq : ∀ ok ∈ verdicts [] histL, ok = true := by decide +kernel

/-- `dawgtool -b -t -g` on test/lexicon.txt makes test/dictionary.dawg, whatever sorting routines are used. -/
theorem lexicon_gives_file (sorter : LineSorter) (grow : Nat → Nat) (linkSorter : Sorter) (hp : StableSort linkSorter) :
    ∃ d, buildDawg sorter grow { tab := true, guide := true } lines = .ok d ∧ buildFile linkSorter { tab := true, guide := true } d = .ok file := by
  obtain ⟨d0, h0, h0u⟩ := made_of_run admL runL
  obtain ⟨oks, b, b', d, e1, e2⟩ := C08_table_size_unobservable 1 256 (by omega) (by omega) (by omega) (by omega) histL admL
  have hmade : Made histL d dictL ∧ d.buildWithUnused = .ok (some (dictL, 215)) := by
    have h := runL
    unfold Witness.run at h
    rw [e1] at h
    exact ⟨⟨admL, 1, _, _, by omega, by omega, e1, Dict.build_of_unused h⟩, h⟩
  obtain ⟨b2, d2, e3⟩ := C07_build_returns 256 (by omega) (by omega) _ admL
  rw [e3] at e2
  cases e2
  refine ⟨d, ?_, ?_⟩
  · unfold Client.build at e3
    obtain ⟨⟨b1, oks⟩, h1, h2⟩ := bind_eq_ok.1 e3
    obtain ⟨⟨b2, d2⟩, h3, h4⟩ := bind_eq_ok.1 h2
    simp only [pure_eq_ok, Except.ok.injEq, Prod.mk.injEq] at h4
    obtain ⟨rfl, rfl, rfl⟩ := h4
    have hpl := processLines_ok (o := { tab := true, guide := true }) (lines := lines) (b := Builder.newWithSize 256) lines_eq h1 verdicts_eq
    unfold buildDawg
    show (processLines { tab := true, guide := true } lines (Builder.newWithSize 256) >>= _) = _
    rw [hpl]
    show (lift b1.finish >>= _) = _
    rw [h3]
    rfl
  · have hg : buildGuide d dictL = .ok (some guideL) := by
      have := guidesL_eq
      unfold guidesL at this
      rw [e1] at this
      exact this
    obtain ⟨rg, hr, _⟩ := C27_ranked_guide (sorter := linkSorter) hmade.1 hp.perm (fun lhs rhs => lhs < rhs)
    rw [buildFile_eq _ hmade.2 hr hg]
    exact congrArg Except.ok file_eq

/-- The strings of utfc_test.go, `testStrings` (those with at most 45 characters) and `testZeroStrings`, as code points. -/
def utfcStrings : List (List Nat) :=
  [[97, 98, 97, 99, 97, 98, 97],
  [1057, 1083, 1086, 1074, 1072, 1088, 1100],
  [1090, 1077, 1089, 1090, 45, 52, 50],
  [119, 111, 114, 100, 45, 1060, 1067],
  [65, 122, 601, 114, 98, 97, 121, 99, 97, 110, 99, 97],
  [268, 101, 353, 116, 105, 110, 97],
  [1506, 1489, 1512, 1497, 1514],
  [26085, 26412, 35486],
  [1178, 1072, 1079, 1072, 1179, 1096, 1072],
  [1054, 1073, 39, 1108, 1076, 1085, 1072, 1085, 1080, 1093],
  [1072, 32, 1073, 32, 1074, 32, 1075, 32, 1076, 32, 1077, 32, 1105],
  [1072, 44, 1073, 44, 1074, 44, 1075, 44, 1076, 44, 1077, 44, 1105],
  [20013, 97, 98, 25991, 48, 49, 25991],
  [23041, 23572, 22763, 19977],
  [34920, 38754, 12363],
  [38754, 12395, 12399, 49, 48],
  [84, 105, 7871, 110, 103, 32, 86, 105, 7879, 116],
  [1575, 1604, 1571, 1582, 1576, 1575, 1585],
  [110, 97, 105, 776, 118, 101, 32, 114, 101, 768, 115, 117, 109, 101, 769],
  [1808, 1824, 1830, 32, 1810, 1821, 1836, 32, 1827, 1816, 1834, 1821, 1821, 1808],
  [2488, 2494, 2433, 2451, 2468, 2494, 2482, 2495, 32, 2476, 2494, 2434, 2482, 2494, 32, 2488, 2478, 2486, 2476, 2509, 2470, 32, 2437, 2477, 2495, 2471, 2494, 2472],
  [3119, 3149, 3106, 3119, 3149, 3107, 9, 3119, 3149, 3108, 3119, 3149, 3109, 3119, 3149, 3110, 9, 3119, 3149, 3111, 3119, 3149, 3112, 9, 3119, 3149, 3114],
  [4316, 4323, 4321, 4334, 4323, 4320, 4312],
  [4773, 4657, 32, 4770, 4725, 4846, 4917, 4843, 4810, 32, 4752, 4813],
  [8352, 8353, 9, 8354, 9, 8355, 9, 49, 48, 8356, 9, 8357, 9, 8358, 9, 8359, 9, 8360, 9, 8361, 9, 8362],
  [6190, 6176, 6194, 6176, 6189, 6176, 6199, 32, 6192, 6178, 6191, 6186, 6178],
  [127988, 8205, 9760, 65039, 127468, 127479, 10084, 65039, 128293],
  [0],
  [187],
  [1099, 0],
  [268, 0],
  [34081, 0],
  [131072],
  [141312],
  [141328],
  [142552, 141568],
  [142552, 141312],
  [142552, 141328],
  [4096],
  [4160, 4096],
  [8309],
  [128495],
  [128496]]

/-- What TestUtfc and TestUtfcZeros expect: the strings survive, and no encoding contains a NUL byte. -/
theorem utfc_tests : ∀ t ∈ utfcStrings, Utfc.decode (Utfc.encode (t.map Char.ofNat)) = .ok (t.map Char.ofNat) ∧ (0 : UInt8) ∉ Utfc.encode (t.map Char.ofNat) := by
  decide +kernel

/-- The keys of TestSimple in dawg_test.go, with the value 0 of `InsertString`. -/
def simpleKeys : List (Key × Int) := [ascii "apple", ascii "appliance", ascii "applied", ascii "apply", ascii "banana", ascii "changed", ascii "cherry", ascii "durian", ascii "mandarin",
  ascii "murdered", ascii "office"].map (fun k => (k, 0))

/-- TestSimple: all keys are accepted, and `ContainsString` is right for the ten strings. -/
theorem simple_test : ∃ oks b d D, Client.build 256 simpleKeys = .ok (oks, b, d) ∧ d.build = .ok (some D) ∧ oks = List.replicate 11 true ∧
    (∀ q ∈ [ascii "apple", ascii "cherry", ascii "durian", ascii "mandarin", ascii "applied", ascii "murdered", ascii "changed", ascii "appliance"], D.containsString q = .ok true) ∧
    D.containsString (ascii "green") = .ok false ∧ D.containsString (ascii "change") = .ok false := by
  obtain ⟨d, D, hm, oks, b, hb⟩ := C14_small_builds 256 (by omega) (by omega) simpleKeys (by decide +kernel) (by decide +kernel)
  obtain ⟨b', d', e3⟩ := C07_build_returns 256 (by omega) (by omega) _ hm.1
  rw [hb] at e3
  simp only [Except.ok.injEq, Prod.mk.injEq] at e3
  obtain ⟨hoks, rfl, rfl⟩ := e3
  have hm' := hm
  obtain ⟨_, n, oks', b', h1, h2, h3, h4⟩ := hm'
  refine ⟨oks, b, d, D, hb, h4, hoks.trans (by decide +kernel), ?_, ?_, ?_⟩
  · intro q hq
    have : ∃ e ∈ accepted simpleKeys, e.1 = q := by
      revert q
      decide +kernel
    obtain ⟨e, he, rfl⟩ := this
    exact (C10_inserted_found hm e he).1
  · exact (C11_nothing_else_partial hm (noClash_of_values (by decide +kernel) (by decide +kernel)) (by decide +kernel)).1
  · exact (C11_nothing_else_partial hm (noClash_of_values (by decide +kernel) (by decide +kernel)) (by decide +kernel)).1

/-- The Dawg of TestZeros in dawg_test.go (both keys are two NUL bytes: the length is 2). -/
def zerosDawg : Go (List Bool × Dawg) := do
  let b := Builder.newWithSize 256
  let (b, ok1) ← b.insertKeyValue [0, 0] 2 0
  let (b, ok2) ← b.insertKeyValue [0, 0, 0, 0, 0] 2 0
  let (_, d) ← b.finish
  return ([ok1, ok2], d)

/-- Its dictionary. -/
def zerosDict : Dictionary := Witness.block 2 [(0, 1280), (1, 2147483650)]

/-- The part of `Build` that is computed. -/
def zerosPart : Go (List Bool × Bool × Nat × Nat × Dictionary × Nat) := do
  let (oks, d) ← zerosDawg
  return (oks, ← Witness.part 0 d)

set_option maxRecDepth 100000 in
theorem zerosPart_eq : zerosPart = .ok ([true, true], true, 0, 256, zerosDict, 254) := by decide +kernel

/-- TestZeros: both insertions succeed, but none of the five strings of NUL bytes is found; the empty string is. -/
theorem zeros_test : ∃ d, zerosDawg = .ok ([true, true], d) ∧ d.build = .ok (some zerosDict) ∧
    [1, 2, 3, 5, 6, 0].mapM (fun n => zerosDict.containsString (List.replicate n 0)) = .ok [false, false, false, false, false, true] := by
  have h := zerosPart_eq
  unfold zerosPart at h
  cases hb : zerosDawg with
  | error e => rw [hb] at h; cases h
  | ok x =>
    obtain ⟨oks, d⟩ := x
    rw [hb] at h
    simp only [ok_bind] at h
    cases hp : Witness.part 0 d with
    | error e => rw [hp] at h; cases h
    | ok y =>
      rw [hp] at h
      simp only [ok_bind, pure_eq_ok, Except.ok.injEq, Prod.mk.injEq] at h
      obtain ⟨rfl, rfl⟩ := h
      exact ⟨d, rfl, Dict.build_of_unused (Witness.built_of_part Witness.first_eq hp), by decide +kernel⟩

end Dawg.Conformance
