import Verif.Proof.Dict.Witness
/-! # Ranked guides computed by the kernel -/
namespace Dawg.Witness
open Dawg.Spec Dawg.Client

theorem made_of_build {hist : List (Key × Int)} (hadm : Admissible hist) {D num} (h : run hist = .ok (some (D, num))) :
    ∃ oks b d, Client.build 1 hist = .ok (oks, b, d) ∧ Made hist d D := by
  obtain ⟨d, c, r, e1, _⟩ := Dict.dict_spec 1 (by omega) (by omega) hist hadm
  unfold run at h
  rw [e1] at h
  simp only [ok_bind] at h
  exact ⟨_, _, d, e1, hadm, 1, _, _, by omega, by omega, e1, Dict.build_of_unused h⟩

/-- "aa" = 1, "ab" = 3, "b" = 2. -/
def histC : List (Key × Int) := [([97, 97], 1), ([97, 98], 3), ([98], 2)]
def dictC : Dictionary := block 1 [(0, 98304), (1, 102497), (2, 4450), (3, 2147483649), (4, 7521), (5, 2147483651), (6, 2147483650), (7, 2402)]

theorem admC : Admissible histC := ⟨by decide, by decide⟩

set_option maxRecDepth 100000 in
theorem runC : run histC = .ok (some (dictC, 248)) := run_of_start (m := 0) first_eq admC (by decide +kernel)

/-- The list of the values that a ranked completer returns, started at the root, with the guide of the comparator `>`. -/
def rankedC : Go (List Int) := do
  let (_, _, d) ← Client.build 1 histC
  match ← buildRankedGuideCmp insertionSort d dictC (fun lhs rhs => lhs > rhs) with
  | none => .error .hang
  | some gd =>
    let rc ← RankedCompleter.start dictC gd RankedCompleter.new 0
    let (xs, _) ← rlisting dictC gd 4 rc
    return xs.map (·.2.2)

set_option maxRecDepth 100000 in
theorem rankedC_eq : rankedC = .ok [1, 3, 2] := by decide +kernel

/-- "a" = 1, "ab" = 1. -/
def histF : List (Key × Int) := [([97], 1), ([97, 98], 1)]
def dictF : Dictionary := block 1 [(0, 98304), (1, 3425), (2, 2147483649), (3, 2147483649), (96, 101730)]

theorem admF : Admissible histF := ⟨by decide, by decide⟩

set_option maxRecDepth 100000 in
theorem runF : run histF = .ok (some (dictF, 251)) := run_of_start (m := 0) first_eq admF (by decide +kernel)

/-- The total counts with the plain and with the ranked guide. -/
def countsF : Go (Nat × Nat) := do
  let (_, _, d) ← Client.build 1 histF
  match ← buildGuide d dictF, ← buildRankedGuide insertionSort d dictF with
  | some gd, some rg =>
    match ← buildIndex dictF gd, ← buildIndex dictF rg with
    | some idx, some ridx => return (← idx.totalCount, ← ridx.totalCount)
    | _, _ => .error .hang
  | _, _ => .error .hang

set_option maxRecDepth 100000 in
theorem countsF_eq : countsF = .ok (2, 1) := by decide +kernel

end Dawg.Witness
