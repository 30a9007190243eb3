import Verif.Model.Ratio
import Verif.Props.Output
/-! # C92: the percentage of unused elements -/
namespace Dawg.Props
open Dawg Dawg.Spec Dawg.Client Dawg.Abs Dawg.Dict Dawg.Guided Dawg.Tool
attribute [-simp] List.length_flatten

theorem divRound_near (a : Nat) {b : Nat} (hb : 0 < b) : 2 * ((a : Int) - divRound a b * b) ≤ b ∧ 2 * ((divRound a b : Int) * b - a) ≤ b := by
  have h1 := Nat.div_add_mod a b
  have h2 := Nat.mod_lt a hb
  have h3 : ((a / b : Nat) : Int) * b + (a % b : Nat) = a := by
    rw [← Int.natCast_mul, ← Int.natCast_add, Nat.mul_comm, h1]
  unfold divRound
  by_cases hc : 2 * (a % b) < b ∨ (2 * (a % b) = b ∧ a / b % 2 = 0)
  · rw [if_pos hc]
    generalize ((a / b : Nat) : Int) * b = x at h3 ⊢
    omega
  · rw [if_neg hc]
    have h4 : ((a / b + 1 : Nat) : Int) * b = ((a / b : Nat) : Int) * b + b := by
      rw [Int.natCast_add, Int.add_mul, Int.natCast_one, Int.one_mul]
    rw [h4]
    generalize ((a / b : Nat) : Int) * b = x at h3 ⊢
    omega

theorem scale_spec (a b : Nat) : ∀ (fuel k : Nat), (∃ j, j ≤ k + fuel ∧ k ≤ j ∧ 2 ^ 52 * b ≤ a * 2 ^ j) → 2 ^ 52 * b ≤ a * 2 ^ scale a b fuel k
  | 0, k, ⟨j, h1, h2, h3⟩ => by
    have : j = k := by omega
    subst this
    exact h3
  | fuel + 1, k, ⟨j, h1, h2, h3⟩ => by
    unfold scale
    by_cases hc : 2 ^ 52 * b ≤ a * 2 ^ k
    · rw [if_pos hc]; exact hc
    · rw [if_neg hc]
      refine scale_spec a b fuel (k + 1) ⟨j, by omega, ?_, h3⟩
      rcases Nat.lt_or_ge k j with h | h
      · exact h
      · have : j = k := by omega
        subst this
        exact absurd h3 hc

/-- Rounding twice gives what rounding once gives, unless the exact value is a half. -/
theorem hundredths_near {u s : Nat} (hs : 0 < s) (hs' : s < 4294967296) (hu : u ≤ s) :
    2 * (10000 * (u : Int) - hundredths (floatDiv (100 * u) s) * s) ≤ s ∧ 2 * (hundredths (floatDiv (100 * u) s) * s - 10000 * (u : Int)) ≤ s := by
  by_cases hu0 : u = 0
  · subst hu0
    have : hundredths (floatDiv (100 * 0) s) = 0 := by
      unfold floatDiv
      rw [if_pos (by omega)]
      decide
    rw [this]
    omega
  unfold floatDiv
  rw [if_neg (by omega)]
  generalize hk : scale (100 * u) s 1074 0 = k
  have h1 : 2 ^ 52 * s ≤ 100 * u * 2 ^ k := by
    rw [← hk]
    refine scale_spec _ _ _ _ ⟨84, by omega, by omega, ?_⟩
    have : (2 : Nat) ^ 52 * s ≤ 1 * 2 ^ 84 := by omega
    exact Nat.le_trans this (Nat.mul_le_mul_right _ (by omega))
  have hP : 2 ^ 46 ≤ 2 ^ k := by
    apply Nat.pow_le_pow_right (by omega)
    rcases Nat.lt_or_ge k 46 with h | h
    · exfalso
      have h2 : 2 ^ k ≤ 2 ^ 45 := Nat.pow_le_pow_right (by omega) (by omega)
      have h3 : 100 * u * 2 ^ k ≤ 100 * s * 2 ^ 45 := Nat.mul_le_mul (by omega) h2
      omega
    · exact h
  generalize hPP : 2 ^ k = P at hP
  have n1 := divRound_near (100 * u * P) hs
  generalize hm : divRound (100 * u * P) s = m at n1
  have n2 := divRound_near (100 * m) (b := P) (by omega)
  unfold hundredths
  simp only [hPP]
  generalize divRound (100 * m) P = h at n2 ⊢
  have e1 : ((100 * u * P : Nat) : Int) = 100 * (u : Int) * P := by simp
  have e2 : ((100 * m : Nat) : Int) = 100 * (m : Int) := by simp
  rw [e1] at n1
  rw [e2] at n2
  have hPi : (2 : Int) ^ 46 ≤ P := by exact_mod_cast hP
  have hsi : (s : Int) < 4294967296 := by omega
  have hs0 : (0 : Int) < s := by omega
  have key : (10000 * (u : Int) - h * s) * P = 100 * (100 * (u : Int) * P - m * s) + s * (100 * m - h * P) := by grind
  have b1 : (s : Int) * (2 * (100 * m - h * P)) ≤ s * P := Int.mul_le_mul_of_nonneg_left n2.1 (by omega)
  have b2 : (s : Int) * (2 * (h * P - 100 * m)) ≤ s * P := Int.mul_le_mul_of_nonneg_left n2.2 (by omega)
  constructor
  · rcases Int.lt_or_le (s : Int) (2 * (10000 * (u : Int) - h * s)) with hlt | hle
    · exfalso
      have c1 : ((s : Int) + 1) * P ≤ (2 * (10000 * (u : Int) - h * s)) * P := Int.mul_le_mul_of_nonneg_right (by omega) (by omega)
      grind
    · exact hle
  · rcases Int.lt_or_le (s : Int) (2 * (h * s - 10000 * (u : Int))) with hlt | hle
    · exfalso
      have c1 : ((s : Int) + 1) * P ≤ (2 * (h * s - 10000 * (u : Int))) * P := Int.mul_le_mul_of_nonneg_right (by omega) (by omega)
      grind
    · exact hle

/-- **C92** The percentage that is printed for `u` unused elements of `s` elements is `h / 100` with two decimals, where `h` is the integer nearest to the exact value of
`10000 * u / s` (one of the two nearest if it is halfway between them). -/
theorem C92_ratio {u s : Nat} (hs : 0 < s) (hs' : s < 4294967296) (hu : u ≤ s) :
    ∃ h : Nat, ratioText u s = Tool.decimal (h / 100) ++ [46, digit (h / 10 % 10), digit (h % 10)] ∧ h ≤ 10000 ∧
      2 * (10000 * (u : Int) - h * s) ≤ s ∧ 2 * (h * s - 10000 * (u : Int)) ≤ s := by
  have h1 := hundredths_near hs hs' hu
  refine ⟨hundredths (floatDiv (100 * u) s), by unfold ratioText fixed2; rfl, ?_, h1⟩
  generalize hundredths (floatDiv (100 * u) s) = h at h1
  rcases Nat.lt_or_ge 10000 h with hlt | hle
  · exfalso
    have h2 : (10001 : Int) * s ≤ h * s := Int.mul_le_mul_of_nonneg_right (by omega) (by omega)
    omega
  · exact hle

/-- One third, and one eighth of one percent (0.125 is halfway and printed as 0.12). -/
example : ratioText 1 3 = "33.33".toUTF8.toList ∧ ratioText 1 800 = "0.12".toUTF8.toList ∧ ratioText 255 256 = "99.61".toUTF8.toList ∧ ratioText 256 256 = "100.00".toUTF8.toList ∧
    ratioText 0 256 = "0.00".toUTF8.toList := by decide +kernel

theorem card_below {P : Nat → Prop} {n m : Nat} (h : HasCard (fun i => i < n ∧ P i) m) : m ≤ n := by
  obtain ⟨l, h1, h2, h3⟩ := h
  have : l ⊆ List.range n := fun i hi => List.mem_range.2 ((h2 i).1 hi).1
  have := h1.length_le_of_subset this
  rw [List.length_range] at this
  omega

/-- **C92** What dawgtool -b prints after a normal end (NUL-free keys): the number of elements that no key uses, and their percentage, rounded to two decimals. -/
theorem C92_tool {sorter : LineSorter} (hs : StableSort sorter) {linkSorter : Sorter} (hls : StableSort linkSorter) (grow : Nat → Nat) (o : Opts) {lexicon file : List UInt8}
    (hadm : Admissible (entries o (scanLines lexicon))) (h : mainBuild sorter linkSorter grow o lexicon = .ok file) :
    ∃ hist d D, Made hist d D ∧ hist.Perm (entries o (scanLines lexicon)) ∧ ∃ unused n : Nat, HasCard (fun i => i < D.size ∧ i ≠ D.root ∧ ∀ e ∈ accepted hist, ¬ PartOf D e.1 i) unused ∧
      2 * (10000 * (unused : Int) - n * D.size) ≤ D.size ∧ 2 * (n * D.size - 10000 * (unused : Int)) ≤ D.size ∧
      ∃ before after, (buildRun ratioText sorter linkSorter grow o lexicon).out = before ++ statText "no. elements" D.size ++ ascii "no. unused elements: " ++ number unused ++ ascii " (" ++
        Tool.decimal (n / 100) ++ [46, digit (n / 10 % 10), digit (n % 10)] ++ ascii "%)" ++ [10] ++ after := by
  obtain ⟨hist, d, D, hM, hp, _, states, transitions, nodes, edges, merging, unused, _, _, _, _, _, h1, h2⟩ := C67_statistics_partial ratioText hs hls grow o hadm h
  have hsz : D.size = D.units.length := rfl
  have hu := (Made.units32 hM).1
  obtain ⟨_, _, _, _, h256⟩ := C15_unused_exact hM
  obtain ⟨n, n1, _, n3, n4⟩ := C92_ratio (u := unused) (s := D.size) (by omega) (by omega) (card_below h1)
  refine ⟨hist, d, D, hM, hp, unused, n, h1, n3, n4, ?_⟩
  rw [h2]
  unfold unusedText
  rw [n1]
  generalize ha : linesText o.tab (orderLines sorter grow o (scanLines lexicon)) 0 ++ (statText "no. keys" (entries o (scanLines lexicon)).length ++
         statText "no. states" ((states + 1 : Nat) : Int) ++ statText "no. transitions" transitions ++ statText "no. merged states" ((nodes : Int) - (states + 1)) ++
         statText "no. merging states" merging ++ statText "no. merged transitions" ((edges : Int) - transitions)) = before
  generalize hb : (if (o.ranked || o.guide) = true then _ else []) = rest
  exact ⟨before, statText "dictionary size" ((4 * D.size : Nat) : Int) ++ rest, by simp only [List.append_assoc]⟩

end Dawg.Props
