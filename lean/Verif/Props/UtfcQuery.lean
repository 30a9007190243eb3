import Verif.Props.Output
/-! # C52: exactly what a query finds in a dictionary that was built with `-u` -/
namespace Dawg.Props
open Dawg Dawg.Spec Dawg.Client Dawg.Abs Dawg.Dict Dawg.Guided Dawg.Tool
attribute [-simp] List.length_flatten

/-- What the tool has stored when it has written a file for NUL-free keys. -/
theorem made_of_file {sorter : LineSorter} (hs : StableSort sorter) {linkSorter : Sorter} {grow : Nat → Nat} {o : Opts} {lines : List (List UInt8)} {d : Dawg} {file : List UInt8}
    (h : buildDawg sorter grow o lines = .ok d) (hf : buildFile linkSorter o d = .ok file) (hadm : Admissible (entries o lines)) :
    ∃ hist D, Made hist d D ∧ (∀ ok ∈ verdicts [] hist, ok = true) ∧ hist.Perm (entries o lines) := by
  obtain ⟨hist, oks, b, p1, p2, p3, p4⟩ := history_of_dawg hs h hadm
  rcases buildFileRun_cases (fun _ _ => []) linkSorter o d with ⟨e, k1, k2, k3⟩ | ⟨k1, k2, k3⟩ | ⟨D, unused, k1, k2⟩
  · rw [k3] at hf; cases hf
  · rw [k3] at hf; cases hf
  · exact ⟨hist, D, made_of_built p3 p1 k1, p2, p4⟩

theorem entries_utfc {o : Opts} (hu : o.utfc = true) (ht : o.tab = false) (lines : List (List UInt8)) :
    entries o lines = (lines.filter (fun l => l.length ≠ 0)).map (fun l => (Utfc.encode (runes l), 0)) := by
  unfold entries
  refine List.map_congr_left fun l _ => ?_
  unfold entry parseLine keyBytes
  simp [hu, ht]

/-- **C52**, exactly: with `-u`, a query without NUL finds those of its prefixes that are the encodings of non-empty lines, each with the value 0, and nothing else.  So a line is found by the query
that repeats it if and only if the encoding of some line consists of the very bytes of the line. -/
theorem C52_exact_partial {sorter : LineSorter} (hls : StableSort sorter) {grow : Nat → Nat} {linkSorter : Sorter} (hs : StableSort linkSorter) {o : Opts} (hu : o.utfc = true)
    (ht : o.tab = false) (hg : o.guide = false) (hr : o.ranked = false) (hi : o.index = false) {lines : List (List UInt8)} {d : Dawg} {file : List UInt8}
    (hsz : (lines.map (fun l => (Utfc.encode (runes l)).length + 1)).sum < 1073741824) (hd : buildDawg sorter grow o lines = .ok d)
    (hf : buildFile linkSorter o d = .ok file) {q : List UInt8} (hq : 0 ∉ q) (fuel : Nat) :
    handleLoad o fuel file [q] = .ok ([⟨q, none, (((List.range q.length).map (fun i => q.take (i + 1))).filter
      (fun p => lines.any (fun l => l ≠ [] && Utfc.encode (runes l) == p))).map (fun p => (p, 0))⟩], none) := by
  have hent := entries_utfc hu ht lines
  have hadm : Admissible (entries o lines) := by
    refine ⟨fun e he => ?_, ?_⟩
    · rw [hent] at he
      obtain ⟨l, _, rfl⟩ := List.mem_map.1 he
      exact C37_no_nul _
    · rw [hent, List.map_map]
      have : ((lines.filter (fun l => l.length ≠ 0)).map ((fun e : Key × Int => e.1.length + 1) ∘ fun l => (Utfc.encode (runes l), 0))).sum ≤
          (lines.map (fun l => (Utfc.encode (runes l)).length + 1)).sum := by
        clear hd hent hsz
        induction lines with
        | nil => simp
        | cons l ls ih =>
          rw [List.map_cons, List.sum_cons]
          by_cases hl : l.length ≠ 0
          · rw [List.filter_cons_of_pos (by simpa using hl), List.map_cons, List.sum_cons]
            simp only [Function.comp_apply]
            omega
          · rw [List.filter_cons_of_neg (by simpa using hl)]
            omega
      omega
  obtain ⟨hist, D, hM, hv, hp⟩ := made_of_file hls hd hf hadm
  have hz : ∀ e ∈ accepted hist, e.2 = 0 := by
    intro e he
    have := hp.mem_iff.1 (mem_of_accepted he)
    rw [hent] at this
    obtain ⟨l, _, rfl⟩ := List.mem_map.1 this
    rfl
  have hc : NoClash hist q := noClash_of_values (fun e he => by rw [hz e he]; rfl) hq
  rw [load_none hM hs hr hg hi hf hc fuel]
  have hkey : ∀ p : List UInt8, (∃ e ∈ accepted hist, e.1 = p) ↔ lines.any (fun l => l ≠ [] && Utfc.encode (runes l) == p) = true := by
    intro p
    rw [keys_accepted hv]
    constructor
    · rintro ⟨e, he, rfl⟩
      have := hp.mem_iff.1 he
      rw [hent] at this
      obtain ⟨l, hl, rfl⟩ := List.mem_map.1 this
      rw [List.mem_filter] at hl
      refine List.any_eq_true.2 ⟨l, hl.1, ?_⟩
      simpa using hl.2
    · intro h
      obtain ⟨l, hl, h⟩ := List.any_eq_true.1 h
      simp only [Bool.and_eq_true, decide_eq_true_eq, beq_iff_eq] at h
      refine ⟨(Utfc.encode (runes l), 0), hp.mem_iff.2 ?_, h.2⟩
      rw [hent]
      exact List.mem_map.2 ⟨l, List.mem_filter.2 ⟨hl, by simpa using h.1⟩, rfl⟩
  have hpre : (prefixesOf (accepted hist) q).map (fun e => (e.1, Int.ofNat e.2)) = (((List.range q.length).map (fun i => q.take (i + 1))).filter
      (fun p => lines.any (fun l => l ≠ [] && Utfc.encode (runes l) == p))).map (fun p => (p, 0)) := by
    unfold prefixesOf
    generalize List.range q.length = is
    induction is with
    | nil => rfl
    | cons i is ih =>
      rw [List.map_cons]
      by_cases hk : ∃ e ∈ accepted hist, e.1 = q.take (i + 1)
      · obtain ⟨e, e1, _, e3⟩ := lookup_some hk
        rw [hz e e1] at e3
        rw [List.filterMap_cons_some (f := fun i => lookup (accepted hist) (q.take (i + 1))) e3, List.filter_cons_of_pos (p := fun p => lines.any (fun l => l ≠ [] && Utfc.encode (runes l) == p)) ((hkey _).1 hk), List.map_cons, List.map_cons, ih]
        rfl
      · rw [List.filterMap_cons_none (f := fun i => lookup (accepted hist) (q.take (i + 1))) (lookup_none hk), List.filter_cons_of_neg (p := fun p => lines.any (fun l => l ≠ [] && Utfc.encode (runes l) == p)) (fun h => hk ((hkey _).2 h)), ih]
  rw [hpre]

/-- **C52**: the query for the encoding of a non-empty line finds the line. -/
theorem C52_encoded_partial {sorter : LineSorter} (hls : StableSort sorter) {grow : Nat → Nat} {linkSorter : Sorter} (hs : StableSort linkSorter) {o : Opts} (hu : o.utfc = true)
    (ht : o.tab = false) (hg : o.guide = false) (hr : o.ranked = false) (hi : o.index = false) {lines : List (List UInt8)} {d : Dawg} {file : List UInt8}
    (hsz : (lines.map (fun l => (Utfc.encode (runes l)).length + 1)).sum < 1073741824) (hd : buildDawg sorter grow o lines = .ok d)
    (hf : buildFile linkSorter o d = .ok file) {l : List UInt8} (hl : l ∈ lines) (hne : l ≠ []) (hk : Utfc.encode (runes l) ≠ []) (fuel : Nat) :
    ∃ hits, handleLoad o fuel file [Utfc.encode (runes l)] = .ok ([⟨Utfc.encode (runes l), none, hits⟩], none) ∧ (Utfc.encode (runes l), 0) ∈ hits := by
  refine ⟨_, C52_exact_partial hls hs hu ht hg hr hi hsz hd hf (C37_no_nul _) fuel, ?_⟩
  refine List.mem_map.2 ⟨_, List.mem_filter.2 ⟨List.mem_map.2 ⟨(Utfc.encode (runes l)).length - 1, List.mem_range.2 ?_, ?_⟩, ?_⟩, rfl⟩
  · have := List.length_pos_iff.2 hk
    omega
  · have := List.length_pos_iff.2 hk
    rw [Nat.sub_add_cancel this, List.take_length]
  · exact List.any_eq_true.2 ⟨l, hl, by simp [hne]⟩

/-- With the lines "a" and "é", the bytes of "é" find nothing, its encoding (0x80 0xE9) is found, and "ab" finds "a". -/
example : ∃ d file, buildDawg (fun less l => l.mergeSort (fun a b => !less b a)) (fun n => n) { utfc := true } [[97], [0xC3, 0xA9]] = .ok d ∧
    buildFile insertionSort { utfc := true } d = .ok file ∧
    handleLoad { utfc := true } 0 file [[0xC3, 0xA9]] = .ok ([⟨[0xC3, 0xA9], none, []⟩], none) ∧
    handleLoad { utfc := true } 0 file [Utfc.encode ['é']] = .ok ([⟨Utfc.encode ['é'], none, [(Utfc.encode ['é'], 0)]⟩], none) ∧
    handleLoad { utfc := true } 0 file [[97, 98]] = .ok ([⟨[97, 98], none, [([97], 0)]⟩], none) := by
  have hst := exists_stableSort (α := List UInt8)
  obtain ⟨h1, _⟩ := C47_unsorted (o := { utfc := true }) (fun less l => l.mergeSort (fun a b => !less b a)) (fun n => n) (lines := [[97], [0xC3, 0xA9]]) rfl (fun l _ _ => ⟨_, rfl⟩)
    (by decide +kernel) (by decide +kernel)
  obtain ⟨d, oks, b, h2, h3, _⟩ := h1 (by decide +kernel)
  obtain ⟨d', D, h4, oks', b', h5⟩ := C14_small_builds 256 (by omega) (by omega)
    (([[97], [0xC3, 0xA9]].filter (fun l : List UInt8 => l.length ≠ 0)).map (entry { utfc := true })) (by decide +kernel) (by decide +kernel)
  rw [h3] at h5
  cases h5
  obtain ⟨file, h6⟩ := C45_tool_writes h4 insertionSort_stableSort { utfc := true } (by simp)
  have key := fun (q : List UInt8) hq => C52_exact_partial (q := q) hst insertionSort_stableSort (o := { utfc := true }) rfl rfl rfl rfl rfl (by decide +kernel) h2 h6 hq 0
  refine ⟨d, file, h2, h6, ?_, ?_, ?_⟩
  · rw [key _ (by decide)]
    have : (((List.range ([0xC3, 0xA9] : List UInt8).length).map (fun i => ([0xC3, 0xA9] : List UInt8).take (i + 1))).filter
      (fun p => ([[97], [0xC3, 0xA9]] : List (List UInt8)).any (fun l => l ≠ [] && Utfc.encode (runes l) == p))) = [] := by decide +kernel
    rw [this]
    rfl
  · rw [key _ (C37_no_nul _)]
    have : (((List.range (Utfc.encode ['é']).length).map (fun i => (Utfc.encode ['é']).take (i + 1))).filter
      (fun p => ([[97], [0xC3, 0xA9]] : List (List UInt8)).any (fun l => l ≠ [] && Utfc.encode (runes l) == p))) = [Utfc.encode ['é']] := by decide +kernel
    rw [this]
    rfl
  · rw [key _ (by decide)]
    have : (((List.range ([97, 98] : List UInt8).length).map (fun i => ([97, 98] : List UInt8).take (i + 1))).filter
      (fun p => ([[97], [0xC3, 0xA9]] : List (List UInt8)).any (fun l => l ≠ [] && Utfc.encode (runes l) == p))) = [[97]] := by decide +kernel
    rw [this]
    rfl

end Dawg.Props
