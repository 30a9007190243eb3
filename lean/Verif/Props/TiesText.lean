import Verif.Props.Ties
import Verif.Props.Output
/-! # C50 and C68: the exact answers of dawgtool with `-r` -/
namespace Dawg.Props
open Dawg Dawg.Spec Dawg.Client Dawg.Abs Dawg.Dict Dawg.Guided Dawg.Tool
attribute [-simp] List.length_flatten

/-- What `dawgtool -r` prints for a query: the keys that start with it in the order of `rankedOrder` for the comparator `<`, each with a NUL byte at its end. -/
def rankedLines (acc : List (Key × Int)) (q : Key) : List (Key × Int) :=
  (rankedOrder (fun lhs rhs => decide (lhs < rhs)) (residual (words acc) q)).map (fun e => (q ++ e.1 ++ [0], (e.2 : Int)))

theorem rankedLines_none {acc : List (Key × Int)} {q : Key} (h : ¬ ∃ e ∈ acc, q <+: e.1) : rankedLines acc q = [] := by
  have : residual (words acc) q = [] := Classical.byContradiction fun hc => h (residual_wordE_ne.1 hc)
  unfold rankedLines
  rw [this]
  rfl

theorem rankedLines_perm {hist d D} (h : Made hist d D) (q : Key) : (rankedLines (accepted hist) q).Perm (withNul (extensions (accepted hist) q)) := by
  by_cases hp : ∃ e ∈ accepted hist, q <+: e.1
  · obtain ⟨gd, hg, _⟩ := C27_ranked_guide h insertionSort_stableSort.perm (fun lhs rhs => decide (lhs < rhs))
    obtain ⟨i, h1, _⟩ := follow_prefix h hp
    obtain ⟨_, _, h2, _⟩ := C29_exact_order_partial h insertionSort_stableSort strictTotal_lt hg hp h1 RankedCompleter.new []
    have := h2.map (fun e : Key × Nat => (q ++ e.1 ++ [0], (e.2 : Int)))
    refine this.trans (List.Perm.of_eq ?_)
    rw [← residual_extensions]
    simp
  · rw [rankedLines_none hp, extensions_nil hp]
    exact List.Perm.refl _

/-- One answer with `-r`. -/
theorem answer_exact {hist d D g l} {linkSorter : Sorter} {o : Opts} (h : Made hist d D) (hs : StableSort linkSorter) (hg : buildRankedGuide linkSorter d D = .ok (some g))
    (hl : Loads o d D g l) (hr : o.ranked = true) (hi : o.index = false) {q : Key} (hc : NoClash hist q) (c : Completers) {fuel : Nat}
    (hfuel : (extensions (accepted hist) q).length < fuel) :
    ∃ c', answer o l fuel c q = .ok (⟨q, none, rankedLines (accepted hist) q⟩, c') := by
  by_cases hp : ∃ e ∈ accepted hist, q <+: e.1
  · obtain ⟨i, h1, _⟩ := follow_prefix h hp
    obtain ⟨rc0, h2, _, h5⟩ := C29_exact_order_partial h hs strictTotal_lt hg hp h1 c.ranked []
    obtain ⟨rc', h6, _⟩ := h5 fuel (by rw [extensions_length]; exact hfuel)
    have h7 := rankedLoop_listing (key := q) h6
    unfold answer
    rw [hl.guide]
    simp only [queryRank, hl.noIndex hi, ok_bind, hl.dict]
    rw [h1]
    simp only [ok_bind, Bool.not_true, Bool.false_eq_true, if_false, hr, if_true]
    rw [show RankedCompleter.start D g c.ranked i = .ok rc0 from h2]
    simp only [ok_bind]
    rw [h7]
    refine ⟨{ c with ranked := rc' }, ?_⟩
    unfold rankedLines
    simp only [ok_bind, List.map_map, pure_eq_ok]
    congr 4
    funext e
    simp
  · obtain ⟨hits, c', h1, xs, h2, _, h3⟩ := answer_ranked h hs hg hl hr hi hc c hfuel
    rw [extensions_nil hp] at h2
    rw [h2.eq_nil] at h3
    subst h3
    exact ⟨c', by rw [h1, rankedLines_none hp]; rfl⟩

/-- **C50**, with the exact order, for queries as in `C50_ranked_partial`. -/
theorem C50_exact_partial {hist d D} {linkSorter : Sorter} (h : Made hist d D) (hs : StableSort linkSorter) {o : Opts} (hr : o.ranked = true) (hi : o.index = false)
    {file : List UInt8} (hf : buildFile linkSorter o d = .ok file) {qs : List Key} (hc : ∀ q ∈ qs, NoClash hist q) {fuel : Nat} (hfuel : (accepted hist).length < fuel) :
    handleLoad o fuel file qs = .ok (qs.map (fun q => ⟨q, none, rankedLines (accepted hist) q⟩), none) ∧
      ∀ q, (rankedLines (accepted hist) q).Perm (withNul (extensions (accepted hist) q)) := by
  refine ⟨?_, rankedLines_perm h⟩
  obtain ⟨l, h1, h2, h3, _, _, h4, h5⟩ := C45_tool_roundtrip h hs o hf
  obtain ⟨g, h6, h7⟩ := h3 hr
  have hl : Loads o d D g l := ⟨h2, h6, h4 g h6, h5⟩
  have h8 := answers_map (o := o) (l := l) (fuel := fuel) (qs := qs) (f := fun q => ⟨q, none, rankedLines (accepted hist) q⟩)
    (fun q hq c => answer_exact h hs h7 hl hr hi (hc q hq) c (by have := extensions_le (accepted hist) q; omega)) Completers.new
  unfold handleLoad
  rw [h1]
  change (lift (answers o l fuel Completers.new qs) >>= _) = _
  rw [h8]
  change (lift (totals o l) >>= _) = _
  unfold totals
  rw [hi]
  rfl

/-- The keys "aa", "ab", "b" without values and the query "": "aa", "b", "ab". -/
example : ∃ d D file, Made [([97, 97], 0), ([97, 98], 0), ([98], 0)] d D ∧ buildFile insertionSort { ranked := true } d = .ok file ∧
    handleLoad { ranked := true } 9 file [[], [97]] = .ok ([⟨[], none, [([97, 97, 0], 0), ([98, 0], 0), ([97, 98, 0], 0)]⟩, ⟨[97], none, [([97, 97, 0], 0), ([97, 98, 0], 0)]⟩], none) := by
  obtain ⟨d, D, h, _⟩ := C14_small_builds 1 (by omega) (by omega) [([97, 97], 0), ([97, 98], 0), ([98], 0)] (by decide) (by decide)
  obtain ⟨file, h1⟩ := C45_tool_writes h insertionSort_stableSort { ranked := true } (by simp)
  refine ⟨d, D, file, h, h1, ?_⟩
  rw [(C50_exact_partial (qs := [[], [97]]) (fuel := 9) h insertionSort_stableSort rfl rfl h1 (fun q hq => .of_bytes (by revert q; decide)) (by decide)).1]
  decide +kernel

/-- **C68**, with `-r` and without `-i`: the exact text, for queries as in C50. -/
theorem C68_ranked_text_partial {hist d D} {linkSorter : Sorter} (h : Made hist d D) (hs : StableSort linkSorter) {o : Opts} (hr : o.ranked = true) (hi : o.index = false)
    {file : List UInt8} (hf : buildFile linkSorter o d = .ok file) {queries : List UInt8} (hc : ∀ q ∈ scanLines queries, NoClash hist q) {fuel : Nat} (hfuel : (accepted hist).length < fuel) :
    queryRun o fuel file queries =
      ⟨(scanLines queries).flatMap (fun q => q ++ ascii ":" ++ (rankedLines (accepted hist) q).flatMap (fun e => hitText e.1 e.2) ++ [10]), [], .ok ()⟩ := by
  have h1 := (C50_exact_partial h hs hr hi hf hc hfuel).1
  have h2 := (queryRun_spec o fuel file queries).1 _ _ h1
  rw [h2]
  congr 1
  rw [List.flatMap_map]
  unfold totalsText answerText rankPart
  simp

/-- The same keys: what is printed for the query "". -/
example : ∃ d D file, Made [([97, 97], 0), ([97, 98], 0), ([98], 0)] d D ∧ buildFile insertionSort { ranked := true } d = .ok file ∧
    (queryRun { ranked := true } 9 file "\n".toUTF8.toList).out = ": aa\x00 = 0; b\x00 = 0; ab\x00 = 0;\n".toUTF8.toList := by
  obtain ⟨d, D, h, _⟩ := C14_small_builds 1 (by omega) (by omega) [([97, 97], 0), ([97, 98], 0), ([98], 0)] (by decide) (by decide)
  obtain ⟨file, h1⟩ := C45_tool_writes h insertionSort_stableSort { ranked := true } (by simp)
  have e1 : scanLines "\n".toUTF8.toList = [[]] := by decide +kernel
  have h2 := C68_ranked_text_partial (queries := "\n".toUTF8.toList) (fuel := 9) h insertionSort_stableSort rfl rfl h1
    (by rw [e1]; exact fun q hq => .of_bytes (by revert q; decide)) (by decide)
  refine ⟨d, D, file, h, h1, ?_⟩
  rw [h2, e1]
  decide +kernel

/-- **C68**, without a guide: the exact text, for queries without low-byte clash: for each query its stored prefixes.  With `-i` everything is printed, and then the
program panics. -/
theorem C68_no_guide_text_partial {hist d D} {linkSorter : Sorter} (h : Made hist d D) (hs : StableSort linkSorter) {o : Opts} (hr : o.ranked = false) (hgd : o.guide = false)
    {file : List UInt8} (hf : buildFile linkSorter o d = .ok file) {queries : List UInt8} (hc : ∀ q ∈ scanLines queries, NoClash hist q) (fuel : Nat) :
    queryRun o fuel file queries =
      ⟨(scanLines queries).flatMap (fun q => q ++ ascii ":" ++ (prefixesOf (accepted hist) q).flatMap (fun e => hitText e.1 e.2) ++ [10]), [],
        if o.index then .error (.fault .panic) else .ok ()⟩ := by
  obtain ⟨l, h1, h2, _, _, h3, _, _⟩ := C45_tool_roundtrip h hs o hf
  obtain ⟨h4, h5⟩ := h3 hr hgd
  have h6 := answers_map (o := o) (l := l) (fuel := fuel) (qs := scanLines queries)
    (f := fun q => ⟨q, none, (prefixesOf (accepted hist) q).map (fun e => (e.1, Int.ofNat e.2))⟩) (fun q hq c => by
      refine ⟨c, ?_⟩
      unfold answer
      rw [h4]
      simp only [h2]
      rw [C48_prefixes_partial h (hc q hq)]
      rfl) Completers.new
  have h7 := (answersRun_spec o l fuel Completers.new (scanLines queries)).1 _ h6
  unfold queryRun
  rw [h1]
  have h8 : totalsRun o l = ⟨[], [], if o.index then .error (.fault .panic) else .ok ()⟩ := by
    unfold totalsRun
    rw [h4]
    cases o.index <;> rfl
  show (answersRun o l fuel Completers.new (scanLines queries) >>= fun _ => totalsRun o l) = _
  rw [h7, h8]
  show Run.mk _ _ _ = _
  simp only [List.append_nil, List.flatMap_map]
  unfold answerText rankPart
  simp [List.flatMap_map]

/-- The keys "a", "ab", "b" and the queries "abc" and "c" with `-i`. -/
example : ∃ d D file, Made keysG d D ∧ buildFile insertionSort { index := true } d = .ok file ∧
    queryRun { index := true } 0 file "abc\nc\n".toUTF8.toList = ⟨"abc: a = 5; ab = 3;\nc:\n".toUTF8.toList, [], .error (.fault .panic)⟩ := by
  obtain ⟨d, D, h⟩ := madeG
  obtain ⟨file, h1⟩ := C45_tool_writes h insertionSort_stableSort { index := true } (fun _ => ⟨rfl, by decide⟩)
  have e1 : scanLines "abc\nc\n".toUTF8.toList = [[97, 98, 99], [99]] := by decide +kernel
  have h2 := C68_no_guide_text_partial (queries := "abc\nc\n".toUTF8.toList) h insertionSort_stableSort rfl rfl h1
    (by rw [e1]; exact fun q hq => .of_bytes (by revert q; decide)) 0
  refine ⟨d, D, file, h, h1, ?_⟩
  rw [h2, e1]
  congr 1
  decide +kernel

end Dawg.Props
