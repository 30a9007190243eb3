import Verif.Props.TiesText
import Verif.Props.RankedRank
/-! # C86: the exact completions with `-r -i` -/
namespace Dawg.Props
open Dawg Dawg.Spec Dawg.Client Dawg.Abs Dawg.Dict Dawg.Guided Dawg.Tool
attribute [-simp] List.length_flatten

/-- Key number `j` is counted when the number of `k` is computed: of the keys up to number `j`, those that start with some common prefix of `k` and key number `j` are smaller than `k`. -/
def CountedFor (ks : List Key) (k : Key) (j : Nat) : Prop :=
  ∃ p x, ks[j]? = some x ∧ p <+: k ∧ p <+: x ∧ ∀ i y, i ≤ j → ks[i]? = some y → p <+: y → y < k

theorem passed_range (k : Key) : ∀ (X pre : List Key), passed k pre X = ((List.range X.length).filter (fun j => counts k (pre ++ X.take (j + 1)) (X.getD j []))).length
  | [], _ => rfl
  | x :: X, pre => by
    rw [passed, passed_range k X, List.length_cons, List.range_succ_eq_map, List.filter_cons, List.filter_map]
    by_cases hc : counts k (pre ++ [x]) x = true
    · rw [if_pos hc, if_pos (by simpa using hc)]
      simp [Function.comp_def, Nat.add_comm]
    · rw [if_neg hc, if_neg (by simpa using hc)]
      simp [Function.comp_def]

/-- **C88**, the exact number: `StringToIndex` of the listed key with number `i` is the number of keys before it that are `CountedFor` it; and it is `NotFound` for strings that are no
keys, if they do not leave the key set with the low byte of a stored value. -/
theorem C88_exact_partial {hist d D g x} {sorter : Sorter} (h : Made hist d D) (hs : StableSort sorter) (hg : buildRankedGuide sorter d D = .ok (some g))
    (hx : buildIndex D g = .ok (some x)) {ks : List Key} (hks : ∀ i, Indexer.indexToBytes D g x i = .ok ks[i]?) :
    (∀ i k, ks[i]? = some k → ∃ js : List Nat, js.Nodup ∧ (∀ j, j ∈ js ↔ j < i ∧ CountedFor ks k j) ∧ Indexer.bytesToIndex D g x k = .ok js.length) ∧
    ∀ q, NoClash hist q → (∀ e ∈ accepted hist, e.1 ≠ q) → Indexer.bytesToIndex D g x q = .ok Indexer.notFound := by
  by_cases hne : accepted hist = []
  · rw [ranked_index_empty h hne hs hg] at hx
    cases hx
  obtain ⟨x', ks', a1, a2, a3, a4, a5, _, a7, a8⟩ := C86_index h hne hs hg
  rw [hx] at a1
  cases a1
  have hkk : ks' = ks := by
    apply List.ext_getElem?
    intro j
    have := a7 j
    rw [hks j] at this
    simpa using this.symm
  subst hkk
  refine ⟨fun i k hk => ?_, fun q hq hn => ?_⟩
  · obtain ⟨At, kid, DAt, V, h0, WW, hd0⟩ := Made.view h hne
    have V' := V.reach h0
    obtain ⟨g', f1, f2⟩ := buildRanked_spec (cmp := ltCmp) hs.perm V WW h0 hd0
    rw [show buildRankedGuideCmp sorter d D ltCmp = .ok (some g) from hg] at f1
    cases f1
    have ho : OrdPerm (Reach kid (words (accepted hist))) (rord D sorter ltCmp) := fun h => rord_perm (cmp := ltCmp) hs.perm V' h
    obtain ⟨x', e1, e2⟩ := buildCut_spec V h0 f2 ho
    rw [hx] at e1
    cases e1
    have hle : cnt D (rord D sorter ltCmp) (words (accepted hist)) ≤ (accepted hist).length := by
      have := cnt_le V' ho Reach.root
      rwa [words, List.length_map] at this
    have hlt := accepted_length_lt h.1
    have hdep := V'.small Reach.root
    have hks : ks' = findable (rord D sorter ltCmp) (D.size + 1) (words (accepted hist)) := by
      apply List.ext_getElem?
      intro j
      have := a7 j
      unfold Indexer.indexToBytes at this
      rw [show D.root = 0 from rfl, select_cut V' f2 ho e2 j (D.size + 1) Reach.root (e2.root Reach.root) (fun e he => Nat.lt_succ_of_lt (hdep e he)) (Nat.zero_le _) (by omega)] at this
      simpa using this.symm
    obtain ⟨b1, b2⟩ := (a5 k).1 (List.mem_of_getElem? hk)
    obtain ⟨v, hv⟩ := mem_words.2 b1
    obtain ⟨n, X, Z, c1, c2, _, _, c5⟩ := rank_cut V' f2 ho e2 k (r := 0) Reach.root (e2.root Reach.root) ⟨v, hv⟩ ((seen_rord hs V' k Reach.root ⟨v, hv⟩).2 (shown_words.2 b2))
      (by omega)
    rw [← hks] at c2
    have hi : X.length = i := by
      have h1 : ks'[X.length]? = some k := by rw [c2]; simp
      have hl : X.length < ks'.length := by rw [c2]; simp
      exact (List.getElem?_inj hl a4).1 (h1.trans hk.symm)
    have hget : ∀ j, j < i → ks'[j]? = X[j]? := fun j hj => by rw [c2, List.getElem?_append_left (by omega)]
    refine ⟨(List.range X.length).filter (fun j => counts k ([] ++ X.take (j + 1)) (X.getD j [])), List.Pairwise.filter _ List.nodup_range, fun j => ?_, ?_⟩
    · rw [List.mem_filter, List.mem_range, hi, counts_iff, List.nil_append]
      refine and_congr_right fun hj => ?_
      obtain ⟨y, hy⟩ : ∃ y, X[j]? = some y := ⟨X[j]'(by omega), List.getElem?_eq_getElem _⟩
      have hyd : X.getD j [] = y := by rw [List.getD_eq_getElem?_getD, hy]; rfl
      rw [hyd]
      constructor
      · rintro ⟨p, p1, p2, p3⟩
        refine ⟨p, y, by rw [hget j hj, hy], p1, p2, fun m z hm hz hp => p3 z ?_ hp⟩
        rw [hget m (by omega)] at hz
        exact List.mem_of_getElem? (i := m) (by rw [List.getElem?_take, if_pos (by omega), hz])
      · rintro ⟨p, y', p0, p1, p2, p3⟩
        rw [hget j hj, hy] at p0
        cases p0
        refine ⟨p, p1, p2, fun z hz hp => ?_⟩
        obtain ⟨m, hm⟩ := List.getElem?_of_mem hz
        rw [List.getElem?_take] at hm
        by_cases hmj : m < j + 1
        · rw [if_pos hmj] at hm
          exact p3 m z (by omega) (by rw [hget m (by omega), hm]) hp
        · rw [if_neg hmj] at hm
          cases hm
    · unfold Indexer.bytesToIndex
      rw [show D.root = 0 from rfl, c1, Nat.zero_add, c5, passed_range]
  · obtain ⟨n, n1, n2⟩ := a8 q hq
    rw [n1, n2 hn]

/-- "a" = 9, "b" = 7, "c" = 8. -/
abbrev keysB : List (Key × Int) := [([97], 9), ([98], 7), ([99], 8)]

theorem madeB : ∃ d D, Made keysB d D := by
  obtain ⟨d, D, h, _⟩ := C14_small_builds 1 (by omega) (by omega) keysB (by decide) (by decide)
  exact ⟨d, D, h⟩

theorem listed_keysB {ks : List Key} (h1 : ks.Nodup) (h2 : ∀ k, k ∈ ks ↔ (∃ e ∈ accepted keysB, e.1 = k) ∧ Shown (accepted keysB) k) (h3 : ks.Pairwise (ShownBefore (accepted keysB))) :
    ks = [[97], [99], [98]] := by
  have hp : ks.Perm [[97], [99], [98]] := by
    refine (List.perm_ext_iff_of_nodup h1 (by decide)).2 (fun k => ?_)
    rw [h2]
    constructor
    · rintro ⟨⟨e, he, rfl⟩, _⟩
      have : ∀ e ∈ accepted keysB, e.1 ∈ ([[97], [99], [98]] : List Key) := by decide
      exact this e he
    · intro hk
      refine ⟨by revert k; decide, fun e he b t hkt => ?_⟩
      have h4 : ∀ e ∈ accepted keysB, e.1.length = 1 := by decide
      have h5 : ∀ k ∈ ([[97], [99], [98]] : List Key), k.length = 1 := by decide
      have := congrArg List.length hkt
      simp [h4 e he, h5 k hk] at this
  refine hp.eq_of_pairwise (le := ShownBefore (accepted keysB)) (fun a b _ _ hab hba => hab.antisymm hba) h3 ?_
  simp only [List.pairwise_cons, List.mem_cons, List.not_mem_nil, or_false, forall_eq_or_imp, forall_eq, false_imp_iff, implies_true, List.Pairwise.nil, and_true]
  exact ⟨⟨.inr ⟨[], 97, 99, [], [], rfl, rfl, by decide, ([97], 9), by decide, by decide, by decide⟩, .inr ⟨[], 97, 98, [], [], rfl, rfl, by decide, ([97], 9), by decide, by decide, by decide⟩⟩,
    .inr ⟨[], 99, 98, [], [], rfl, rfl, by decide, ([99], 8), by decide, by decide, by decide⟩⟩

/-- They are listed as "a", "c", "b".  For "b", which has number 2, only "a" is counted: `StringToIndex("b")` is 1, the number of "c". -/
example : ∃ d D g x, Made keysB d D ∧ buildRankedGuide insertionSort d D = .ok (some g) ∧ buildIndex D g = .ok (some x) ∧
    Indexer.indexToBytes D g x 2 = .ok (some [98]) ∧ Indexer.bytesToIndex D g x [98] = .ok 1 ∧ Indexer.bytesToIndex D g x [100] = .ok 4294967295 := by
  obtain ⟨d, D, h⟩ := madeB
  obtain ⟨g, e1, _⟩ := C27_ranked_guide h insertionSort_stableSort.perm (fun lhs rhs => decide (lhs < rhs))
  obtain ⟨x, ks, a1, _, _, a4, a5, a6, a7, _⟩ := C86_index h (by decide) insertionSort_stableSort e1
  obtain rfl := listed_keysB a4 a5 a6
  obtain ⟨b1, b2⟩ := C88_exact_partial h insertionSort_stableSort e1 a1 a7
  obtain ⟨js, j1, j2, j3⟩ := b1 2 [98] rfl
  refine ⟨d, D, g, x, h, e1, a1, by rw [a7]; rfl, ?_, b2 [100] (.of_bytes (by decide)) (by decide)⟩
  have hjs : js.Perm [0] := by
    refine (List.perm_ext_iff_of_nodup j1 (by decide)).2 (fun j => ?_)
    rw [j2, List.mem_singleton]
    constructor
    · rintro ⟨hj, p, y, q0, q1, q2, q3⟩
      obtain rfl | rfl : j = 0 ∨ j = 1 := by omega
      · rfl
      · cases q0
        cases p with
        | nil => exact absurd (q3 1 [99] (by omega) rfl (by simp)) (by decide)
        | cons c p =>
          have := (List.cons_prefix_cons.1 q1).1.symm.trans (List.cons_prefix_cons.1 q2).1
          exact absurd this (by decide)
    · rintro rfl
      refine ⟨by omega, [], [97], rfl, by simp, by simp, fun i y hi hy _ => ?_⟩
      obtain rfl : i = 0 := by omega
      cases hy
      decide
  rw [j3, hjs.length_eq]
  rfl

/-- One answer with `-r -i`. -/
theorem answer_index_exact {hist d D g l x} {linkSorter : Sorter} {o : Opts} (h : Made hist d D) (hs : StableSort linkSorter) (hg : buildRankedGuide linkSorter d D = .ok (some g))
    (hl : l.dict = D ∧ l.guide = some g ∧ l.index = some x) (hx : buildIndex D g = .ok (some x)) (hr : o.ranked = true) {q : Key} (hc : NoClash hist q) (c : Completers) {fuel : Nat}
    (hfuel : (extensions (accepted hist) q).length < fuel) :
    ∃ n hits c', answer o l fuel c q = .ok (⟨q, some n, hits⟩, c') ∧ Indexer.bytesToIndex D g x q = .ok n ∧ hits = rankedLines (accepted hist) q := by
  by_cases hp : ∃ e ∈ accepted hist, q <+: e.1
  · have hne : accepted hist ≠ [] := by
      obtain ⟨e, he, _⟩ := hp
      exact List.ne_nil_of_mem he
    obtain ⟨x', ks, e1, _, _, _, _, _, _, e2⟩ := C86_index h hne hs hg
    rw [hx] at e1
    cases e1
    obtain ⟨n, hn, _⟩ := e2 q hc
    obtain ⟨l1, l2, l3⟩ := hl
    have hq : queryRank l g q = .ok (some n) := by
      unfold queryRank
      rw [l3]
      simp only [l1]
      rw [hn]
      rfl
    obtain ⟨i, h1, _⟩ := follow_prefix h hp
    obtain ⟨rc0, h2, _, h5⟩ := C29_exact_order_partial h hs strictTotal_lt hg hp h1 c.ranked []
    obtain ⟨rc', h6, _⟩ := h5 fuel (by rw [extensions_length]; exact hfuel)
    have h7 := rankedLoop_listing (key := q) h6
    unfold answer
    rw [l2]
    simp only
    rw [hq]
    simp only [ok_bind, l1]
    rw [h1]
    simp only [ok_bind, Bool.not_true, Bool.false_eq_true, if_false, hr, if_true]
    rw [show RankedCompleter.start D g c.ranked i = .ok rc0 from h2]
    simp only [ok_bind]
    rw [h7]
    refine ⟨n, _, { c with ranked := rc' }, rfl, hn, ?_⟩
    unfold rankedLines
    simp only [List.map_map]
    apply List.map_congr_left
    intro e he
    simp
  · obtain ⟨n, hits, c', h1, h2, xs, h3, _, h4⟩ := answer_ranked_index h hs hg hl hx hr hc c hfuel
    rw [extensions_nil hp] at h3
    rw [h3.eq_nil] at h4
    exact ⟨n, hits, c', h1, h2, by rw [h4, rankedLines_none hp]; rfl⟩

/-- **C86**, the whole run with `-r -i`, with the exact completions: for queries as in `C86_run_partial` it prints for each query a number (for listed keys that of C88, for strings that are no keys `NotFound`) and the keys that start with it in
the order of `rankedOrder`, and then the listing. -/
theorem C86_exact_partial {hist d D} {linkSorter : Sorter} (h : Made hist d D) (hs : StableSort linkSorter) {o : Opts} (hr : o.ranked = true) (hi : o.index = true)
    {file : List UInt8} (hf : buildFile linkSorter o d = .ok file) {queries : List UInt8} (hc : ∀ q ∈ scanLines queries, NoClash hist q) {fuel : Nat}
    (hfuel : (accepted hist).length < fuel) :
    ∃ (number : Key → Nat) (ks : List Key), ks.Nodup ∧ (∀ k, k ∈ ks ↔ (∃ e ∈ accepted hist, e.1 = k) ∧ Shown (accepted hist) k) ∧ ks.Pairwise (ShownBefore (accepted hist)) ∧
      (∀ i k, ks[i]? = some k → ∃ js : List Nat, js.Nodup ∧ (∀ j, j ∈ js ↔ j < i ∧ CountedFor ks k j) ∧ number k = js.length) ∧
      (∀ q ∈ scanLines queries, (∀ e ∈ accepted hist, e.1 ≠ q) → number q = Indexer.notFound) ∧
      queryRun o fuel file queries =
        ⟨(scanLines queries).flatMap (fun q => q ++ ascii ":" ++ rankText (number q) ++ (rankedLines (accepted hist) q).flatMap (fun e => hitText e.1 e.2) ++ [10]) ++
          totalsText (some ks), [], .ok ()⟩ := by
  obtain ⟨l, h1, h2, h3, _, _, h4, h5⟩ := C45_tool_roundtrip h hs o hf
  obtain ⟨g, h6, h7⟩ := h3 hr
  obtain ⟨x, h8, h9⟩ := h4 g h6 hi
  have hne : accepted hist ≠ [] := by
    intro he
    rw [ranked_index_empty h he hs h7] at h9
    cases h9
  obtain ⟨x', ks', e1, _, _, e4, e5, e6, e7, _⟩ := C86_index h hne hs h7
  rw [h9] at e1
  cases e1
  let number : Key → Nat := fun q => match Indexer.bytesToIndex D g x q with | .ok n => n | .error _ => 0
  have ha := answers_map (o := o) (l := l) (fuel := fuel) (qs := scanLines queries) (f := fun q => ⟨q, some (number q), rankedLines (accepted hist) q⟩)
    (fun q hq c => by
      obtain ⟨n, hits, c', a1, a2, a3⟩ := answer_index_exact h hs h7 ⟨h2, h6, h8⟩ h9 hr (hc q hq) c (fuel := fuel) (by have := extensions_le (accepted hist) q; omega)
      refine ⟨c', ?_⟩
      rw [a1, a3]
      simp only [number, a2]) Completers.new
  obtain ⟨ks, t1, t2, t3, t4⟩ := C86_listing_partial h hs hr hi hf h1
  have hm : mainQuery o fuel file queries = .ok ((scanLines queries).map (fun q => ⟨q, some (number q), rankedLines (accepted hist) q⟩), some ks) := by
    unfold mainQuery handleLoad
    rw [h1]
    change (lift (answers o l fuel Completers.new (scanLines queries)) >>= _) = _
    rw [ha]
    change (lift (totals o l) >>= _) = _
    rw [t1]
    rfl
  have hkk : ks' = ks := by
    refine ((List.perm_ext_iff_of_nodup e4 t2).2 (fun k => by rw [e5, t3])).eq_of_pairwise (le := ShownBefore (accepted hist)) (fun a b _ _ hab hba => hab.antisymm hba) e6 t4
  subst hkk
  obtain ⟨r1, r2⟩ := C88_exact_partial h hs h7 h9 e7
  refine ⟨number, ks', t2, t3, t4, fun i k hk => ?_, fun q hq hn => ?_, ?_⟩
  · obtain ⟨js, j1, j2, j3⟩ := r1 i k hk
    exact ⟨js, j1, j2, by simp only [number, j3]⟩
  · simp only [number, r2 q (hc q hq) hn]
  · rw [(queryRun_spec o fuel file queries).1 _ _ hm]
    congr 1
    rw [List.flatMap_map]
    unfold answerText rankPart
    simp

/-- The same keys, with `-r -i`: "d" is no key.  The listing is in the order of the values. -/
example : ∃ d D file, Made keysB d D ∧ buildFile insertionSort { ranked := true, index := true } d = .ok file ∧
    (queryRun { ranked := true, index := true } 9 file "d\n".toUTF8.toList).out = "d: (not found)\nTotal words: 3\n0: a\n1: c\n2: b\n".toUTF8.toList := by
  obtain ⟨d, D, file, l, h, h1, _⟩ := small_ranked (hist := keysB) (by decide) madeB
  refine ⟨d, D, file, h, h1, ?_⟩
  have e1 : scanLines "d\n".toUTF8.toList = [[100]] := by decide +kernel
  obtain ⟨number, ks, a4, a5, a6, _, a8, a9⟩ := C86_exact_partial (queries := "d\n".toUTF8.toList) (fuel := 9) h insertionSort_stableSort rfl rfl h1
    (by rw [e1]; exact fun q hq => .of_bytes (by revert q; decide)) (by decide)
  obtain rfl := listed_keysB a4 a5 a6
  rw [e1] at a8
  rw [a9, e1]
  simp only [List.flatMap_cons, List.flatMap_nil]
  rw [a8 [100] (by simp) (by decide)]
  decide +kernel

end Dawg.Props
