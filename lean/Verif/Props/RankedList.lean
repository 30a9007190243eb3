import Verif.Props.Output
import Verif.Proof.Guide.Cut
/-! # C86: indexes over ranked guides, and `dawgtool -r -i` -/
namespace Dawg.Props
open Dawg Dawg.Spec Dawg.Client Dawg.Abs Dawg.Dict Dawg.Guided Dawg.Tool
attribute [-simp] List.length_flatten

/-- Every key `e` that is a proper prefix of `k` has a smaller value than some key that goes on with the same byte as `k`. -/
def Shown (acc : List (Key × Int)) (k : Key) : Prop :=
  ∀ e ∈ acc, ∀ b t, k = e.1 ++ b :: t → ∃ f ∈ acc, e.1 ++ [b] <+: f.1 ∧ stored e.2 < stored f.2

/-- A key before those that start with it; otherwise the bytes at the first difference decide: the greater of the greatest values behind them goes first, on equality the smaller
byte. -/
def ShownBefore (acc : List (Key × Int)) (k k' : Key) : Prop := k <+: k' ∨
  ∃ p b b' t t', k = p ++ b :: t ∧ k' = p ++ b' :: t' ∧ b ≠ b' ∧
    ∃ f ∈ acc, p ++ [b] <+: f.1 ∧ ∀ g ∈ acc, p ++ [b'] <+: g.1 → stored g.2 < stored f.2 ∨ (stored g.2 = stored f.2 ∧ b < b')

theorem shown_words {acc : List (Key × Int)} {k : Key} : Listed (words acc) k ↔ Shown acc k := by
  constructor
  · intro h e he b t hk
    obtain ⟨f, hf, h1, h2⟩ := h (wordE e) (List.mem_map.2 ⟨e, he, rfl⟩) b t hk
    obtain ⟨f', hf', rfl⟩ := List.mem_map.1 hf
    exact ⟨f', hf', h1, h2⟩
  · intro h e he b t hk
    obtain ⟨e', he', rfl⟩ := List.mem_map.1 he
    obtain ⟨f, hf, h1, h2⟩ := h e' he' b t hk
    exact ⟨wordE f, List.mem_map.2 ⟨f, hf, rfl⟩, h1, h2⟩

theorem shownBefore_words {acc : List (Key × Int)} {k k' : Key} (h : ListedBefore (words acc) k k') : ShownBefore acc k k' := by
  rcases h with h | ⟨p, b, b', t, t', h1, h2, h3, f, hf, h4, h5⟩
  · exact .inl h
  · obtain ⟨f', hf', rfl⟩ := List.mem_map.1 hf
    exact .inr ⟨p, b, b', t, t', h1, h2, h3, f', hf', h4, fun g hg hp => h5 (wordE g) (List.mem_map.2 ⟨g, hg, rfl⟩) hp⟩

/-- The order leaves no choice. -/
theorem ShownBefore.antisymm {acc : List (Key × Int)} {k k' : Key} (h : ShownBefore acc k k') (h' : ShownBefore acc k' k) : k = k' := by
  have split : ∀ {p q : Key} {b b' c c' : UInt8} {t t' s s' : Key}, p ++ b :: t = q ++ c :: s → p ++ b' :: t' = q ++ c' :: s' → b ≠ b' → c ≠ c' → p = q ∧ b = c ∧ b' = c' := by
    intro p
    induction p with
    | nil =>
      intro q b b' c c' t t' s s' h1 h2 h3 h4
      cases q with
      | nil => simp at h1 h2; exact ⟨rfl, h1.1, h2.1⟩
      | cons a q => simp at h1 h2; exact absurd (h1.1.trans h2.1.symm) h3
    | cons a p ih =>
      intro q b b' c c' t t' s s' h1 h2 h3 h4
      cases q with
      | nil => simp at h1 h2; exact absurd (h1.1.symm.trans h2.1) h4
      | cons a' q =>
        simp only [List.cons_append, List.cons.injEq] at h1 h2
        obtain ⟨rfl, h1⟩ := h1
        obtain ⟨h5, h6, h7⟩ := ih h1 h2.2 h3 h4
        exact ⟨by rw [h5], h6, h7⟩
  have nopre : ∀ {p : Key} {b b' : UInt8} {t t' : Key}, b ≠ b' → ¬ p ++ b :: t <+: p ++ b' :: t' := by
    intro p b b' t t' hb hc
    rw [List.prefix_append_right_inj, List.cons_prefix_cons] at hc
    exact hb hc.1
  rcases h with h | ⟨p, b, b', t, t', h1, h2, h3, f, hf, h4, h5⟩ <;> rcases h' with h' | ⟨q, c, c', s, s', g1, g2, g3, g, hg, g4, g5⟩
  · exact h.eq_of_length_le h'.length_le
  · subst g1 g2
    exact absurd h (nopre g3.symm)
  · subst h1 h2
    exact absurd h' (nopre h3.symm)
  · subst h1 h2
    obtain ⟨rfl, rfl, rfl⟩ := split g1 g2 h3.symm g3
    have k1 := h5 g hg g4
    have k2 := g5 f hf h4
    rcases k1 with k1 | ⟨k1, k3⟩ <;> rcases k2 with k2 | ⟨k2, k4⟩ <;> try omega
    exact absurd (UInt8.lt_trans k3 k4) (UInt8.lt_irrefl _)

/-- **C86**, for the library: `BuildIndex` succeeds with the ranked guide of a key set that is not empty; `TotalCount`, `IndexToBytes` and so `IndexToString` see exactly the keys that are
`Shown`, in the order `ShownBefore`, and `StringToIndex` ends with a number for queries that do not leave the key set with the low byte of a stored value, and with `NotFound` for those that are no keys. -/
theorem C86_index {hist d D g} {sorter : Sorter} (h : Made hist d D) (hne : accepted hist ≠ []) (hs : StableSort sorter) (hg : buildRankedGuide sorter d D = .ok (some g)) :
    ∃ (x : Index) (ks : List Key), buildIndex D g = .ok (some x) ∧ x.totalCount = .ok ks.length ∧ ks.length ≤ (accepted hist).length ∧ ks.Nodup ∧
      (∀ k, k ∈ ks ↔ (∃ e ∈ accepted hist, e.1 = k) ∧ Shown (accepted hist) k) ∧ ks.Pairwise (ShownBefore (accepted hist)) ∧
      (∀ i, Indexer.indexToBytes D g x i = .ok ks[i]?) ∧
      ∀ q, NoClash hist q → ∃ n, Indexer.bytesToIndex D g x q = .ok n ∧ ((∀ e ∈ accepted hist, e.1 ≠ q) → n = Indexer.notFound) := by
  obtain ⟨At, kid, DAt, V, h0, WW, hd0⟩ := Made.view h hne
  have V' := V.reach h0
  obtain ⟨g', f1, f2⟩ := buildRanked_spec (cmp := ltCmp) hs.perm V WW h0 hd0
  rw [show buildRankedGuideCmp sorter d D ltCmp = .ok (some g) from hg] at f1
  cases f1
  have ho : OrdPerm (Reach kid (words (accepted hist))) (rord D sorter ltCmp) := fun h => rord_perm (cmp := ltCmp) hs.perm V' h
  obtain ⟨x, e1, e2⟩ := buildCut_spec V h0 f2 ho
  have hdep := V'.small Reach.root
  have hmem : ∀ k, k ∈ findable (rord D sorter ltCmp) (D.size + 1) (words (accepted hist)) ↔ (∃ e ∈ accepted hist, e.1 = k) ∧ Shown (accepted hist) k := by
    intro k
    rw [mem_findable V' ho (D.size + 1) k Reach.root (fun e he => Nat.lt_succ_of_lt (hdep e he)), mem_words]
    constructor
    · rintro ⟨h1, h2⟩
      exact ⟨h1, shown_words.1 ((seen_rord hs V' k Reach.root (mem_words.2 h1)).1 h2)⟩
    · rintro ⟨h1, h2⟩
      exact ⟨h1, (seen_rord hs V' k Reach.root (mem_words.2 h1)).2 (shown_words.2 h2)⟩
  have hle : cnt D (rord D sorter ltCmp) (words (accepted hist)) ≤ (accepted hist).length := by
    have := cnt_le V' ho Reach.root
    rwa [words, List.length_map] at this
  have hlt := accepted_length_lt h.1
  refine ⟨x, findable (rord D sorter ltCmp) (D.size + 1) (words (accepted hist)), e1, e2.root Reach.root, hle, findable_nodup V' ho _ Reach.root, hmem, ?_, ?_, ?_⟩
  · exact (findable_before hs V' _ Reach.root).imp shownBefore_words
  · intro i
    unfold Indexer.indexToBytes
    rw [show D.root = 0 from rfl, select_cut V' f2 ho e2 i (D.size + 1) Reach.root (e2.root Reach.root) (fun e he => Nat.lt_succ_of_lt (hdep e he)) (Nat.zero_le _) (by omega)]
    simp
  · intro q hq
    obtain ⟨n, n1, n2⟩ := bytesLoop_ok V' f2 ho e2 q (r := 0) Reach.root hq.clean
    refine ⟨n, n1, fun hn => n2 (fun v hv => ?_)⟩
    obtain ⟨e, he, hq'⟩ := mem_words.1 ⟨v, hv⟩
    exact hn e he hq'

/-- The empty dictionary has no index. -/
theorem ranked_index_empty {hist d D g} {sorter : Sorter} (h : Made hist d D) (he : accepted hist = []) (hs : StableSort sorter) (hg : buildRankedGuide sorter d D = .ok (some g)) :
    buildIndex D g = .error .panic := by
  obtain ⟨g', e1, e2⟩ := C27_ranked_guide h hs.perm (fun lhs rhs => decide (lhs < rhs))
  rw [show buildRankedGuideCmp sorter d D (fun lhs rhs => decide (lhs < rhs)) = .ok (some g) from hg] at e1
  cases e1
  rw [if_pos he] at e2
  have hz : g.units = [] := List.length_eq_zero_iff.1 e2
  have : IndexBuilder.buildIndices D g (D.size + 1) (List.replicate D.size 0) 0 = .error .panic := by
    rw [IndexBuilder.buildIndices]
    obtain ⟨ok, i, k, h1, h2⟩ := follow_empty h he []
    have hi : i = 0 := by cases h1; rfl
    rw [hi] at h2
    rw [h2]
    unfold Guide.child
    rw [hz]
    rfl
  unfold buildIndex IndexBuilder.build
  rw [show g.root = 0 from rfl, this]
  rfl

/-- The full claim C86: with `-r -i`, the tool lists every key once. -/
def C86_statement : Prop := ∀ hist d D (linkSorter : Sorter) (o : Opts) (file : List UInt8) (l : Loaded), Made hist d D → StableSort linkSorter → o.ranked = true → o.index = true →
  buildFile linkSorter o d = .ok file → load o file = .ok l → ∃ ks, totals o l = .ok (some ks) ∧ ks.Perm ((accepted hist).map (·.1))

/-- **C86**, what is listed: exactly the keys `k` such that every key that is a proper prefix of `k` has a smaller value than some key that goes on with the same byte as `k`.  They are
listed once and in the order `ShownBefore`. -/
theorem C86_listing_partial {hist d D} {linkSorter : Sorter} (h : Made hist d D) (hs : StableSort linkSorter) {o : Opts} (hr : o.ranked = true) (hi : o.index = true)
    {file : List UInt8} (hf : buildFile linkSorter o d = .ok file) {l : Loaded} (hl : load o file = .ok l) :
    ∃ ks, totals o l = .ok (some ks) ∧ ks.Nodup ∧ (∀ k, k ∈ ks ↔ (∃ e ∈ accepted hist, e.1 = k) ∧ Shown (accepted hist) k) ∧ ks.Pairwise (ShownBefore (accepted hist)) := by
  obtain ⟨l', h1, h2, h3, _, _, h4, h5⟩ := C45_tool_roundtrip h hs o hf
  rw [hl] at h1
  cases h1
  obtain ⟨g, h6, h7⟩ := h3 hr
  obtain ⟨x, h8, h9⟩ := h4 g h6 hi
  have hne : accepted hist ≠ [] := by
    intro he
    rw [ranked_index_empty h he hs h7] at h9
    cases h9
  obtain ⟨x', ks, e1, e2, e3, e4, e5, e6, e7, _⟩ := C86_index h hne hs h7
  rw [h9] at e1
  cases e1
  refine ⟨ks, ?_, e4, e5, e6⟩
  unfold totals
  rw [hi, h6, h8, h2]
  simp only [if_true]
  rw [show Indexer.totalCount x = .ok ks.length from e2]
  simp only [ok_bind]
  have hsz := accepted_length_lt h.1
  rw [mapM_ok (g := fun i => (ks[i]?).getD [])]
  · show Except.ok (some _) = Except.ok (some _)
    congr 2
    apply List.ext_getElem
    · simp
    · intro i h1 h2
      simp only [List.length_map, List.length_range] at h1
      simp [h1]
  · intro i hi
    rw [List.mem_range] at hi
    have : u32 i = i := Nat.mod_eq_of_lt (by omega)
    rw [this]
    unfold Indexer.indexToString
    rw [e7 i]
    rfl

/-- With `-r -i` a file is written exactly for the lexicons with a key. -/
theorem C86_writes {hist d D} {linkSorter : Sorter} (h : Made hist d D) (hs : StableSort linkSorter) {o : Opts} (hr : o.ranked = true) (hi : o.index = true) :
    (accepted hist ≠ [] → ∃ file, buildFile linkSorter o d = .ok file) ∧ (accepted hist = [] → buildFile linkSorter o d = .error (.fault .panic)) := by
  obtain ⟨n, oks, b, num, h1, h2, hadm, h3, h4⟩ := Made.unfold' h
  obtain ⟨g1, r1, r2⟩ := C27_ranked_guide h hs.perm (fun lhs rhs => decide (lhs < rhs))
  have r1 : buildRankedGuide linkSorter d D = .ok (some g1) := r1
  obtain ⟨g2, p1, p2, _⟩ := C26_guide h
  rw [buildFile_eq o h4 r1 p1]
  simp only [hr, hi, if_true]
  constructor
  · intro hne
    obtain ⟨x, _, e1, _⟩ := C86_index h hne hs r1
    rw [e1]
    exact ⟨_, rfl⟩
  · intro he
    rw [ranked_index_empty h he hs r1]
    rfl

/-- Everything is listed exactly if every key is `Shown`. -/
theorem C86_all {hist d D} {linkSorter : Sorter} (h : Made hist d D) (hs : StableSort linkSorter) {o : Opts} (hr : o.ranked = true) (hi : o.index = true)
    {file : List UInt8} (hf : buildFile linkSorter o d = .ok file) {l : Loaded} (hl : load o file = .ok l) :
    (∃ ks, totals o l = .ok (some ks) ∧ ks.Perm ((accepted hist).map (·.1))) ↔ ∀ e ∈ accepted hist, Shown (accepted hist) e.1 := by
  obtain ⟨ks, h1, h2, h3, _⟩ := C86_listing_partial h hs hr hi hf hl
  constructor
  · rintro ⟨ks', h4, h5⟩
    rw [h1] at h4
    cases h4
    intro e he
    exact ((h3 e.1).1 (h5.mem_iff.2 (List.mem_map_of_mem he))).2
  · intro hall
    refine ⟨ks, h1, (List.perm_ext_iff_of_nodup h2 ?_).2 ?_⟩
    · unfold List.Nodup
      rw [List.pairwise_map]
      exact (accepted_sorted hist).imp (fun {a b} hab hc => by rw [hc] at hab; exact absurd hab (by simp))
    · intro k
      rw [h3]
      constructor
      · rintro ⟨⟨e, he, rfl⟩, _⟩
        exact List.mem_map_of_mem he
      · intro hk
        obtain ⟨e, he, rfl⟩ := List.mem_map.1 hk
        exact ⟨⟨e, he, rfl⟩, hall e he⟩

/-- One answer with `-r -i`. -/
theorem answer_ranked_index {hist d D g l x} {linkSorter : Sorter} {o : Opts} (h : Made hist d D) (hs : StableSort linkSorter) (hg : buildRankedGuide linkSorter d D = .ok (some g))
    (hl : l.dict = D ∧ l.guide = some g ∧ l.index = some x) (hx : buildIndex D g = .ok (some x)) (hr : o.ranked = true) {q : Key} (hc : NoClash hist q) (c : Completers) {fuel : Nat}
    (hfuel : (extensions (accepted hist) q).length < fuel) :
    ∃ n hits c', answer o l fuel c q = .ok (⟨q, some n, hits⟩, c') ∧ Indexer.bytesToIndex D g x q = .ok n ∧ RankedHits (accepted hist) q hits := by
  have hne : accepted hist ≠ [] := by
    intro he
    rw [ranked_index_empty h he hs hg] at hx
    cases hx
  obtain ⟨x', ks, e1, _, _, _, _, _, _, e2⟩ := C86_index h hne hs hg
  rw [hx] at e1
  cases e1
  obtain ⟨n, hn, _⟩ := e2 q hc
  obtain ⟨ok, i, k, h1, h2, h3⟩ := ranked_hits h hs hg hc c.ranked hfuel
  obtain ⟨l1, l2, l3⟩ := hl
  have hq : queryRank l g q = .ok (some n) := by
    unfold queryRank
    rw [l3]
    simp only [l1]
    rw [hn]
    rfl
  unfold answer
  rw [l2]
  simp only
  rw [hq]
  simp only [ok_bind, l1]
  rw [h1]
  simp only [ok_bind]
  cases ok with
  | false => exact ⟨n, [], c, rfl, hn, [], by rw [h2 rfl], by simp, rfl⟩
  | true =>
    obtain ⟨rc, rc', hits, h4, h5, h6⟩ := h3 rfl
    simp only [Bool.not_true, Bool.false_eq_true, if_false, hr, if_true]
    rw [h4]
    simp only [ok_bind]
    rw [h5]
    exact ⟨n, hits, { c with ranked := rc' }, rfl, hn, h6⟩

theorem answers_ranked_index {o : Opts} {l : Loaded} {fuel : Nat} {P : Key → List (Key × Int) → Prop} {R : Key → Nat → Prop} {qs : List Key}
    (h : ∀ q ∈ qs, ∀ c, ∃ n hits c', answer o l fuel c q = .ok (⟨q, some n, hits⟩, c') ∧ R q n ∧ P q hits) (c : Completers) :
    ∃ as, answers o l fuel c qs = .ok as ∧ as.map (·.query) = qs ∧ ∀ a ∈ as, (∃ n, a.rank = some n ∧ R a.query n) ∧ P a.query a.hits := by
  induction qs generalizing c with
  | nil => exact ⟨[], rfl, rfl, by simp⟩
  | cons q qs ih =>
    obtain ⟨n, hits, c', h1, h0, h2⟩ := h q (by simp) c
    obtain ⟨as, h3, h4, h5⟩ := ih (fun q hq => h q (by simp [hq])) c'
    refine ⟨⟨q, some n, hits⟩ :: as, ?_, by simp [h4], ?_⟩
    · rw [answers, h1]
      simp only [ok_bind]
      rw [h3]
      rfl
    · intro a ha
      rcases List.mem_cons.1 ha with rfl | ha
      · exact ⟨⟨n, rfl, h0⟩, h2⟩
      · exact h5 a ha

/-- **C86**, the whole run with `-r -i`: for queries that do not leave the key set with the low byte of a stored value it ends, answers every query with a number and with the
keys that start with it, the values never increasing, and then prints the listing. -/
theorem C86_run_partial {hist d D} {linkSorter : Sorter} (h : Made hist d D) (hs : StableSort linkSorter) {o : Opts} (hr : o.ranked = true) (hi : o.index = true)
    {file : List UInt8} (hf : buildFile linkSorter o d = .ok file) {queries : List UInt8} (hc : ∀ q ∈ scanLines queries, NoClash hist q) {fuel : Nat}
    (hfuel : (accepted hist).length < fuel) :
    ∃ as ks, mainQuery o fuel file queries = .ok (as, some ks) ∧ as.map (·.query) = scanLines queries ∧
      (∀ a ∈ as, a.rank ≠ none ∧ RankedHits (accepted hist) a.query a.hits) ∧ ks.Nodup ∧
      (∀ k, k ∈ ks ↔ (∃ e ∈ accepted hist, e.1 = k) ∧ Shown (accepted hist) k) ∧ ks.Pairwise (ShownBefore (accepted hist)) ∧
      queryRun o fuel file queries = ⟨as.flatMap answerText ++ totalsText (some ks), [], .ok ()⟩ := by
  obtain ⟨l, h1, h2, h3, _, _, h4, h5⟩ := C45_tool_roundtrip h hs o hf
  obtain ⟨g, h6, h7⟩ := h3 hr
  obtain ⟨x, h8, h9⟩ := h4 g h6 hi
  obtain ⟨as, k1, k2, k3⟩ := answers_ranked_index (o := o) (l := l) (fuel := fuel) (P := RankedHits (accepted hist)) (qs := scanLines queries)
    (fun q hq c => answer_ranked_index h hs h7 ⟨h2, h6, h8⟩ h9 hr (hc q hq) c (by have := extensions_le (accepted hist) q; omega)) Completers.new
  obtain ⟨ks, t1, t2, t3, t4⟩ := C86_listing_partial h hs hr hi hf h1
  have hm : mainQuery o fuel file queries = .ok (as, some ks) := by
    unfold mainQuery handleLoad
    rw [h1]
    change (lift (answers o l fuel Completers.new (scanLines queries)) >>= _) = _
    rw [k1]
    change (lift (totals o l) >>= _) = _
    rw [t1]
    rfl
  refine ⟨as, ks, hm, k2, fun a ha => ⟨?_, (k3 a ha).2⟩, t2, t3, t4, (queryRun_spec o fuel file queries).1 as _ hm⟩
  obtain ⟨⟨n, hn, _⟩, _⟩ := k3 a ha
  rw [hn]
  simp

theorem small_ranked {hist : List (Key × Int)} (hne : accepted hist ≠ []) (hm : ∃ d D, Made hist d D) :
    ∃ d D file l, Made hist d D ∧ buildFile insertionSort { ranked := true, index := true } d = .ok file ∧ load { ranked := true, index := true } file = .ok l := by
  obtain ⟨d, D, h⟩ := hm
  obtain ⟨file, h1⟩ := (C86_writes (o := { ranked := true, index := true }) h insertionSort_stableSort rfl rfl).1 hne
  obtain ⟨l, h2, _⟩ := C45_tool_roundtrip h insertionSort_stableSort _ h1
  exact ⟨d, D, file, l, h, h1, h2⟩

/-- "a" = 1 and "ab" = 1. -/
abbrev keysR : List (Key × Int) := [([97], 1), ([97, 98], 1)]

/-- **C86 is false**: of "a" = 1 and "ab" = 1 only "a" is listed. -/
theorem C86_listing_false : ¬ C86_statement := by
  intro hst
  obtain ⟨d, D, file, l, h, h1, h2⟩ := small_ranked (hist := keysR) (by decide) (by
    obtain ⟨d, D, h, _⟩ := C14_small_builds 1 (by omega) (by omega) keysR (by decide) (by decide)
    exact ⟨d, D, h⟩)
  have h3 := (C86_all h insertionSort_stableSort rfl rfl h1 h2).1 (hst _ d D insertionSort _ file l h insertionSort_stableSort rfl rfl h1 h2)
  obtain ⟨f, hf, hp, hlt⟩ := h3 ([97, 98], 1) (by decide) ([97], 1) (by decide) 98 [] rfl
  have : ∀ f ∈ accepted keysR, ¬ stored 1 < stored f.2 := by decide
  exact this f hf hlt

/-- "a" = 5, "ab" = 3, "b" = 7: with `-r -i` the tool lists "b" and "a", but not "ab". -/
example : ∃ d D file l, Made keysG d D ∧ buildFile insertionSort { ranked := true, index := true } d = .ok file ∧ load { ranked := true, index := true } file = .ok l ∧
    totals { ranked := true, index := true } l = .ok (some [[98], [97]]) := by
  obtain ⟨d, D, file, l, h, h1, h2⟩ := small_ranked (hist := keysG) (by decide) madeG
  refine ⟨d, D, file, l, h, h1, h2, ?_⟩
  obtain ⟨ks, h3, h4, h5, h6⟩ := C86_listing_partial h insertionSort_stableSort rfl rfl h1 h2
  rw [h3]
  congr 2
  have m1 : ([98] : Key) ∈ ks := (h5 _).2 ⟨by decide, fun e he b t hk => by
    have : ∀ e ∈ accepted keysG, e.1.length + 1 ≤ 1 → False := by decide
    exact (this e he (by have := congrArg List.length hk; simp at this; omega)).elim⟩
  have m2 : ([97] : Key) ∈ ks := (h5 _).2 ⟨by decide, fun e he b t hk => by
    have : ∀ e ∈ accepted keysG, e.1.length + 1 ≤ 1 → False := by decide
    exact (this e he (by have := congrArg List.length hk; simp at this; omega)).elim⟩
  have m3 : ([97, 98] : Key) ∉ ks := fun hc => by
    obtain ⟨f, hf, hp, hlt⟩ := ((h5 _).1 hc).2 ([97], 5) (by decide) 98 [] rfl
    have : ∀ f ∈ accepted keysG, [97, 98] <+: f.1 → ¬ stored 5 < stored f.2 := by decide
    exact this f hf hp hlt
  have hb : ShownBefore (accepted keysG) [98] [97] := .inr ⟨[], 98, 97, [], [], rfl, rfl, by decide, ([98], 7), by decide, by decide, by decide⟩
  have hp : ks.Perm [[98], [97]] := (List.perm_ext_iff_of_nodup h4 (by decide)).2 (fun k => by
    constructor
    · intro hk
      obtain ⟨⟨e, he, rfl⟩, _⟩ := (h5 k).1 hk
      have : ∀ e ∈ accepted keysG, e.1 = [97, 98] ∨ e.1 ∈ ([[98], [97]] : List Key) := by decide
      rcases this e he with hc | hc
      · exact absurd (hc ▸ hk) m3
      · exact hc
    · intro hk
      simp only [List.mem_cons, List.not_mem_nil, or_false] at hk
      rcases hk with rfl | rfl
      · exact m1
      · exact m2)
  exact hp.eq_of_pairwise (le := ShownBefore (accepted keysG)) (fun a b _ _ hab hba => hab.antisymm hba) h6 (by simpa using hb)

/-- The same file and the queries "a" and "c": the run ends. -/
example : ∃ d D file as ks, Made keysG d D ∧ buildFile insertionSort { ranked := true, index := true } d = .ok file ∧
    mainQuery { ranked := true, index := true } 9 file [97, 10, 99, 10] = .ok (as, some ks) ∧ as.map (·.query) = [[97], [99]] ∧ [97] ∈ ks ∧ [97, 98] ∉ ks := by
  obtain ⟨d, D, file, l, h, h1, h2⟩ := small_ranked (hist := keysG) (by decide) madeG
  have e1 : scanLines [97, 10, 99, 10] = [[97], [99]] := by decide +kernel
  obtain ⟨as, ks, h3, h4, _, _, h5, _⟩ := C86_run_partial (queries := [97, 10, 99, 10]) (fuel := 9) h insertionSort_stableSort rfl rfl h1
    (by rw [e1]; exact fun q hq => .of_bytes (by revert q; decide)) (by decide)
  refine ⟨d, D, file, as, ks, h, h1, h3, by rw [h4, e1], ?_, ?_⟩
  · refine (h5 _).2 ⟨by decide, fun e he b t hk => ?_⟩
    have : ∀ e ∈ accepted keysG, e.1.length + 1 ≤ 1 → False := by decide
    exact (this e he (by have := congrArg List.length hk; simp at this; omega)).elim
  · intro hc
    obtain ⟨f, hf, hp, hlt⟩ := ((h5 _).1 hc).2 ([97], 5) (by decide) 98 [] rfl
    have : ∀ f ∈ accepted keysG, [97, 98] <+: f.1 → ¬ stored 5 < stored f.2 := by decide
    exact this f hf hp hlt

end Dawg.Props
