import Verif.Props.Guide
import Verif.Proof.Guide.Index
import Verif.Proof.Dict.WitnessRank
/-! # C30–C32: the index -/
namespace Dawg.Props
open Dawg Dawg.Spec Dawg.Client Dawg.Abs Dawg.Dict Dawg.Guided
attribute [-simp] List.length_flatten

theorem residual_words_length (acc : List (Key × Int)) (p : Key) :
    (residual (words acc) p).length = acc.countP (fun e => p.isPrefixOf e.1) := by
  unfold residual words
  rw [List.length_map, ← List.countP_eq_length_filter, List.countP_map]
  rfl

theorem rank_words (acc : List (Key × Int)) (q : Key) : rank (words acc) q = acc.countP (fun e => decide (e.1 < q)) := by
  unfold rank words
  rw [← List.countP_eq_length_filter, List.countP_map]
  rfl

/-- The guide and the index of a dictionary with keys. -/
theorem Made.indexed {hist d D gd} (h : Made hist d D) (hne : accepted hist ≠ []) (hg : buildGuide d D = .ok (some gd)) :
    ∃ At kid, View D At kid (CleanByte hist) ∧ At 0 (words (accepted hist)) ∧ GuideIs D (Reach kid (words (accepted hist))) kid heads gd ∧
      ∃ idx, buildIndex D gd = .ok (some idx) ∧ IndexIs D (Reach kid (words (accepted hist))) idx := by
  obtain ⟨At, kid, DAt, V, h0, W, hd0⟩ := Made.view h hne
  obtain ⟨gd', e1, e2⟩ := buildGuide_spec V W h0 hd0
  rw [hg] at e1
  cases e1
  obtain ⟨idx, e3, e4⟩ := buildIndex_spec V h0 e2 cutOk_heads
  exact ⟨At, kid, V, h0, e2, idx, e3, e4⟩

/-! ## C30 -/

/-- The full claim C30. -/
def C30_statement : Prop := ∀ hist d D gd, Made hist d D → buildGuide d D = .ok (some gd) → ∃ idx, buildIndex D gd = .ok (some idx) ∧
  idx.totalCount = .ok (accepted hist).length ∧
  ∀ p u n, (∃ e ∈ accepted hist, p <+: e.1) → D.followString p D.root = .ok (true, u, n) →
    idx.childCount u = .ok ((accepted hist).countP (fun e => p.isPrefixOf e.1))

/-- **C30**, for all key sets but the empty one. -/
theorem C30_counts_partial {hist d D gd} (h : Made hist d D) (hne : accepted hist ≠ []) (hg : buildGuide d D = .ok (some gd)) :
    ∃ idx, buildIndex D gd = .ok (some idx) ∧ idx.size = D.size ∧ idx.totalCount = .ok (accepted hist).length ∧
    ∀ p u n, (∃ e ∈ accepted hist, p <+: e.1) → D.followString p D.root = .ok (true, u, n) →
      idx.childCount u = .ok ((accepted hist).countP (fun e => p.isPrefixOf e.1)) := by
  obtain ⟨At, kid, V, h0, e2, idx, e3, e4⟩ := Made.indexed h hne hg
  refine ⟨idx, e3, e4.size, ?_, ?_⟩
  · have := e4.count Reach.root
    rw [words, List.length_map] at this
    exact this
  · intro p u n hp hf
    rw [e4.count (Made.index h V h0 hp hf), residual_words_length]

example : ∃ hist d D gd idx, Made hist d D ∧ accepted hist ≠ [] ∧ buildGuide d D = .ok (some gd) ∧ buildIndex D gd = .ok (some idx) ∧
    idx.totalCount = .ok 3 := by
  obtain ⟨d, D, h⟩ := madeG
  obtain ⟨gd, h1, _⟩ := C26_guide h
  obtain ⟨idx, h2, _, h3, _⟩ := C30_counts_partial h (by decide) h1
  exact ⟨_, d, D, gd, idx, h, by decide, h1, h2, h3⟩

/-- On a dictionary without keys `BuildGuide` returns an empty guide, and `BuildIndex` panics on it. -/
theorem C30_empty_panics {hist d D} (h : Made hist d D) (he : accepted hist = []) :
    buildGuide d D = .ok (some Guide.new) ∧ buildIndex D Guide.new = .error .panic := by
  constructor
  · unfold buildGuide GuideBuilder.build
    simp only
    rw [if_pos (by rw [Made.empty_size h he]; omega)]
    rfl
  · have : IndexBuilder.buildIndices D Guide.new (D.size + 1) (List.replicate D.size 0) 0 = .error .panic := by
      rw [IndexBuilder.buildIndices]
      obtain ⟨ok, i, k, h1, h2⟩ := follow_empty h he []
      have hi : i = 0 := by cases h1; rfl
      rw [hi] at h2
      rw [h2]
      rfl
    unfold buildIndex IndexBuilder.build
    rw [show Guide.new.root = 0 from rfl, this]
    rfl

example : ∃ d D, Made [] d D ∧ accepted [] = [] := by
  obtain ⟨d, D, h, _⟩ := C14_small_builds 1 (by omega) (by omega) [] (by decide) (by decide)
  exact ⟨d, D, h, rfl⟩

/-- **C30 is false** for the empty key set. -/
theorem C30_counts_false : ¬ C30_statement := by
  intro hs
  obtain ⟨d, D, h, _⟩ := C14_small_builds 1 (by omega) (by omega) [] (by decide) (by decide)
  obtain ⟨h1, h2⟩ := C30_empty_panics h rfl
  obtain ⟨idx, h3, _⟩ := hs _ d D _ h h1
  rw [h2] at h3
  cases h3

/-! ## C31 -/

/-- The full claim C31 (for the dictionaries that have an index). -/
def C31_statement : Prop := ∀ hist d D gd idx, Made hist d D → buildGuide d D = .ok (some gd) → buildIndex D gd = .ok (some idx) →
  ∀ q : Key, (0 : UInt8) ∉ q →
    ((∃ e ∈ accepted hist, e.1 = q) → Indexer.bytesToIndex D gd idx q = .ok ((accepted hist).countP (fun e => decide (e.1 < q)))) ∧
    ((∀ e ∈ accepted hist, e.1 ≠ q) → Indexer.bytesToIndex D gd idx q = .ok Indexer.notFound)

/-- An index is only built for a dictionary with keys. -/
theorem Made.nonempty {hist d D gd idx} (h : Made hist d D) (hg : buildGuide d D = .ok (some gd)) (hi : buildIndex D gd = .ok (some idx)) : accepted hist ≠ [] := by
  intro he
  obtain ⟨h1, h2⟩ := C30_empty_panics h he
  rw [h1] at hg
  cases hg
  rw [h2] at hi
  cases hi

/-- `gd` has the transitions in byte order, and `idx` the right counts. -/
def Indexed (hist : List (Key × Int)) (D : Dictionary) (gd : Guide) (idx : Index) : Prop :=
  ∃ At kid, View D At kid (CleanByte hist) ∧ At 0 (words (accepted hist)) ∧ GuideIs D (Reach kid (words (accepted hist))) kid heads gd ∧
    IndexIs D (Reach kid (words (accepted hist))) idx

theorem Made.indexed' {hist d D gd idx} (h : Made hist d D) (hg : buildGuide d D = .ok (some gd)) (hi : buildIndex D gd = .ok (some idx)) : Indexed hist D gd idx := by
  obtain ⟨At, kid, V, h0, e2, idx', e3, e4⟩ := Made.indexed h (Made.nonempty h hg hi) hg
  rw [hi] at e3
  cases e3
  exact ⟨At, kid, V, h0, e2, e4⟩

theorem bytesToIndex_spec {hist D gd idx} (hadm : Admissible hist) (hx : Indexed hist D gd idx) {q : Key} (hc : NoClash hist q) :
    ((∃ e ∈ accepted hist, e.1 = q) ∧ Indexer.bytesToIndex D gd idx q = .ok ((accepted hist).countP (fun e => decide (e.1 < q)))) ∨
    ((∀ e ∈ accepted hist, e.1 ≠ q) ∧ Indexer.bytesToIndex D gd idx q = .ok Indexer.notFound) := by
  obtain ⟨At, kid, V, h0, e2, e4⟩ := hx
  have := bytesLoop_spec (V.reach h0) e2 e4 q (r := 0) Reach.root (by
      have := accepted_length_lt hadm
      rw [words, List.length_map]; omega)
    hc.clean
  rw [rank_words, Nat.zero_add] at this
  rcases this with ⟨h1, h2⟩ | ⟨h1, h2⟩
  · exact .inl ⟨mem_words.1 h1, h2⟩
  · exact .inr ⟨fun e he hq => by obtain ⟨v, hv⟩ := mem_words.2 ⟨e, he, hq⟩; exact h1 v hv, h2⟩

/-- **C31** for all inserted keys, and for all other queries that do not leave the key set with the low byte of a stored value. -/
theorem C31_rank_partial {hist d D gd idx} (h : Made hist d D) (hg : buildGuide d D = .ok (some gd)) (hi : buildIndex D gd = .ok (some idx)) (q : Key) :
    ((∃ e ∈ accepted hist, e.1 = q) → Indexer.bytesToIndex D gd idx q = .ok ((accepted hist).countP (fun e => decide (e.1 < q)))) ∧
    (NoClash hist q → (∀ e ∈ accepted hist, e.1 ≠ q) → Indexer.bytesToIndex D gd idx q = .ok Indexer.notFound) := by
  constructor
  · intro hq
    rcases bytesToIndex_spec h.1 (Made.indexed' h hg hi) (NoClash.of_key hq) with ⟨_, h1⟩ | ⟨h1, _⟩
    · exact h1
    · obtain ⟨e, he, hk⟩ := hq
      exact absurd hk (h1 e he)
  · intro hc hq
    rcases bytesToIndex_spec h.1 (Made.indexed' h hg hi) hc with ⟨⟨e, he, hk⟩, _⟩ | ⟨_, h1⟩
    · exact absurd hk (hq e he)
    · exact h1

example : ∃ hist d D gd idx, Made hist d D ∧ buildGuide d D = .ok (some gd) ∧ buildIndex D gd = .ok (some idx) ∧
    Indexer.bytesToIndex D gd idx [98] = .ok 2 ∧ Indexer.bytesToIndex D gd idx [97, 97] = .ok Indexer.notFound := by
  obtain ⟨d, D, h⟩ := madeG
  obtain ⟨gd, h1, _⟩ := C26_guide h
  obtain ⟨idx, h2, _⟩ := C30_counts_partial h (by decide) h1
  exact ⟨_, d, D, gd, idx, h, h1, h2, (C31_rank_partial h h1 h2 [98]).1 (by decide), (C31_rank_partial h h1 h2 [97, 97]).2 (.of_bytes (by decide)) (by decide)⟩

/-- **C31 is false**: with "a" = 354 and "i" = 256, `StringToIndex("b")` is 1, because the unit of the value 354 answers to "b". -/
theorem C31_rank_false : ¬ C31_statement := by
  intro hs
  obtain ⟨d, h, _⟩ := Witness.made_of_run Witness.admB Witness.runB
  obtain ⟨gd, h1, _, h2⟩ := C26_guide h
  obtain ⟨idx, h3, _, _, h4⟩ := C30_counts_partial h (by decide) h1
  have h5 := (hs _ d _ gd idx h h1 h3 [98] (by decide)).2 (by decide)
  obtain ⟨h6, h7⟩ := h2 [] 0 0 (by decide) rfl
  obtain ⟨v, h8, h9⟩ := h7 [] 97 [105] (by decide)
  have hv : v = 1 := by
    rw [show Witness.dictB.follow 97 0 = .ok (some 1) by decide +kernel] at h8
    cases h8; rfl
  subst hv
  have h10 := h4 [97] 1 1 (by decide) (by decide +kernel)
  rw [show List.headD (heads (residual (accepted Witness.histB) [])) 0 = 97 by decide] at h6
  rw [show List.countP (fun e : Key × Int => List.isPrefixOf [97] e.1) (accepted Witness.histB) = 1 by decide] at h10
  have hskip : Indexer.skip Witness.dictB gd idx 0 98 257 0 97 = .ok (some (1, 105)) := by
    rw [Indexer.skip, if_pos (by decide), h8]
    simp only [ok_bind]
    rw [h10]
    simp only [ok_bind]
    rw [h9]
    simp only [ok_bind]
    rfl
  have : Indexer.bytesToIndex Witness.dictB gd idx [98] = .ok 1 := by
    unfold Indexer.bytesToIndex
    rw [Indexer.bytesLoop, show Witness.dictB.root = 0 from rfl, show Witness.dictB.hasValue 0 = .ok false by decide +kernel]
    simp only [ok_bind]
    rw [h6]
    simp only [ok_bind, Bool.false_eq_true, if_false]
    rw [hskip]
    simp only [ok_bind]
    rw [if_neg (by decide), show Witness.dictB.follow 98 0 = .ok (some 2) by decide +kernel]
    simp only [ok_bind]
    rw [Indexer.bytesLoop, show Witness.dictB.hasValue 2 = .ok true by decide +kernel]
    rfl
  rw [this] at h5
  cases h5

/-! ## C32 -/

theorem indexToBytes_spec {hist D gd idx} (hadm : Admissible hist) (hx : Indexed hist D gd idx) (i : Nat) :
    Indexer.indexToBytes D gd idx i = .ok ((accepted hist)[i]?.map (fun e => e.1)) := by
  obtain ⟨At, kid, V, h0, e2, e4⟩ := hx
  unfold Indexer.indexToBytes
  have := selectLoop_spec (V.reach h0) e2 (fun h _ => e4.count h) i (D.size + 1) (cur := 0) (buf := []) Reach.root
    (fun e he => by have := (V.reach h0).depth Reach.root e he; omega) (by omega) (by
      have := accepted_length_lt hadm
      rw [words, List.length_map]; omega)
  rw [show D.root = 0 from rfl, this]
  congr 1
  rw [Nat.sub_zero, words, List.getElem?_map]
  cases (accepted hist)[i]? <;> rfl

/-- The `i`-th of an increasing list has rank `i`. -/
theorem countP_sorted {acc : List (Key × Int)} (hs : acc.Pairwise (fun a b => a.1 < b.1)) {i : Nat} {e : Key × Int} (h : acc[i]? = some e) :
    acc.countP (fun x => decide (x.1 < e.1)) = i := by
  induction acc generalizing i with
  | nil => simp at h
  | cons a acc ih =>
    obtain ⟨h1, h2⟩ := List.pairwise_cons.1 hs
    cases i with
    | zero =>
      simp only [List.getElem?_cons_zero, Option.some.injEq] at h
      subst h
      rw [List.countP_eq_zero]
      intro x hx
      simp only [decide_eq_true_eq]
      rcases List.mem_cons.1 hx with rfl | hx
      · exact List.lt_irrefl _
      · intro hc
        exact List.lt_irrefl _ (List.lt_trans hc (h1 x hx))
    | succ i =>
      rw [List.getElem?_cons_succ] at h
      rw [List.countP_cons_of_pos (by simpa using h1 e (List.mem_of_getElem? h)), ih h2 h]

/-- **C32.** For every index that `BuildIndex` returned: `IndexToString(i)` is the `i`-th key in byte order, and nil (the empty string) for `i` from
`TotalCount` on; it is the inverse of `StringToIndex`, and both preserve the order. -/
theorem C32_select {hist d D gd idx} (h : Made hist d D) (hg : buildGuide d D = .ok (some gd)) (hi : buildIndex D gd = .ok (some idx)) :
    (∀ i, Indexer.indexToBytes D gd idx i = .ok ((accepted hist)[i]?.map (fun e => e.1))) ∧
    (∀ i, Indexer.indexToString D gd idx i = .ok (((accepted hist)[i]?.map (fun e => e.1)).getD [])) ∧
    (∀ i < (accepted hist).length, ∃ k, Indexer.indexToBytes D gd idx i = .ok (some k) ∧ Indexer.bytesToIndex D gd idx k = .ok i) ∧
    (∀ e ∈ accepted hist, ∃ i, Indexer.bytesToIndex D gd idx e.1 = .ok i ∧ Indexer.indexToBytes D gd idx i = .ok (some e.1)) ∧
    (∀ i j a b, Indexer.indexToBytes D gd idx i = .ok (some a) → Indexer.indexToBytes D gd idx j = .ok (some b) → (a < b ↔ i < j)) := by
  have hsel := indexToBytes_spec h.1 (Made.indexed' h hg hi)
  have hsort := accepted_sorted hist
  have hrank : ∀ i e, (accepted hist)[i]? = some e → Indexer.bytesToIndex D gd idx e.1 = .ok i := by
    intro i e he
    have := (C31_rank_partial h hg hi e.1).1 ⟨e, List.mem_of_getElem? he, rfl⟩
    rw [this, countP_sorted hsort he]
  refine ⟨hsel, ?_, ?_, ?_, ?_⟩
  · intro i
    unfold Indexer.indexToString
    rw [hsel]
    rfl
  · intro i hil
    have he : (accepted hist)[i]? = some (accepted hist)[i] := by simp [hil]
    refine ⟨_, by rw [hsel, he]; rfl, hrank i _ he⟩
  · intro e he
    obtain ⟨i, hi'⟩ := List.getElem?_of_mem he
    exact ⟨i, hrank i e hi', by rw [hsel, hi']; rfl⟩
  · intro i j a b ha hb
    rw [hsel] at ha hb
    simp only [Except.ok.injEq, Option.map_eq_some_iff] at ha hb
    obtain ⟨e, he, rfl⟩ := ha
    obtain ⟨f, hf, rfl⟩ := hb
    have lt : ∀ {i j : Nat} {e f : Key × Int}, (accepted hist)[i]? = some e → (accepted hist)[j]? = some f → i < j → e.1 < f.1 := by
      intro i j e f he hf hij
      obtain ⟨hi1, rfl⟩ := List.getElem?_eq_some_iff.1 he
      obtain ⟨hj1, rfl⟩ := List.getElem?_eq_some_iff.1 hf
      exact List.pairwise_iff_getElem.1 hsort i j hi1 hj1 hij
    constructor
    · intro hlt
      rcases Nat.lt_trichotomy i j with hij | hij | hij
      · exact hij
      · subst hij
        rw [he] at hf
        cases hf
        exact absurd hlt (List.lt_irrefl _)
      · exact absurd (List.lt_trans hlt (lt hf he hij)) (List.lt_irrefl _)
    · exact lt he hf

example : ∃ hist d D gd idx, Made hist d D ∧ buildGuide d D = .ok (some gd) ∧ buildIndex D gd = .ok (some idx) ∧
    Indexer.indexToBytes D gd idx 1 = .ok (some [97, 98]) ∧ Indexer.indexToString D gd idx 3 = .ok [] := by
  obtain ⟨d, D, h⟩ := madeG
  obtain ⟨gd, h1, _⟩ := C26_guide h
  obtain ⟨idx, h2, _⟩ := C30_counts_partial h (by decide) h1
  obtain ⟨h3, h4, _⟩ := C32_select h h1 h2
  exact ⟨_, d, D, gd, idx, h, h1, h2, h3 1, h4 3⟩

end Dawg.Props
