import Verif.Props.RankedList
import Verif.Proof.Guide.CutRank
/-! # C88: `StringToIndex` and `IndexToString` over ranked guides -/
namespace Dawg.Props
open Dawg Dawg.Spec Dawg.Client Dawg.Abs Dawg.Dict Dawg.Guided Dawg.Tool
attribute [-simp] List.length_flatten

/-- The full claim C88: over a ranked guide, too, `StringToIndex` inverts `IndexToString`. -/
def C88_statement : Prop := ∀ hist d D g x (sorter : Sorter) i k, Made hist d D → StableSort sorter → buildRankedGuide sorter d D = .ok (some g) → buildIndex D g = .ok (some x) →
  Indexer.indexToBytes D g x i = .ok (some k) → Indexer.bytesToIndex D g x k = .ok i

/-- **C88**, which number is given: `StringToIndex` of the key with number `i` is at most `i`, and it is `i` exactly if all keys with smaller numbers are smaller as strings. -/
theorem C88_rank {hist d D g x} {sorter : Sorter} (h : Made hist d D) (hs : StableSort sorter) (hg : buildRankedGuide sorter d D = .ok (some g)) (hx : buildIndex D g = .ok (some x))
    {i : Nat} {k : Key} (hk : Indexer.indexToBytes D g x i = .ok (some k)) :
    ∃ n, Indexer.bytesToIndex D g x k = .ok n ∧ n ≤ i ∧ (n = i ↔ ∀ j k', j < i → Indexer.indexToBytes D g x j = .ok (some k') → k' < k) := by
  by_cases hne : accepted hist = []
  · rw [ranked_index_empty h hne hs hg] at hx
    cases hx
  obtain ⟨x', ks, a1, a2, a3, a4, a5, _, a7, _⟩ := C86_index h hne hs hg
  rw [hx] at a1
  cases a1
  obtain ⟨At, kid, DAt, V, h0, WW, hd0⟩ := Made.view h hne
  have V' := V.reach h0
  obtain ⟨g', f1, f2⟩ := buildRanked_spec (cmp := ltCmp) hs.perm V WW h0 hd0
  rw [show buildRankedGuideCmp sorter d D ltCmp = .ok (some g) from hg] at f1
  cases f1
  have ho : OrdPerm (Reach kid (words (accepted hist))) (rord D sorter ltCmp) := fun h => rord_perm (cmp := ltCmp) hs.perm V' h
  obtain ⟨x', e1, e2⟩ := buildCut_spec V h0 f2 ho
  rw [hx] at e1
  cases e1
  have hle : cnt D (rord D sorter ltCmp) (words (accepted hist)) ≤ (accepted hist).length := by
    have := cnt_le V' ho Reach.root
    rwa [words, List.length_map] at this
  have hlt := accepted_length_lt h.1
  have hdep := V'.small Reach.root
  have hks : ks = findable (rord D sorter ltCmp) (D.size + 1) (words (accepted hist)) := by
    apply List.ext_getElem?
    intro j
    have := a7 j
    unfold Indexer.indexToBytes at this
    rw [show D.root = 0 from rfl, select_cut V' f2 ho e2 j (D.size + 1) Reach.root (e2.root Reach.root) (fun e he => Nat.lt_succ_of_lt (hdep e he)) (Nat.zero_le _) (by omega)] at this
    simpa using this.symm
  rw [a7] at hk
  have hk : ks[i]? = some k := by simpa using hk
  have hmem : k ∈ ks := List.mem_of_getElem? hk
  obtain ⟨b1, b2⟩ := (a5 k).1 hmem
  obtain ⟨v, hv⟩ := mem_words.2 b1
  obtain ⟨n, X, Z, c1, c2, c3, c4, _⟩ := rank_cut V' f2 ho e2 k (r := 0) Reach.root (e2.root Reach.root) ⟨v, hv⟩ ((seen_rord hs V' k Reach.root ⟨v, hv⟩).2 (shown_words.2 b2)) (by omega)
  rw [← hks] at c2
  have hi : X.length = i := by
    have h1 : ks[X.length]? = some k := by rw [c2]; simp
    have hl : X.length < ks.length := by rw [c2]; simp
    exact (List.getElem?_inj hl a4).1 (h1.trans hk.symm)
  refine ⟨n, ?_, by omega, ?_⟩
  · unfold Indexer.bytesToIndex
    rw [show D.root = 0 from rfl, c1, Nat.zero_add]
  · rw [← hi, c4]
    constructor
    · intro hall j k' hj hk'
      rw [a7] at hk'
      have hk' : ks[j]? = some k' := by simpa using hk'
      rw [c2, List.getElem?_append_left hj] at hk'
      exact hall k' (List.mem_of_getElem? hk')
    · intro hall y hy
      obtain ⟨j, hj⟩ := List.getElem?_of_mem hy
      have hjl : j < X.length := by
        rw [List.getElem?_eq_some_iff] at hj
        exact hj.1
      exact hall j y hjl (by rw [a7, c2, List.getElem?_append_left hjl, hj])

/-- **C88**, when it is true: `StringToIndex` inverts `IndexToString` exactly if byte order does not contradict the order of the greatest values behind each byte. -/
theorem C88_inverse_partial {hist d D g x} {sorter : Sorter} (h : Made hist d D) (hs : StableSort sorter) (hg : buildRankedGuide sorter d D = .ok (some g)) (hx : buildIndex D g = .ok (some x)) :
    (∀ i k, Indexer.indexToBytes D g x i = .ok (some k) → Indexer.bytesToIndex D g x k = .ok i) ↔
    ∀ e ∈ accepted hist, ∀ f ∈ accepted hist, Shown (accepted hist) e.1 → Shown (accepted hist) f.1 → e.1 < f.1 → ShownBefore (accepted hist) e.1 f.1 := by
  by_cases hne : accepted hist = []
  · rw [ranked_index_empty h hne hs hg] at hx
    cases hx
  obtain ⟨x', ks, a1, a2, a3, a4, a5, a6, a7, _⟩ := C86_index h hne hs hg
  rw [hx] at a1
  cases a1
  have hat : ∀ i k, Indexer.indexToBytes D g x i = .ok (some k) ↔ ks[i]? = some k := fun i k => by rw [a7]; simp
  have hord : ∀ {i j : Nat} {k k' : Key}, i < j → ks[i]? = some k → ks[j]? = some k' → ShownBefore (accepted hist) k k' := by
    intro i j k k' hij hi hj
    obtain ⟨h1, rfl⟩ := List.getElem?_eq_some_iff.1 hi
    obtain ⟨h2, rfl⟩ := List.getElem?_eq_some_iff.1 hj
    exact List.pairwise_iff_getElem.1 a6 i j h1 h2 hij
  constructor
  · intro hall e he f hf he1 hf1 hlt
    obtain ⟨i, hi⟩ := List.getElem?_of_mem ((a5 e.1).2 ⟨⟨e, he, rfl⟩, he1⟩)
    obtain ⟨j, hj⟩ := List.getElem?_of_mem ((a5 f.1).2 ⟨⟨f, hf, rfl⟩, hf1⟩)
    by_cases hij : i < j
    · exact hord hij hi hj
    · by_cases hji : j < i
      · obtain ⟨n, b1, _, b3⟩ := C88_rank h hs hg hx ((hat i e.1).2 hi)
        rw [hall i e.1 ((hat i e.1).2 hi)] at b1
        cases b1
        have := b3.1 rfl j f.1 hji ((hat j f.1).2 hj)
        exact absurd (List.lt_trans hlt this) (List.lt_irrefl _)
      · have : i = j := by omega
        subst this
        rw [hi] at hj
        rw [Option.some.inj hj] at hlt
        exact absurd hlt (List.lt_irrefl _)
  · intro hall i k hk
    obtain ⟨n, b1, _, b3⟩ := C88_rank h hs hg hx hk
    rw [b1, b3.2]
    intro j k' hj hk'
    have hi := (hat i k).1 hk
    have hj' := (hat j k').1 hk'
    rcases Decidable.em (k' < k) with hlt | hlt
    · exact hlt
    exfalso
    have hb := hord hj hj' hi
    obtain ⟨⟨e, he, rfl⟩, he1⟩ := (a5 k).1 (List.mem_of_getElem? hi)
    obtain ⟨⟨f, hf, rfl⟩, hf1⟩ := (a5 k').1 (List.mem_of_getElem? hj')
    have hne' : e.1 ≠ f.1 := by
      intro hc
      rw [hc] at hi
      obtain ⟨h1, h2⟩ := List.getElem?_eq_some_iff.1 hi
      have := (List.getElem?_inj h1 a4).1 (hi.trans hj'.symm)
      omega
    have hlt' : e.1 < f.1 := by
      rcases List.le_iff_lt_or_eq.1 (List.not_lt.1 hlt) with h1 | h1
      · exact h1
      · exact absurd h1 hne'
    exact hne' ((hall e he f hf he1 hf1 hlt').antisymm hb)

/-- **C88 is false**: with "a" = 5, "ab" = 3 and "b" = 7, `IndexToString(1)` is "a", but `StringToIndex("a")` is not 1. -/
theorem C88_inverse_false : ¬ C88_statement := by
  intro hst
  obtain ⟨d, D, h⟩ := madeG
  obtain ⟨g, e1, _⟩ := C27_ranked_guide h insertionSort_stableSort.perm (fun lhs rhs => decide (lhs < rhs))
  obtain ⟨x, _, a1, _⟩ := C86_index h (by decide) insertionSort_stableSort e1
  have h1 := (C88_inverse_partial h insertionSort_stableSort e1 a1).1 (fun i k hk => hst _ d D g x insertionSort i k h insertionSort_stableSort e1 a1 hk)
  have sh : ∀ k : Key, k.length = 1 → Shown (accepted keysG) k := fun k hk e he b t hkt => by
    have : ∀ e ∈ accepted keysG, e.1.length + 1 ≤ 1 → False := by decide
    exact (this e he (by rw [hkt] at hk; simp at hk; omega)).elim
  have := h1 ([97], 5) (by decide) ([98], 7) (by decide) (sh _ rfl) (sh _ rfl) (by decide)
  have hb : ShownBefore (accepted keysG) [98] [97] := .inr ⟨[], 98, 97, [], [], rfl, rfl, by decide, ([98], 7), by decide, by decide, by decide⟩
  exact absurd (this.antisymm hb) (by decide)

/-- With the same keys, "a" and "b" get the same number. -/
example : ∃ d D g x, Made keysG d D ∧ buildRankedGuide insertionSort d D = .ok (some g) ∧ buildIndex D g = .ok (some x) ∧
    Indexer.bytesToIndex D g x [97] = .ok 0 ∧ Indexer.bytesToIndex D g x [98] = .ok 0 := by
  obtain ⟨d, D, h⟩ := madeG
  obtain ⟨g, e1, _⟩ := C27_ranked_guide h insertionSort_stableSort.perm (fun lhs rhs => decide (lhs < rhs))
  obtain ⟨x, ks, a1, _, _, a4, a5, a6, a7, _⟩ := C86_index h (by decide) insertionSort_stableSort e1
  refine ⟨d, D, g, x, h, e1, a1, ?_⟩
  have sh : ∀ k : Key, k.length = 1 → Shown (accepted keysG) k := fun k hk e he b t hkt => by
    have : ∀ e ∈ accepted keysG, e.1.length + 1 ≤ 1 → False := by decide
    exact (this e he (by rw [hkt] at hk; simp at hk; omega)).elim
  have m1 : ([98] : Key) ∈ ks := (a5 _).2 ⟨by decide, sh _ rfl⟩
  have m2 : ([97] : Key) ∈ ks := (a5 _).2 ⟨by decide, sh _ rfl⟩
  have m3 : ∀ k ∈ ks, k = [98] ∨ k = [97] := by
    intro k hk
    obtain ⟨⟨e, he, hk1⟩, hk2⟩ := (a5 k).1 hk
    have : ∀ e ∈ accepted keysG, e.1 = [98] ∨ e.1 = [97] ∨ e.1 = [97, 98] := by decide
    rcases this e he with h1 | h1 | h1
    · exact .inl (hk1.symm.trans h1)
    · exact .inr (hk1.symm.trans h1)
    · exfalso
      obtain ⟨f, hf, hp, hlt⟩ := hk2 ([97], 5) (by decide) 98 [] (by rw [← hk1, h1]; rfl)
      have : ∀ f ∈ accepted keysG, [97, 98] <+: f.1 → ¬ stored 5 < stored f.2 := by decide
      exact this f hf hp hlt
  have hb : ShownBefore (accepted keysG) [98] [97] := .inr ⟨[], 98, 97, [], [], rfl, rfl, by decide, ([98], 7), by decide, by decide, by decide⟩
  have hks : ks = [[98], [97]] := by
    match ks, a4, a6, m1, m2, m3 with
    | [], _, _, m1, _, _ => simp at m1
    | [k], _, _, m1, m2, _ => simp at m1 m2; rw [← m1] at m2; exact absurd m2 (by decide)
    | [k, k'], a4, a6, m1, m2, m3 =>
      rcases m3 k (by simp) with rfl | rfl <;> rcases m3 k' (by simp) with rfl | rfl
      · simp at a4
      · rfl
      · exact absurd (hb.antisymm (by simpa using a6)) (by decide)
      · simp at a4
    | k :: k' :: k'' :: ks, a4, _, _, _, m3 =>
      rcases m3 k (by simp) with rfl | rfl <;> rcases m3 k' (by simp) with rfl | rfl <;> rcases m3 k'' (by simp) with rfl | rfl <;> simp at a4
  subst hks
  obtain ⟨n, b1, b2, b3⟩ := C88_rank h insertionSort_stableSort e1 a1 (i := 1) (k := [97]) (by rw [a7]; rfl)
  obtain ⟨m, c1, c2, _⟩ := C88_rank h insertionSort_stableSort e1 a1 (i := 0) (k := [98]) (by rw [a7]; rfl)
  have hn : n ≠ 1 := fun hc => absurd (b3.1 hc 0 [98] (by omega) (by rw [a7]; rfl)) (by decide)
  obtain rfl : n = 0 := by omega
  obtain rfl : m = 0 := by omega
  exact ⟨b1, c1⟩

/-- With "a" = 5 and "b" = 3 it is true. -/
example : ∃ d D g x, Made [([97], 5), ([98], 3)] d D ∧ buildRankedGuide insertionSort d D = .ok (some g) ∧ buildIndex D g = .ok (some x) ∧
    ∀ i k, Indexer.indexToBytes D g x i = .ok (some k) → Indexer.bytesToIndex D g x k = .ok i := by
  obtain ⟨d, D, h, _⟩ := C14_small_builds 1 (by omega) (by omega) [([97], 5), ([98], 3)] (by decide) (by decide)
  obtain ⟨g, e1, _⟩ := C27_ranked_guide h insertionSort_stableSort.perm (fun lhs rhs => decide (lhs < rhs))
  obtain ⟨x, _, a1, _⟩ := C86_index h (by decide) insertionSort_stableSort e1
  refine ⟨d, D, g, x, h, e1, a1, (C88_inverse_partial h insertionSort_stableSort e1 a1).2 ?_⟩
  intro e he f hf _ _ hlt
  have hacc : accepted [([97], (5 : Int)), ([98], 3)] = [([97], 5), ([98], 3)] := by decide
  rw [hacc] at he hf ⊢
  simp only [List.mem_cons, List.not_mem_nil, or_false] at he hf
  rcases he with rfl | rfl <;> rcases hf with rfl | rfl
  · exact absurd hlt (by decide)
  · exact .inr ⟨[], 97, 98, [], [], rfl, rfl, by decide, ([97], 5), by decide, by decide, by decide⟩
  · exact absurd hlt (by decide)
  · exact absurd hlt (by decide)

end Dawg.Props
