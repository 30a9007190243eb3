import Verif.Proof.CallCount
import Verif.Props.Depth
/-! # C105: guides and indices are built in few calls -/
namespace Dawg.Props
open Dawg Dawg.Spec Dawg.Client Dawg.Abs Dawg.Dict Dawg.Guided
attribute [-simp] List.length_flatten

theorem map_fst_eq {α : Type} (x : Go (α × Nat)) : x.map Prod.fst = dropN x := by
  cases x <;> rfl

/-- **C105**: counting the calls of `buildIndices` changes nothing else, whatever the Dawg, the dictionary and the guide. -/
theorem C105_same (d : Dawg) (D : Dictionary) (g : Guide) (sorter : Sorter) (cmp : Int → Int → Bool) :
    (GuideBuilder.buildN d D).map Prod.fst = buildGuide d D ∧
    (RankedBuilder.buildN sorter d D cmp).map Prod.fst = buildRankedGuideCmp sorter d D cmp ∧
    (IndexBuilder.buildN D g).map Prod.fst = buildIndex D g := by
  refine ⟨?_, ?_, ?_⟩
  · rw [map_fst_eq]
    unfold GuideBuilder.buildN buildGuide GuideBuilder.build
    simp only
    by_cases hs : d.size ≤ 1
    · rw [if_pos hs, if_pos hs]; rfl
    · rw [if_neg hs, if_neg hs, dropN_bind, ← guideN_fst]
      generalize GuideBuilder.buildIndicesN d D (d.size + 1) _ d.root D.root = x
      cases x <;> rfl
  · rw [map_fst_eq]
    unfold RankedBuilder.buildN buildRankedGuideCmp RankedBuilder.build
    simp only
    by_cases hs : d.size ≤ 1
    · rw [if_pos hs, if_pos hs]; rfl
    · rw [if_neg hs, if_neg hs, dropN_bind, ← rankedN_fst]
      generalize RankedBuilder.buildIndicesN sorter d D cmp (d.size + 1) _ d.root D.root = x
      cases x <;> rfl
  · rw [map_fst_eq]
    unfold IndexBuilder.buildN buildIndex IndexBuilder.build
    rw [dropN_bind, ← indexN_fst]
    generalize IndexBuilder.buildIndicesN D g (D.size + 1) _ g.root = x
    cases x <;> rfl

theorem free_start (n : Nat) : free (List.replicate (n / 8) 0) ≤ n := by
  have := free_le (List.replicate (n / 8) 0)
  rw [List.length_replicate] at this
  omega

/-- **C105**: the calls of `buildIndices` that it takes to build a guide are at most 256 for each unit of the dictionary, and one.  The number of keys does not matter. -/
theorem C105_guide {hist d D} (h : Made hist d D) : ∃ g n, GuideBuilder.buildN d D = .ok (some g, n) ∧ n ≤ 256 * D.size + 1 := by
  obtain ⟨g, e1⟩ : ∃ g, buildGuide d D = .ok (some g) := by
    obtain ⟨g, e1, _⟩ := C26_guide h
    exact ⟨g, e1⟩
  have e2 := (C105_same d D g (fun _ l => l) (fun _ _ => true)).1
  rw [map_fst_eq, e1, dropN_eq] at e2
  obtain ⟨n, e2⟩ := e2
  refine ⟨g, n, e2, ?_⟩
  unfold GuideBuilder.buildN at e2
  simp only at e2
  by_cases hs : d.size ≤ 1
  · rw [if_pos hs] at e2
    cases e2
    omega
  · rw [if_neg hs, bind_eq_ok] at e2
    obtain ⟨⟨⟨gb, ok⟩, n'⟩, e3, e4⟩ := e2
    have hne : accepted hist ≠ [] := fun he => hs (by rw [Made.empty_size h he]; omega)
    obtain ⟨At, kid, DAt, V, h0, W, hd0⟩ := Made.view h hne
    obtain ⟨_, hc⟩ := guideN_count (bushy V W) _ _ _ _ _ _ _ ⟨_, _, h0, hd0⟩ e3
    simp only [pure_eq_ok, Except.ok.injEq, Prod.mk.injEq] at e4
    obtain ⟨_, rfl⟩ := e4
    have hf := free_start D.size
    simp only at hc
    have := Nat.mul_le_mul_left 256 hf
    omega

/-- **C105** for ranked guides, with every comparator and every sorting routine that permutes. -/
theorem C105_ranked {hist d D} {sorter : Sorter} {cmp : Int → Int → Bool} (h : Made hist d D) (hp : ∀ less l, (sorter less l).Perm l) :
    ∃ g n, RankedBuilder.buildN sorter d D cmp = .ok (some g, n) ∧ n ≤ 256 * D.size + 1 := by
  obtain ⟨g, e1⟩ : ∃ g, buildRankedGuideCmp sorter d D cmp = .ok (some g) := by
    by_cases hne : accepted hist = []
    · refine ⟨Guide.new, ?_⟩
      unfold buildRankedGuideCmp RankedBuilder.build
      simp only
      rw [if_pos (by rw [Made.empty_size h hne]; omega)]
      rfl
    · obtain ⟨At, kid, DAt, V, h0, W, hd0⟩ := Made.view h hne
      obtain ⟨g, e1, _⟩ := buildRanked_spec (cmp := cmp) hp V W h0 hd0
      exact ⟨g, e1⟩
  have e2 := (C105_same d D g sorter cmp).2.1
  rw [map_fst_eq, e1, dropN_eq] at e2
  obtain ⟨n, e2⟩ := e2
  refine ⟨g, n, e2, ?_⟩
  unfold RankedBuilder.buildN at e2
  simp only at e2
  by_cases hs : d.size ≤ 1
  · rw [if_pos hs] at e2
    cases e2
    omega
  · rw [if_neg hs, bind_eq_ok] at e2
    obtain ⟨⟨⟨rb, ok⟩, n'⟩, e3, e4⟩ := e2
    have hne : accepted hist ≠ [] := fun he => hs (by rw [Made.empty_size h he]; omega)
    obtain ⟨At, kid, DAt, V, h0, W, hd0⟩ := Made.view h hne
    obtain ⟨_, hc⟩ := rankedN_count (bushy V W) _ _ _ _ _ _ _ ⟨_, _, h0, hd0⟩ e3
    simp only [pure_eq_ok, Except.ok.injEq, Prod.mk.injEq] at e4
    obtain ⟨_, rfl⟩ := e4
    have hf := free_start D.size
    simp only at hc
    have := Nat.mul_le_mul_left 256 hf
    omega

theorem index_few {D : Dictionary} {At kid clean gd} {ord : Lang → List UInt8} {Inv : List Nat → List Nat → Prop} {f : Lang → Nat} {X : Lang → List UInt8} {acc : Lang}
    (V : View D At kid clean) (hg : GuideIs D At kid ord gd) (hX : Counting D At kid ord gd Inv f X) (h0 : At 0 acc) (hs : Inv (List.replicate D.size 0) []) :
    ∃ x n, IndexBuilder.buildN D gd = .ok (some x, n) ∧ n ≤ D.size := by
  have hpos : 0 < D.size := V.lt h0
  have hz : (List.replicate D.size 0)[0]? = some 0 := by rw [List.getElem?_replicate, if_pos hpos]
  have hd : ∀ e ∈ acc, e.1.length < D.size + 1 := fun e he => by have := V.depth h0 e he; omega
  obtain ⟨us, e1, _⟩ := hX.call (fuel := D.size + 1) hs h0 hz (by simp) hd
  rw [← indexN_fst, dropN_eq] at e1
  obtain ⟨n, e1⟩ := e1
  refine ⟨⟨us⟩, n, ?_, ?_⟩
  · unfold IndexBuilder.buildN
    rw [show gd.root = 0 from rfl, e1]
    rfl
  · have := index_count V hg hX (D.size + 1) hs h0 hz (by simp) hd e1
    have h2 := zeros_le (List.replicate D.size 0)
    rw [List.length_replicate] at h2
    omega

/-- **C105** for indices, over plain and over ranked guides: the calls of `buildIndices` are no more than the units of the dictionary. -/
theorem C105_index {hist d D} (h : Made hist d D) (hne : accepted hist ≠ []) :
    (∀ g, buildGuide d D = .ok (some g) → ∃ x n, IndexBuilder.buildN D g = .ok (some x, n) ∧ n ≤ D.size) ∧
    ∀ (sorter : Sorter) (cmp : Int → Int → Bool) g, (∀ less l, (sorter less l).Perm l) → buildRankedGuideCmp sorter d D cmp = .ok (some g) →
      ∃ x n, IndexBuilder.buildN D g = .ok (some x, n) ∧ n ≤ D.size := by
  obtain ⟨At, kid, DAt, V, h0, WW, hd0⟩ := Made.view h hne
  have V' := V.reach h0
  constructor
  · intro g hg
    obtain ⟨g', f1, f2⟩ := buildGuide_spec V WW h0 hd0
    rw [hg] at f1
    cases f1
    refine index_few V' f2 (counting_plain V' f2) Reach.root ⟨by simp, ?_⟩
    intro u L h _
    left
    rw [List.getElem?_replicate, if_pos (V'.lt h)]
  · intro sorter cmp g hp hg
    obtain ⟨g', f1, f2⟩ := buildRanked_spec (cmp := cmp) hp V WW h0 hd0
    rw [hg] at f1
    cases f1
    have ho : OrdPerm (Reach kid (words (accepted hist))) (rord D sorter cmp) := fun h => rord_perm (cmp := cmp) hp V' h
    refine index_few V' f2 (counting_cut V' f2 ho) Reach.root ⟨by simp, ?_⟩
    intro u L h _
    left
    rw [List.getElem?_replicate, if_pos (V'.lt h)]

example : ∃ d D g n, Made keysG d D ∧ GuideBuilder.buildN d D = .ok (some g, n) ∧ buildGuide d D = .ok (some g) ∧ n ≤ 256 * D.size + 1 ∧
    ∃ x m, IndexBuilder.buildN D g = .ok (some x, m) ∧ m ≤ D.size := by
  obtain ⟨d, D, h⟩ := madeG
  obtain ⟨g, n, h1, h2⟩ := C105_guide h
  have h3 := (C105_same d D g (fun _ l => l) (fun _ _ => true)).1
  rw [h1] at h3
  exact ⟨d, D, g, n, h, h1, h3.symm, h2, (C105_index h (by decide)).1 g h3.symm⟩

end Dawg.Props
