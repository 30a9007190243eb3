import Verif.Proof.Guide.CutExact
import Verif.Props.OneEach
import Verif.Props.RankedRank
/-! # C88: stored keys that are not listed -/
namespace Dawg.Props
open Dawg Dawg.Spec Dawg.Client Dawg.Abs Dawg.Dict Dawg.Guided Dawg.Tool
attribute [-simp] List.length_flatten

/-- The byte `l` comes before the end of the list of the guide behind `p`: a key goes on with it, and if `p` is a key, some key that goes on with it has a greater value. -/
def Before (acc : List (Key × Int)) (p : Key) (l : UInt8) : Prop :=
  (∃ f ∈ acc, p ++ [l] <+: f.1) ∧ ∀ e ∈ acc, e.1 = p → ∃ f ∈ acc, p ++ [l] <+: f.1 ∧ stored e.2 < stored f.2

theorem mem_residual_words {acc : List (Key × Int)} {p t : Key} {v : Nat} : (t, v) ∈ residual (words acc) p ↔ ∃ e ∈ acc, e.1 = p ++ t ∧ stored e.2 = v := by
  rw [mem_residual]
  unfold words
  rw [List.mem_map]
  constructor
  · rintro ⟨e, he, h⟩
    simp only [Prod.mk.injEq] at h
    exact ⟨e, he, h.1, h.2⟩
  · rintro ⟨e, he, h1, h2⟩
    exact ⟨e, he, by rw [h1, h2]⟩

theorem before_iff {D : Dictionary} {At : Nat → Lang → Prop} {kid : Nat → UInt8 → Nat} {clean : UInt8 → Prop} {sorter : Sorter} (hs : StableSort sorter) (V : View D At kid clean)
    {acc : List (Key × Int)} {u : Nat} {p : Key} (h : At u (residual (words acc) p)) {l : UInt8} : l ∈ cutOf (rord D sorter ltCmp) (residual (words acc) p) ↔ Before acc p l := by
  rw [cut_rord hs V h, mem_heads, ← residual_residual]
  have h1 : residual (words acc) (p ++ [l]) ≠ [] ↔ ∃ f ∈ acc, p ++ [l] <+: f.1 := by
    constructor
    · intro hne
      obtain ⟨⟨t, v⟩, he⟩ := List.exists_mem_of_ne_nil _ hne
      obtain ⟨f, hf, h1, _⟩ := mem_residual_words.1 he
      exact ⟨f, hf, t, h1.symm⟩
    · rintro ⟨f, hf, t, ht⟩ hc
      have := (mem_residual_words (p := p ++ [l]) (t := t)).2 ⟨f, hf, ht.symm, rfl⟩
      rw [hc] at this; cases this
  rw [h1]
  refine and_congr_right fun _ => ⟨fun h2 e he hp => ?_, fun h2 v hv => ?_⟩
  · obtain ⟨⟨t, w⟩, hf, ⟨k, hk⟩, hlt⟩ := h2 (stored e.2) (mem_residual_words.2 ⟨e, he, by simpa using hp, rfl⟩)
    obtain ⟨f, hf, h3, h4⟩ := mem_residual_words.1 hf
    simp only at hk hlt
    refine ⟨f, hf, ⟨k, by rw [h3, hk]; simp⟩, by rw [h4]; exact hlt⟩
  · obtain ⟨e, he, h3, h4⟩ := mem_residual_words.1 hv
    obtain ⟨f, hf, ⟨k, hk⟩, hlt⟩ := h2 e he (by simpa using h3)
    exact ⟨(l :: k, stored f.2), mem_residual_words.2 ⟨f, hf, by rw [← hk]; simp, rfl⟩, ⟨k, rfl⟩, by rw [← h4]; exact hlt⟩

theorem reach_prefix {kid : Nat → UInt8 → Nat} {acc : Lang} : ∀ (p : Key) {u L}, Reach kid acc u L → residual L p ≠ [] → ∃ u', Reach kid acc u' (residual L p)
  | [], u, L, h, _ => ⟨u, by rw [residual_nil]; exact h⟩
  | l :: p, u, L, h, hne => by
    rw [show l :: p = [l] ++ p from rfl, residual_residual] at hne ⊢
    have hl : residual L [l] ≠ [] := fun hc => hne (by rw [hc]; rfl)
    exact reach_prefix p (h.step (mem_heads.2 hl)) hne

/-- **C88**, stored keys: `StringToIndex` of a stored key, listed or not, is `NotFound` exactly if at some byte of the key all bytes that come before the end of the list of the guide are
smaller; otherwise it is a number that is not greater than the number of smaller keys. -/
theorem C88_stored_partial {hist d D g x} {sorter : Sorter} (h : Made hist d D) (hs : StableSort sorter) (hg : buildRankedGuide sorter d D = .ok (some g)) (hx : buildIndex D g = .ok (some x))
    {k : Key} (hk : ∃ e ∈ accepted hist, e.1 = k) : ∃ n, Indexer.bytesToIndex D g x k = .ok n ∧
      (n = Indexer.notFound ↔ ∃ p b, p ++ [b] <+: k ∧ ∀ l, Before (accepted hist) p l → l < b) ∧
      (n ≠ Indexer.notFound → n ≤ ((accepted hist).filter (fun e => decide (e.1 < k))).length) := by
  by_cases hne : accepted hist = []
  · rw [ranked_index_empty h hne hs hg] at hx
    cases hx
  obtain ⟨At, kid, DAt, V, h0, WW, hd0⟩ := Made.view h hne
  have V' := V.reach h0
  obtain ⟨g', f1, f2⟩ := buildRanked_spec (cmp := ltCmp) hs.perm V WW h0 hd0
  rw [show buildRankedGuideCmp sorter d D ltCmp = .ok (some g) from hg] at f1
  cases f1
  have ho : OrdPerm (Reach kid (words (accepted hist))) (rord D sorter ltCmp) := fun h => rord_perm (cmp := ltCmp) hs.perm V' h
  obtain ⟨x', e1, e2⟩ := buildCut_spec V h0 f2 ho
  rw [hx] at e1
  cases e1
  have hlt := accepted_length_lt h.1
  have hlen : (words (accepted hist)).length = (accepted hist).length := by rw [words, List.length_map]
  obtain ⟨v, hv⟩ := mem_words.2 hk
  have hbelow : below (words (accepted hist)) k = ((accepted hist).filter (fun e => decide (e.1 < k))).length := by
    unfold below words
    rw [List.countP_map, List.countP_eq_length_filter]
    rfl
  have hle : ((accepted hist).filter (fun e => decide (e.1 < k))).length ≤ (accepted hist).length := List.length_filter_le _ _
  -- the units behind the prefixes of a key
  have hat : ∀ p t, k = p ++ t → ∃ u, Reach kid (words (accepted hist)) u (residual (words (accepted hist)) p) := by
    intro p t hp
    refine reach_prefix p Reach.root ?_
    intro hc
    have : (t, v) ∈ residual (words (accepted hist)) p := by rw [mem_residual, ← hp]; exact hv
    rw [hc] at this; cases this
  have hlost : Lost (rord D sorter ltCmp) (words (accepted hist)) k ↔ ∃ p b, p ++ [b] <+: k ∧ ∀ l, Before (accepted hist) p l → l < b := by
    constructor
    · rintro ⟨p, b, ⟨t, hp⟩, h1⟩
      obtain ⟨u, hu⟩ := hat p (b :: t) (by rw [← hp]; simp)
      exact ⟨p, b, ⟨t, hp⟩, fun l hl => h1 l ((before_iff hs V' hu).2 hl)⟩
    · rintro ⟨p, b, ⟨t, hp⟩, h1⟩
      obtain ⟨u, hu⟩ := hat p (b :: t) (by rw [← hp]; simp)
      exact ⟨p, b, ⟨t, hp⟩, fun l hl => h1 l ((before_iff hs V' hu).1 hl)⟩
  unfold Indexer.bytesToIndex
  rcases found_cut V' f2 ho e2 k (r := 0) Reach.root ⟨v, hv⟩ (by omega) with ⟨a1, a2⟩ | ⟨n, a1, a2, a3⟩
  · exact ⟨_, a1, ⟨fun _ => hlost.1 a2, fun _ => rfl⟩, fun hc => absurd rfl hc⟩
  · rw [Nat.zero_add] at a1
    refine ⟨n, a1, ⟨fun hn => ?_, fun hl => absurd (hlost.2 hl) a3⟩, fun _ => by rw [← hbelow]; exact a2⟩
    exfalso
    rw [hbelow] at a2
    unfold Indexer.notFound at hn
    omega

/-- No key on the way from `q` to `k` hides the way: each one with a key that goes on along it and has a greater value. -/
def OpenFrom (acc : List (Key × Int)) (q k : Key) : Prop :=
  ∀ e ∈ acc, q <+: e.1 → ∀ b t, k = e.1 ++ b :: t → ∃ f ∈ acc, e.1 ++ [b] <+: f.1 ∧ stored e.2 < stored f.2

/-- The keys that `StringToIndex` counts on its way along `k`: the keys that `k` goes on from; and those that leave `k` behind `p` with a smaller byte `l`, if `l` comes before the end of
the list of the guide, no greater value is behind a byte that is not smaller than that of `k`, the rest of the key is not hidden, and what follows `p` also follows something not hidden. -/
def CountedAlong (acc : List (Key × Int)) (k y : Key) : Prop := (y <+: k ∧ y ≠ k) ∨
  ∃ p l b s t, y = p ++ l :: s ∧ k = p ++ b :: t ∧ l < b ∧ Before acc p l ∧
    (∃ g ∈ acc, p ++ [l] <+: g.1 ∧ ∀ f ∈ acc, ∀ c, p ++ [c] <+: f.1 → b ≤ c → stored f.2 ≤ stored g.2) ∧
    OpenFrom acc (p ++ [l]) y ∧ ∃ p', Shown acc p' ∧ residual (words acc) p' = residual (words acc) p

theorem listed_from {acc : List (Key × Int)} {q s : Key} : Listed (residual (words acc) q) s ↔ OpenFrom acc q (q ++ s) := by
  constructor
  · rintro h e he ⟨u, hu⟩ b t hk
    rw [← hu, List.append_assoc] at hk
    obtain ⟨⟨f1, f2⟩, hf, h1, h2⟩ := h (u, stored e.2) (mem_residual_words.2 ⟨e, he, hu.symm, rfl⟩) b t (List.append_cancel_left hk)
    obtain ⟨f, hf', h3, h4⟩ := mem_residual_words.1 hf
    refine ⟨f, hf', ?_, by rw [h4]; exact h2⟩
    rw [h3, ← hu, List.append_assoc]
    exact (List.prefix_append_right_inj q).2 h1
  · rintro h ⟨u, v⟩ he b t hk
    obtain ⟨e, he', h3, h4⟩ := mem_residual_words.1 he
    obtain ⟨f, hf, ⟨w, hw⟩, h2⟩ := h e he' ⟨u, h3.symm⟩ b t (by rw [h3, hk, List.append_assoc])
    refine ⟨(u ++ [b] ++ w, stored f.2), mem_residual_words.2 ⟨f, hf, ?_, rfl⟩, ⟨w, rfl⟩, by rw [← h4]; exact h2⟩
    rw [← hw, h3]
    simp

/-- **C88**, the numbers of stored keys: `StringToIndex` of a stored key, listed or not, over a dictionary of at most 2^21 units is the number of keys in `CountedAlong` unless it is `NotFound`. -/
theorem C88_number_partial {hist d D g x} {sorter : Sorter} (h : Made hist d D) (hsz : D.size ≤ 2 ^ 21) (hs : StableSort sorter) (hg : buildRankedGuide sorter d D = .ok (some g))
    (hx : buildIndex D g = .ok (some x)) {k : Key} (hk : ∃ e ∈ accepted hist, e.1 = k) {n : Nat} (hn : Indexer.bytesToIndex D g x k = .ok n) (hnf : n ≠ Indexer.notFound) :
    HasCard (fun y => (∃ e ∈ accepted hist, e.1 = y) ∧ CountedAlong (accepted hist) k y) n := by
  by_cases hne : accepted hist = []
  · rw [ranked_index_empty h hne hs hg] at hx
    cases hx
  obtain ⟨At, kid, DAt, V, h0, WW, hd0⟩ := Made.view h hne
  have V' := V.reach h0
  obtain ⟨g', f1, f2⟩ := buildRanked_spec (cmp := ltCmp) hs.perm V WW h0 hd0
  rw [show buildRankedGuideCmp sorter d D ltCmp = .ok (some g) from hg] at f1
  cases f1
  have ho : OrdPerm (Reach kid (words (accepted hist))) (rord D sorter ltCmp) := fun h => rord_perm (cmp := ltCmp) hs.perm V' h
  obtain ⟨x', e1, e2⟩ := buildCut_spec V h0 f2 ho
  rw [hx] at e1
  cases e1
  have hlt := accepted_length_lt h.1
  have hlen : (words (accepted hist)).length = (accepted hist).length := by rw [words, List.length_map]
  obtain ⟨v, hv⟩ := mem_words.2 hk
  have hat : ∀ {p t}, k = p ++ t → residual (words (accepted hist)) p ≠ [] := by
    intro p t hp hc
    have : (t, v) ∈ residual (words (accepted hist)) p := by rw [mem_residual, ← hp]; exact hv
    rw [hc] at this; cases this
  have hlost : ¬ Lost (rord D sorter ltCmp) (words (accepted hist)) k := by
    rcases found_cut V' f2 ho e2 k (r := 0) Reach.root ⟨v, hv⟩ (by omega) with ⟨a1, _⟩ | ⟨m, _, _, a3⟩
    · rw [show Indexer.bytesLoop D g x k 0 0 = .ok n from hn] at a1
      cases a1
      exact absurd rfl hnf
    · exact a3
  obtain ⟨X, b1, b2, b3⟩ := number_cut V' f2 ho (idx := x) (Vis := fun L => ∃ u, CutReach kid (rord D sorter ltCmp) (words (accepted hist)) u L) (by
    intro u L hu l hl
    have hlh := cut_heads ho hu hl
    constructor
    · rintro ⟨u', hu'⟩
      have hu'' := hu'.reach ho
      obtain ⟨p, p1, p2⟩ := Reach.path V h0 hu
      obtain ⟨q, q1, q2⟩ := Reach.path V h0 hu''
      obtain ⟨a, b, _, _, s1, s2, _, _, _, _, s3⟩ := C106_shared h hsz (p := p) (q := q) (by rw [← p1, ← q1]) (by rw [← p1]; exact V'.ne hu)
      rw [show D.followString p D.root = .ok (true, u, p.length) from p2] at s1
      rw [show D.followString q D.root = .ok (true, u', q.length) from q2] at s2
      cases s1
      cases s2
      have := s3 l
      rw [V'.follow hu hlh, V'.follow hu'' hlh] at this
      simp only [Except.ok.injEq, Option.some.injEq] at this
      rw [this]
      exact (count_exact V h0 f2 ho hx e2 (V'.step hu'' hlh)).1 ⟨_, .step hu' hl⟩
    · intro hv
      refine (count_exact V h0 f2 ho hx e2 (V'.step hu hlh)).2 ?_
      rintro ⟨M, hM⟩
      generalize hj : kid u l = j at hM
      cases hM with
      | root => exact V'.kid_ne hu (mem_arcs.2 (.inr hlh)) hj
      | @step u' L' l' h1 h2 =>
        obtain ⟨_, rfl⟩ := V'.uniq hu (h1.reach ho) (mem_arcs.2 (.inr hlh)) (mem_arcs.2 (.inr (cut_heads ho (h1.reach ho) h2))) hj
        exact hv ⟨_, h1⟩) k (r := 0) Reach.root ⟨v, hv⟩ (by omega) hlost
  rw [show Indexer.bytesLoop D g x k 0 0 = .ok n from hn, Nat.zero_add] at b1
  cases b1
  refine ⟨X, b2, fun y => ?_, rfl⟩
  rw [b3, pass_iff ⟨v, hv⟩, mem_words]
  refine and_congr_right fun hy => or_congr_right ?_
  -- what the index sees
  have hvis : ∀ {p t}, k = p ++ t → ((∃ u, CutReach kid (rord D sorter ltCmp) (words (accepted hist)) u (residual (words (accepted hist)) p)) ↔
      ∃ p', Shown (accepted hist) p' ∧ residual (words (accepted hist)) p' = residual (words (accepted hist)) p) := by
    intro p t hp
    constructor
    · rintro ⟨u, hu⟩
      obtain ⟨p', c1, c2⟩ := hu.path
      refine ⟨p', shown_words.1 ((seen_rord_prefix hs V' p' Reach.root (by rw [← c1]; exact hat hp)).1 c2), c1.symm⟩
    · rintro ⟨p', c1, c2⟩
      rw [← c2]
      exact CutReach.of_path p' .root ((seen_rord_prefix hs V' p' Reach.root (by rw [c2]; exact hat hp)).2 (shown_words.2 c1))
  have key : ∀ {p l b s t}, y = p ++ l :: s → k = p ++ b :: t →
      (((∃ u, CutReach kid (rord D sorter ltCmp) (words (accepted hist)) u (residual (words (accepted hist)) p)) ∧
        Lead (rord D sorter ltCmp) (residual (words (accepted hist)) p) b l ∧ seen (rord D sorter ltCmp) (residual (words (accepted hist)) (p ++ [l])) s) ↔
      (l < b ∧ Before (accepted hist) p l ∧
        (∃ g ∈ accepted hist, p ++ [l] <+: g.1 ∧ ∀ f ∈ accepted hist, ∀ c, p ++ [c] <+: f.1 → b ≤ c → stored f.2 ≤ stored g.2) ∧
        OpenFrom (accepted hist) (p ++ [l]) y ∧ ∃ p', Shown (accepted hist) p' ∧ residual (words (accepted hist)) p' = residual (words (accepted hist)) p)) := by
    intro p l b s t hyp hkp
    obtain ⟨u, hu⟩ := reach_prefix (kid := kid) p Reach.root (hat hkp)
    obtain ⟨w, hw⟩ := mem_words.2 hy
    have hs1 : (s, w) ∈ residual (words (accepted hist)) (p ++ [l]) := by rw [mem_residual, List.append_assoc]; rw [hyp] at hw; exact hw
    obtain ⟨u1, hu1⟩ := reach_prefix (kid := kid) (p ++ [l]) Reach.root (fun hc => by rw [hc] at hs1; cases hs1)
    rw [hvis hkp, lead_rord hs V' hu, before_iff hs V' hu, seen_rord hs V' s hu1 ⟨w, hs1⟩, listed_from, show p ++ [l] ++ s = y by rw [hyp]; simp]
    have hmid : (∃ g ∈ residual (words (accepted hist)) p, (∃ k, g.1 = l :: k) ∧ ∀ f ∈ residual (words (accepted hist)) p, ∀ c k, f.1 = c :: k → b ≤ c → f.2 ≤ g.2) ↔
        ∃ g ∈ accepted hist, p ++ [l] <+: g.1 ∧ ∀ f ∈ accepted hist, ∀ c, p ++ [c] <+: f.1 → b ≤ c → stored f.2 ≤ stored g.2 := by
      constructor
      · rintro ⟨⟨g1, g2⟩, hg, ⟨k', hk'⟩, hall⟩
        obtain ⟨e, he, m1, m2⟩ := mem_residual_words.1 hg
        refine ⟨e, he, ⟨k', by rw [m1, show g1 = l :: k' from hk']; simp⟩, ?_⟩
        rintro f hf c ⟨k2, hk2⟩ hbc
        rw [m2]
        exact hall (c :: k2, stored f.2) (mem_residual_words.2 ⟨f, hf, by rw [← hk2]; simp, rfl⟩) c k2 rfl hbc
      · rintro ⟨e, he, ⟨k', hk'⟩, hall⟩
        refine ⟨(l :: k', stored e.2), mem_residual_words.2 ⟨e, he, by rw [← hk']; simp, rfl⟩, ⟨k', rfl⟩, ?_⟩
        rintro ⟨f1, f2⟩ hf c k2 hk2 hbc
        obtain ⟨f, hf', m1, m2⟩ := mem_residual_words.1 hf
        rw [← m2]
        exact hall f hf' c ⟨k2, by rw [m1, show f1 = c :: k2 from hk2]; simp⟩ hbc
    rw [hmid]
    constructor
    · rintro ⟨z1, ⟨z2, z3, z4⟩, z5⟩
      exact ⟨z3, z2, z4, z5, z1⟩
    · rintro ⟨z3, z2, z4, z5, z1⟩
      exact ⟨z1, ⟨z2, z3, z4⟩, z5⟩
  constructor
  · rintro ⟨p, l, b, s, t, y1, y2, y3⟩
    exact ⟨p, l, b, s, t, y1, y2, (key y1 y2).1 y3⟩
  · rintro ⟨p, l, b, s, t, y1, y2, y3⟩
    exact ⟨p, l, b, s, t, y1, y2, (key y1 y2).2 y3⟩

/-- With "a" = 2, "ab" = 1 and "ac" = 3 the key "ab" is not listed, but `StringToIndex` gives it the number 1, which is that of "ac". -/
example : ∃ d D g x, Made [([97], 2), ([97, 98], 1), ([97, 99], 3)] d D ∧ buildRankedGuide insertionSort d D = .ok (some g) ∧ buildIndex D g = .ok (some x) ∧
    ¬ Shown (accepted [([97], 2), ([97, 98], 1), ([97, 99], 3)]) [97, 98] ∧ Indexer.bytesToIndex D g x [97, 98] = .ok 1 := by
  obtain ⟨d, D, h, _⟩ := C14_small_builds 1 (by omega) (by omega) [([97], 2), ([97, 98], 1), ([97, 99], 3)] (by decide) (by decide)
  obtain ⟨g, e1, _⟩ := C27_ranked_guide h insertionSort_stableSort.perm (fun lhs rhs => decide (lhs < rhs))
  obtain ⟨x, _, a1, _⟩ := C86_index h (by decide) insertionSort_stableSort e1
  have hacc : accepted [([97], (2 : Int)), ([97, 98], 1), ([97, 99], 3)] = [([97], 2), ([97, 98], 1), ([97, 99], 3)] := by decide
  have hs : D.size ≤ 2 ^ 21 := by
    obtain ⟨_, _, _, _, _, _, _, _, _, _, h5, _⟩ := C79_size h
    refine Nat.le_trans h5 ?_
    decide +kernel
  refine ⟨d, D, g, x, h, e1, a1, ?_, ?_⟩
  · intro hsh
    obtain ⟨f, hf, hp, hlt⟩ := hsh ([97], 2) (by decide) 98 [] rfl
    have : ∀ f ∈ accepted [([97], (2 : Int)), ([97, 98], 1), ([97, 99], 3)], [97, 98] <+: f.1 → ¬ stored 2 < stored f.2 := by decide
    exact this f hf hp hlt
  · obtain ⟨n, b1, b2, _⟩ := C88_stored_partial h insertionSort_stableSort e1 a1 (k := [97, 98]) ⟨([97, 98], 1), by decide, rfl⟩
    have hnf : n ≠ Indexer.notFound := by
      intro hc
      obtain ⟨p, b, ⟨t, hp⟩, hall⟩ := b2.1 hc
      match p, hp with
      | [], hp =>
        obtain ⟨rfl, _⟩ : b = 97 ∧ t = [98] := by simpa using hp
        exact absurd (hall 97 ⟨⟨([97], 2), by decide, by decide⟩, fun e he hp => by
          have : ∀ e ∈ accepted [([97], (2 : Int)), ([97, 98], 1), ([97, 99], 3)], e.1 ≠ [] := by decide
          exact absurd hp (this e he)⟩) (by decide)
      | [q], hp =>
        obtain ⟨rfl, rfl, _⟩ : q = 97 ∧ b = 98 ∧ t = [] := by simpa using hp
        refine absurd (hall 99 ⟨⟨([97, 99], 3), by decide, by decide⟩, fun e he hp => ⟨([97, 99], 3), by decide, by decide, ?_⟩⟩) (by decide)
        have : ∀ e ∈ accepted [([97], (2 : Int)), ([97, 98], 1), ([97, 99], 3)], e.1 = [97] → stored e.2 < stored 3 := by decide
        exact this e he hp
      | q :: q' :: p, hp => simp at hp
    have hcard := C88_number_partial h hs insertionSort_stableSort e1 a1 ⟨([97, 98], 1), by decide, rfl⟩ b1 hnf
    have hone : HasCard (fun y => (∃ e ∈ accepted [([97], (2 : Int)), ([97, 98], 1), ([97, 99], 3)], e.1 = y) ∧
        CountedAlong (accepted [([97], (2 : Int)), ([97, 98], 1), ([97, 99], 3)]) [97, 98] y) 1 := by
      refine ⟨[[97]], by simp, fun y => ?_, rfl⟩
      rw [List.mem_singleton]
      constructor
      · rintro rfl
        exact ⟨⟨([97], 2), by decide, rfl⟩, .inl (by decide)⟩
      · rintro ⟨⟨e, he, rfl⟩, hc⟩
        rw [hacc] at he
        simp only [List.mem_cons, List.not_mem_nil, or_false] at he
        rcases he with rfl | rfl | rfl
        · rfl
        · rcases hc with hc | ⟨p, l, b, s, t, h1, h2, h3, _⟩
          · exact absurd rfl hc.2
          · simp only at h1
            rw [h2] at h1
            have := List.append_cancel_left h1
            simp only [List.cons.injEq] at this
            exact absurd h3 (by rw [this.1]; exact UInt8.lt_irrefl l)
        · exfalso
          rcases hc with hc | ⟨p, l, b, s, t, h1, h2, h3, _⟩
          · exact absurd hc.1 (by decide)
          · match p, h1, h2 with
            | [], h1, h2 => simp at h1 h2; rw [← h1.1, ← h2.1] at h3; exact absurd h3 (by decide)
            | [q], h1, h2 => simp at h1 h2; rw [← h1.2.1, ← h2.2.1] at h3; exact absurd h3 (by decide)
            | q :: q' :: p, h1, _ => simp at h1
    rw [b1, hcard.unique hone]

/-- With "a" = 1 and "ab" = 1 the stored key "ab" gets no number. -/
example : ∃ d D g x, Made [([97], 1), ([97, 98], 1)] d D ∧ buildRankedGuide insertionSort d D = .ok (some g) ∧ buildIndex D g = .ok (some x) ∧
    Indexer.bytesToIndex D g x [97, 98] = .ok Indexer.notFound := by
  obtain ⟨d, D, h, _⟩ := C14_small_builds 1 (by omega) (by omega) [([97], 1), ([97, 98], 1)] (by decide) (by decide)
  obtain ⟨g, e1, _⟩ := C27_ranked_guide h insertionSort_stableSort.perm (fun lhs rhs => decide (lhs < rhs))
  obtain ⟨x, _, a1, _⟩ := C86_index h (by decide) insertionSort_stableSort e1
  refine ⟨d, D, g, x, h, e1, a1, ?_⟩
  obtain ⟨n, b1, b2, _⟩ := C88_stored_partial h insertionSort_stableSort e1 a1 (k := [97, 98]) ⟨([97, 98], 1), by decide, rfl⟩
  rw [b1, b2.2]
  refine ⟨[97], 98, by decide, fun l hl => ?_⟩
  exfalso
  obtain ⟨f, hf, hp, hlt⟩ := hl.2 ([97], 1) (by decide) rfl
  have : ∀ f ∈ accepted [([97], (1 : Int)), ([97, 98], 1)], ¬ stored 1 < stored f.2 := by decide
  exact this f hf hlt

end Dawg.Props
