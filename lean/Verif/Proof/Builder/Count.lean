import Verif.Proof.Builder.Access
/-! # Counting states, transitions and merges -/
namespace Dawg.Abs
attribute [-simp] List.length_flatten
open Dawg.Spec Dawg.Client

theorem IsStart.of_mem {gs : List Group} {g : Group} (h : g ∈ gs) : ∃ s, IsStart gs s g := by
  obtain ⟨pre, post, rfl⟩ := List.append_of_mem h
  exact ⟨_, pre, post, rfl, rfl⟩

theorem FinalCore.start_node {c r acc N s} (_h : FinalCore c r acc) (hN : NInv c [] (if r = 0 then none else some r) N)
    (hs : s ∈ starts 1 c.groups) : ∃ p, (p, s) ∈ N := by
  have := (hN.count s hs).1
  obtain ⟨x, hx, he⟩ := List.countP_pos_iff.1 this
  simp only [beq_iff_eq] at he
  exact ⟨x.1, by rw [← he]; exact hx⟩

theorem FinalCore.group_lang {c r acc g L} (h : FinalCore c r acc) (hg : g ∈ c.groups) (hd : DenG c.groups g L) :
    L ≠ [] ∧ ∃ p, L = residual acc p := by
  obtain ⟨N, hN⟩ := h.nodes
  obtain ⟨s, hs⟩ := IsStart.of_mem hg
  obtain ⟨p, hp⟩ := h.start_node hN (mem_starts.2 ⟨g, hs⟩)
  obtain ⟨g', h1, h2⟩ := h.node_den hN _ p s rfl hp
  have := h1.unique hs h.cinv.ne
  subst this
  exact ⟨hd.ne_nil h.cinv.ne (h.cinv.ne _ hg), p, hd.det h.cinv.ne h2⟩

theorem FinalCore.residual_state {c r acc p} (h : FinalCore c r acc) (hp : residual acc p ≠ []) :
    ∃ s g, IsStart c.groups s g ∧ DenG c.groups g (residual acc p) := by
  obtain ⟨N, hN⟩ := h.nodes
  obtain ⟨s, hs⟩ := h.node_ex hN _ p rfl hp
  obtain ⟨g, h1, h2⟩ := h.node_den hN _ p s rfl hs
  exact ⟨s, g, h1, h2⟩

/-- One group per distinct residual. -/
theorem FinalCore.card_states {c r acc} (h : FinalCore c r acc) :
    HasCard (fun L => L ≠ [] ∧ ∃ p, L = residual acc p) c.groups.length := by
  have hch : ∀ g, ∃ L, g ∈ c.groups → DenG c.groups g L := fun g => by
    by_cases hg : g ∈ c.groups
    · obtain ⟨L, hL⟩ := h.cinv.den g hg; exact ⟨L, fun _ => hL⟩
    · exact ⟨[], fun hc => absurd hc hg⟩
  let lang : Group → Lang := fun g => Classical.choose (hch g)
  have hlang : ∀ g ∈ c.groups, DenG c.groups g (lang g) := fun g hg => Classical.choose_spec (hch g) hg
  refine ⟨c.groups.map lang, ?_, ?_, by simp⟩
  · rw [List.nodup_iff_pairwise_ne, List.pairwise_map]
    have := List.nodup_iff_pairwise_ne.1 h.cinv.nodup
    refine this.imp_of_mem ?_
    intro a b ha hb hne he
    exact hne (h.cinv.minimal ha hb (hlang a ha) (by rw [he]; exact hlang b hb))
  · intro L
    constructor
    · intro hL
      obtain ⟨g, hg, rfl⟩ := List.mem_map.1 hL
      exact h.group_lang hg (hlang g hg)
    · rintro ⟨hne, p, rfl⟩
      obtain ⟨s, g, h1, h2⟩ := h.residual_state hne
      exact List.mem_map.2 ⟨g, h1.mem, (hlang g h1.mem).det h.cinv.ne h2⟩

/-! ## Trie edges -/

theorem DenG.labels {gs g L} (h : DenG gs g L) (hne : ∀ g ∈ gs, g ≠ []) (l : UInt8) :
    (∃ q ∈ g, q.1 = l) ↔ ∃ e ∈ L, [l] <+: e.1 ++ [0] := by
  induction h with
  | nil => simp
  | @leaf b rest L _ ih =>
    constructor
    · rintro ⟨q, hq, rfl⟩
      rcases List.mem_cons.1 hq with rfl | hq
      · exact ⟨_, List.mem_cons_self, by simp⟩
      · obtain ⟨e, he, h⟩ := ih.1 ⟨q, hq, rfl⟩
        exact ⟨e, List.mem_cons_of_mem _ he, h⟩
    · rintro ⟨e, he, h⟩
      rcases List.mem_cons.1 he with rfl | he
      · simp at h; exact ⟨_, List.mem_cons_self, h.symm⟩
      · obtain ⟨q, hq, h⟩ := ih.2 ⟨e, he, h⟩
        exact ⟨q, List.mem_cons_of_mem _ hq, h⟩
  | @node m b g1 L1 rest L hl hst hc hr _ ih =>
    constructor
    · rintro ⟨q, hq, rfl⟩
      rcases List.mem_cons.1 hq with rfl | hq
      · have := hc.ne_nil hne (hne _ hst.mem)
        obtain ⟨e, he⟩ := List.exists_mem_of_ne_nil _ this
        exact ⟨pre [m] e, List.mem_append_left _ (List.mem_map.2 ⟨e, he, rfl⟩), by simp [pre]⟩
      · obtain ⟨e, he, h⟩ := ih.1 ⟨q, hq, rfl⟩
        exact ⟨e, List.mem_append_right _ he, h⟩
    · rintro ⟨e, he, h⟩
      rcases List.mem_append.1 he with he | he
      · obtain ⟨a, _, rfl⟩ := List.mem_map.1 he
        simp [pre] at h
        exact ⟨_, List.mem_cons_self, h.symm⟩
      · obtain ⟨q, hq, h⟩ := ih.2 ⟨e, he, h⟩
        exact ⟨q, List.mem_cons_of_mem _ hq, h⟩

/-- One unit per distinct residual and label. -/
theorem FinalCore.card_transitions {c r acc} (h : FinalCore c r acc) :
    HasCard (fun x : Lang × UInt8 => x.1 ≠ [] ∧ (∃ p, x.1 = residual acc p) ∧ ∃ e ∈ x.1, [x.2] <+: e.1 ++ [0]) c.groups.flatten.length := by
  have hch : ∀ g, ∃ L, g ∈ c.groups → DenG c.groups g L := fun g => by
    by_cases hg : g ∈ c.groups
    · obtain ⟨L, hL⟩ := h.cinv.den g hg; exact ⟨L, fun _ => hL⟩
    · exact ⟨[], fun hc => absurd hc hg⟩
  let lang : Group → Lang := fun g => Classical.choose (hch g)
  have hlang : ∀ g ∈ c.groups, DenG c.groups g (lang g) := fun g hg => Classical.choose_spec (hch g) hg
  refine ⟨(c.groups.map (fun g => g.map (fun q => (lang g, q.1)))).flatten, ?_, ?_, ?_⟩
  · rw [List.nodup_iff_pairwise_ne, List.pairwise_flatten]
    refine ⟨?_, ?_⟩
    · intro l hl
      obtain ⟨g, hg, rfl⟩ := List.mem_map.1 hl
      rw [List.pairwise_map]
      refine (h.cinv.asc g hg).imp ?_
      intro a b hab he
      rw [(Prod.mk.inj he).2] at hab
      exact UInt8.lt_irrefl _ hab
    · rw [List.pairwise_map]
      refine (List.nodup_iff_pairwise_ne.1 h.cinv.nodup).imp_of_mem ?_
      intro a b ha hb hne x hx y hy he
      obtain ⟨q, _, rfl⟩ := List.mem_map.1 hx
      obtain ⟨q', _, rfl⟩ := List.mem_map.1 hy
      exact hne (h.cinv.minimal ha hb (hlang a ha) (by rw [(Prod.mk.inj he).1]; exact hlang b hb))
  · rintro ⟨L, b⟩
    simp only [List.mem_flatten, List.mem_map]
    constructor
    · rintro ⟨_, ⟨g, hg, rfl⟩, hx⟩
      obtain ⟨q, hq, he⟩ := List.mem_map.1 hx
      obtain ⟨rfl, rfl⟩ := Prod.mk.inj he
      obtain ⟨h1, h2⟩ := h.group_lang hg (hlang g hg)
      exact ⟨h1, h2, ((hlang g hg).labels h.cinv.ne q.1).1 ⟨q, hq, rfl⟩⟩
    · rintro ⟨hne, ⟨p, rfl⟩, he⟩
      obtain ⟨s, g, h1, h2⟩ := h.residual_state hne
      obtain ⟨q, hq, rfl⟩ := (h2.labels h.cinv.ne b).2 he
      exact ⟨_, ⟨g, h1.mem, rfl⟩, List.mem_map.2 ⟨q, hq, by rw [(hlang g h1.mem).det h.cinv.ne h2]⟩⟩
  · rw [List.length_flatten, List.length_flatten, List.map_map]
    simp [Function.comp_def]

theorem FinalCore.card_edges {c r acc} (h : FinalCore c r acc) (hnul : ∀ e ∈ acc, (0 : UInt8) ∉ e.1) :
    HasCard (TrieEdge acc) (c.groups.flatten.length + c.merged) := by
  obtain ⟨N, hN⟩ := h.nodes
  refine ⟨N.flatMap (fun x => (groupAt 1 c.groups x.2).map (fun q => x.1 ++ [q.1])), ?_, ?_, ?_⟩
  · rw [List.nodup_iff_pairwise_ne, List.pairwise_flatMap]
    constructor
    · intro x hx
      rw [List.pairwise_map]
      obtain ⟨g, hg⟩ := mem_starts.1 (hN.start x hx)
      rw [hg.groupAt h.cinv.ne]
      refine (h.cinv.asc _ hg.mem).imp ?_
      intro a b hab he
      have := (List.append_inj' he rfl).2
      simp only [List.cons.injEq, and_true] at this
      rw [this] at hab
      exact absurd hab (UInt8.lt_irrefl _)
    · have := List.nodup_iff_pairwise_ne.1 hN.nodup
      rw [List.pairwise_map] at this
      refine this.imp ?_
      intro a b hab x hx y hy he
      simp only [List.mem_map] at hx hy
      obtain ⟨q, _, rfl⟩ := hx
      obtain ⟨q', _, rfl⟩ := hy
      exact hab (List.append_inj' he rfl).1
  · intro x
    simp only [List.mem_flatMap, List.mem_map]
    constructor
    · rintro ⟨⟨p, s⟩, hx, q, hq, rfl⟩
      obtain ⟨g, h1, h2⟩ := h.node_den hN _ p s rfl hx
      rw [h1.groupAt h.cinv.ne] at hq
      obtain ⟨e, he, hpre⟩ := (h2.labels h.cinv.ne q.1).1 ⟨q, hq, rfl⟩
      refine ⟨by simp, (p ++ e.1, e.2), mem_residual.1 he, ?_⟩
      simp only [List.append_assoc, List.prefix_append_right_inj]
      exact hpre
    · rintro ⟨hne, e, he, hpre⟩
      rcases List.eq_nil_or_concat x with rfl | ⟨p, l, rfl⟩
      · exact absurd rfl hne
      · rw [List.concat_eq_append] at *
        obtain ⟨t, ht⟩ := hpre
        have hpe : p <+: e.1 := by
          have h1 : p <+: e.1 ++ [0] := ⟨[l] ++ t, by rw [← ht]; simp⟩
          have hl : p.length ≤ e.1.length := by
            have := congrArg List.length ht
            simp at this; omega
          exact List.prefix_of_prefix_length_le h1 (List.prefix_append _ _) hl
        obtain ⟨u, hu⟩ := hpe
        have hres : (u, e.2) ∈ residual acc p := mem_residual.2 (by rw [hu]; exact he)
        obtain ⟨s, hs⟩ := h.node_ex hN _ p rfl (List.ne_nil_of_mem hres)
        obtain ⟨g, h1, h2⟩ := h.node_den hN _ p s rfl hs
        obtain ⟨q, hq, hl⟩ := (h2.labels h.cinv.ne l).2 ⟨_, hres, by
          rw [← hu] at ht
          simp only [List.append_assoc, List.append_cancel_left_eq] at ht
          exact ⟨t, by simpa using ht⟩⟩
        exact ⟨(p, s), hs, q, by rw [h1.groupAt h.cinv.ne]; exact hq, by rw [hl]⟩
  · rw [List.length_flatMap, ← hN.sum]
    simp only [List.length_map]

/-! ## Merging states -/

theorem countP_two {α : Type} {l : List α} {f : α → Bool} (hnd : l.Nodup) (h : 2 ≤ l.countP f) :
    ∃ a ∈ l, ∃ b ∈ l, a ≠ b ∧ f a = true ∧ f b = true := by
  rw [List.countP_eq_length_filter] at h
  have hn := hnd.filter f
  match hm : l.filter f, h, hn with
  | a :: b :: rest, _, hn =>
    have ha : a ∈ l.filter f := by rw [hm]; simp
    have hb : b ∈ l.filter f := by rw [hm]; simp
    rw [List.mem_filter] at ha hb
    refine ⟨a, ha.1, b, hb.1, ?_, ha.2, hb.2⟩
    have hn' : (a :: b :: rest).Nodup := hn
    exact fun he => (List.nodup_cons.1 hn').1 (by rw [he]; simp)

theorem two_countP {α : Type} [DecidableEq α] {l : List α} {f : α → Bool} {a b : α} (ha : a ∈ l) (hb : b ∈ l) (hne : a ≠ b) (hfa : f a = true)
    (hfb : f b = true) : 2 ≤ l.countP f := by
  rw [List.countP_eq_length_filter]
  have h1 : a ∈ l.filter f := List.mem_filter.2 ⟨ha, hfa⟩
  have h2 : b ∈ l.filter f := List.mem_filter.2 ⟨hb, hfb⟩
  have : [a, b].length ≤ (l.filter f).length := List.Nodup.length_le_of_subset (by simp [hne]) (by
    intro x hx; simp at hx; rcases hx with rfl | rfl <;> assumption)
  simpa using this

theorem FinalCore.marked_iff {c r acc s g L} (h : FinalCore c r acc) (hs : IsStart c.groups s g) (hd : DenG c.groups g L) :
    s ∈ c.marked ↔ ∃ p q, p ≠ q ∧ residual acc p = L ∧ residual acc q = L := by
  obtain ⟨N, hN⟩ := h.nodes
  rw [(hN.count s (mem_starts.2 ⟨g, hs⟩)).2]
  have hnodup : N.Nodup := by
    have := List.nodup_iff_pairwise_ne.1 hN.nodup
    rw [List.pairwise_map] at this
    exact List.nodup_iff_pairwise_ne.2 (this.imp (fun h he => h (by rw [he])))
  have hinj : ∀ {p t t'}, (p, t) ∈ N → (p, t') ∈ N → t = t' := by
    intro p t t' h1 h2
    obtain ⟨i, hi, e1⟩ := List.mem_iff_getElem.1 h1
    obtain ⟨j, hj, e2⟩ := List.mem_iff_getElem.1 h2
    have := nodup_getElem_inj hN.nodup (i := i) (j := j) (by simpa using hi) (by simpa using hj) (by simp [e1, e2])
    subst this
    rw [e1] at e2
    simp at e2; exact e2
  constructor
  · intro h2
    obtain ⟨a, ha, b, hb, hne, ea, eb⟩ := countP_two hnodup h2
    simp only [beq_iff_eq] at ea eb
    obtain ⟨p, s1⟩ := a
    obtain ⟨q, s2⟩ := b
    simp only at ea eb
    subst ea eb
    obtain ⟨g1, a1, a2⟩ := h.node_den hN _ p _ rfl ha
    obtain ⟨g2, b1, b2⟩ := h.node_den hN _ q _ rfl hb
    have e1 := a1.unique hs h.cinv.ne
    have e2 := b1.unique hs h.cinv.ne
    subst e1 e2
    exact ⟨p, q, fun he => hne (by rw [he]), a2.det h.cinv.ne hd, b2.det h.cinv.ne hd⟩
  · rintro ⟨p, q, hne, hp, hq⟩
    have hL := hd.ne_nil h.cinv.ne (h.cinv.ne _ hs.mem)
    obtain ⟨s1, h1⟩ := h.node_ex hN _ p rfl (by rw [hp]; exact hL)
    obtain ⟨s2, h2⟩ := h.node_ex hN _ q rfl (by rw [hq]; exact hL)
    have aux : ∀ {p t}, (p, t) ∈ N → residual acc p = L → t = s := by
      intro p t hpt hr
      obtain ⟨g', a1, a2⟩ := h.node_den hN _ p t rfl hpt
      rw [hr] at a2
      have := h.cinv.minimal a1.mem hs.mem a2 hd
      subst this
      exact a1.inj h.cinv.nodup hs
    have e1 := aux h1 hp
    have e2 := aux h2 hq
    subst e1 e2
    exact two_countP h1 h2 (by simp [hne]) (by simp) (by simp)

/-! ## States by accessors -/

theorem DawgIs.trans_cases {d c r acc i} (h : DawgIs d c r) (hf : FinalCore c r acc) (ht : Trans d i) :
    i = 0 ∨ ∃ s g j q, IsStart c.groups s g ∧ g[j]? = some q ∧ i = s + j := by
  have first : ∀ {s g}, IsStart c.groups s g → ∃ s' g' j q, IsStart c.groups s' g' ∧ g'[j]? = some q ∧ s = s' + j := by
    intro s g hs
    have := List.length_pos_iff.2 (hf.cinv.ne _ hs.mem)
    exact ⟨s, g, 0, g[0], hs, by simp, rfl⟩
  induction ht with
  | root => exact .inl rfl
  | @child i c' _ hl hc hc0 ih =>
    right
    rcases ih with rfl | ⟨s, g, j, q, hs, hj, rfl⟩
    · rw [h.child_root hf] at hc
      simp only [Except.ok.injEq] at hc
      subst hc
      rcases hf.den with ⟨_, h0, _⟩ | ⟨g, h1, _⟩
      · exact absurd h0 hc0
      · exact first h1
    · rw [h.child_at hs hj] at hc
      rw [h.isLeaf_at hs hj] at hl
      simp only [Except.ok.injEq, beq_eq_false_iff_ne] at hc hl
      subst hc
      obtain ⟨L, hL⟩ := hf.cinv.den _ hs.mem
      obtain ⟨g', h1, _⟩ := hL.child (hf.cinv.asc _ hs.mem) (List.mem_of_getElem? hj) hl
      exact first h1
  | @sibling i s' _ hsib hs0 ih =>
    right
    rcases ih with rfl | ⟨s, g, j, q, hs, hj, rfl⟩
    · rw [h.sibling_root] at hsib
      simp only [Except.ok.injEq] at hsib
      exact absurd hsib.symm hs0
    · rw [h.sibling_at hf hs hj] at hsib
      simp only [Except.ok.injEq] at hsib
      split at hsib
      · rename_i hlt
        subst hsib
        exact ⟨s, g, j + 1, g[j + 1], hs, by simp, rfl⟩
      · exact absurd hsib.symm hs0

theorem DawgIs.trans_start {d c r acc s g} (h : DawgIs d c r) (hf : FinalCore c r acc) (hs : IsStart c.groups s g) (ht : Trans d s) :
    ∀ j, j < g.length → Trans d (s + j) := by
  intro j
  induction j with
  | zero => intro _; exact ht
  | succ j ih =>
    intro hj
    have := ih (by omega)
    refine .sibling this (by rw [h.sibling_at hf hs (List.getElem?_eq_getElem (by omega)), if_pos hj]) ?_
    have := hs.pos; omega

theorem DawgIs.isState_iff {d c r acc} (h : DawgIs d c r) (hf : FinalCore c r acc) {s : Nat} :
    IsState d s ↔ s ∈ starts 1 c.groups := by
  constructor
  · rintro ⟨i, ht, hl, hc, hc0⟩
    rcases h.trans_cases hf ht with rfl | ⟨s', g, j, q, hs, hj, rfl⟩
    · rw [h.child_root hf] at hc
      simp only [Except.ok.injEq] at hc
      subst hc
      rcases hf.den with ⟨_, h0, _⟩ | ⟨g, h1, _⟩
      · exact absurd h0 hc0
      · exact mem_starts.2 ⟨g, h1⟩
    · rw [h.child_at hs hj] at hc
      rw [h.isLeaf_at hs hj] at hl
      simp only [Except.ok.injEq, beq_eq_false_iff_ne] at hc hl
      subst hc
      obtain ⟨L, hL⟩ := hf.cinv.den _ hs.mem
      obtain ⟨g', h1, _⟩ := hL.child (hf.cinv.asc _ hs.mem) (List.mem_of_getElem? hj) hl
      exact mem_starts.2 ⟨g', h1⟩
  · intro hs
    obtain ⟨N, hN⟩ := hf.nodes
    obtain ⟨p, hp⟩ := hf.start_node hN hs
    suffices ∀ n p s, p.length = n → (p, s) ∈ N → IsState d s from this _ p s rfl hp
    intro n
    induction n with
    | zero =>
      intro p s hp hps
      rcases hN.bwd _ _ hps with ⟨p', t, g, q, _, _, _, _, h1, _⟩ | ⟨f, fs', e, h1, _⟩ | ⟨h1, _⟩
      · rw [h1] at hp; simp at hp
      · simp at h1
      · split at h1
        · simp at h1
        · rename_i hr
          simp only [Option.some.injEq] at h1
          subst h1
          exact ⟨0, .root, h.isLeaf_root, h.child_root hf, hr⟩
    | succ n ih =>
      intro p s hp hps
      rcases hN.bwd _ _ hps with ⟨p', t, g, q, h1, h2, h3, h4, h5, h6⟩ | ⟨f, fs', e, h1, _⟩ | ⟨_, h1⟩
      · subst h5 h6
        simp at hp
        obtain ⟨i, a1, a2, a3, a4⟩ := ih p' t hp h1
        obtain ⟨j, hj, rfl⟩ := List.mem_iff_getElem.1 h3
        have hj' := List.getElem?_eq_getElem hj
        refine ⟨t + j, h.trans_start hf h2 (.child a1 a2 a3 a4) j hj, ?_, h.child_at h2 hj', ?_⟩
        · rw [h.isLeaf_at h2 hj']; simp [h4]
        · obtain ⟨g', b1⟩ := mem_starts.1 (hN.start _ hps)
          exact Nat.pos_iff_ne_zero.1 b1.pos
      · simp at h1
      · rw [h1] at hp; simp [path_nil] at hp

theorem DawgIs.state_lang {d c r acc} (h : DawgIs d c r) (hf : FinalCore c r acc) {s : Nat} (hs : IsState d s) :
    ∃ g L, IsStart c.groups s g ∧ DenG c.groups g L ∧ ∃ n, ∀ fuel, n ≤ fuel → Client.dump d fuel s [] = .ok L := by
  obtain ⟨g, hg⟩ := mem_starts.1 ((h.isState_iff hf).1 hs)
  obtain ⟨L, hL⟩ := hf.cinv.den _ hg.mem
  exact ⟨g, L, hg, hL, h.dump_state hf hg hL⟩

theorem DawgIs.isMerging_iff {d c r acc} (h : DawgIs d c r) (_hf : FinalCore c r acc) {i : Nat} (hi : i < poolLen c.groups) :
    d.isMerging i = .ok (decide (i ∈ c.marked)) := by
  have := h.flags.get (i := i) (by rw [h.flagSize]; exact hi)
  exact this

end Dawg.Abs
