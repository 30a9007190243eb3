import Verif.Props.Size
/-! # C106: sharing in dictionaries of at most 2^21 units is complete -/
namespace Dawg.Props
open Dawg Dawg.Spec Dawg.Client Dawg.Abs Dawg.Dict
attribute [-simp] List.length_flatten

/-- The arrangements of a dictionary of at most 2^21 units: one for each state. -/
theorem Made.one {hist d D} (h : Made hist d D) (hne : accepted hist ≠ []) (hsz : D.size ≤ 2097152) :
    ∃ c r B G num, DSem c r ((accepted hist).map wordE) D B G num ∧ ∀ o o' s, (o, s) ∈ G → (o', s) ∈ G → o = o' := by
  obtain ⟨n, oks, b, num, h1, h2, hadm, h3, h4⟩ := Made.unfold' h
  obtain ⟨c, r, e1, e2, ⟨B, G, pend, e3, e4, _, e5, e6, e7, _⟩⟩ := dict_built h1 h2 hadm h3 h4
  rcases e6 with ⟨e6, _⟩ | ⟨_, rfl⟩
  · simp at e6; exact absurd e6 hne
  · refine ⟨c, r, B, G, num, ⟨e3, e4, e5, e2, ?_⟩, e7 fun x hx => ?_⟩
    · intro e he
      obtain ⟨x, _, rfl⟩ := List.mem_map.1 he
      exact stored_lt _
    · have := (e3.offs x hx).2.1
      have hs : D.size = 256 * B := e3.len
      omega

/-- Two units that stand for the same suffix map point to the same arrangement. -/
theorem Node.same {c r acc D B G num} (h : DSem c r acc D B G num) (h1 : ∀ o o' s, (o, s) ∈ G → (o', s) ∈ G → o = o') {u o s g u' o' s' g' L}
    (hn : Node c G D u o s g L) (hn' : Node c G D u' o' s' g' L) : o = o' := by
  have hg := h.core.cinv.minimal hn.start.mem hn'.start.mem hn.den hn'.den
  subst hg
  have hs := IsStart.inj h.core.cinv.nodup hn.start hn'.start
  subst hs
  exact h1 _ _ _ hn.mem hn'.mem

/-- **C106.** In a dictionary of at most 2^21 units, two prefixes that the same suffixes with the same values complete to keys lead to the same units from the next byte on,
and to the same value unit. -/
theorem C106_shared {hist d D} (h : Made hist d D) (hsz : D.size ≤ 2 ^ 21) {p q : Key} (hpq : residual (words (accepted hist)) p = residual (words (accepted hist)) q)
    (hp : residual (words (accepted hist)) p ≠ []) : ∃ u v w w', D.followString p D.root = .ok (true, u, p.length) ∧ D.followString q D.root = .ok (true, v, q.length) ∧
      D.units[u]? = some w ∧ D.units[v]? = some w' ∧ u ^^^ dictOffset w = v ^^^ dictOffset w' ∧ dictHasLeaf w = dictHasLeaf w' ∧ ∀ l, D.follow l u = D.follow l v := by
  have hne : accepted hist ≠ [] := fun hc => hp (by rw [hc]; rfl)
  obtain ⟨c, r, B, G, num, e1, e2⟩ := Made.one h hne hsz
  obtain ⟨o, g, hn⟩ := e1.root (by simpa using hne)
  have hp' : residual ((accepted hist).map wordE) p ≠ [] := hp
  have hpq' : residual ((accepted hist).map wordE) p = residual ((accepted hist).map wordE) q := hpq
  obtain ⟨u, o1, s1, g1, a1, a2⟩ := followString_hit e1 (q := p) hn hp'
  obtain ⟨v, o2, s2, g2, b1, b2⟩ := followString_hit e1 (q := q) hn (hpq' ▸ hp')
  rw [← hpq'] at b2
  have ho := Node.same e1 e2 a2 b2
  obtain ⟨w, c1, c2, c3⟩ := a2.offset
  obtain ⟨w', d1, d2, d3⟩ := b2.offset
  have hg := e1.core.cinv.minimal a2.start.mem b2.start.mem a2.den b2.den
  have hs : s1 = s2 := by
    subst hg
    exact IsStart.inj e1.core.cinv.nodup a2.start b2.start
  refine ⟨u, v, w, w', a1, b1, ?_, ?_, by rw [c3, d3, ho], by rw [c2, d2, hs], fun l => ?_⟩
  · obtain ⟨l, hl⟩ := a2.word
    have := c1.symm.trans (rd_some hl)
    cases this
    exact hl
  · obtain ⟨l, hl⟩ := b2.word
    have := d1.symm.trans (rd_some hl)
    cases this
    exact hl
  · unfold Dictionary.follow
    rw [c1, d1]
    simp only [ok_bind]
    rw [c3, d3, ho]

/-- **C106, size.** A dictionary of at most 2^21 units uses exactly one unit for every transition of the minimal automaton, besides the root. -/
theorem C106_one_unit_each {hist d D} (h : Made hist d D) (hsz : D.size ≤ 2 ^ 21) : ∃ used : Nat, d.numOfTransitions = used ∧
    HasCard (fun i => i ≠ D.root ∧ ∃ e ∈ accepted hist, PartOf D e.1 i) used ∧
    HasCard (fun x : List (Key × Nat) × UInt8 => x.1 ≠ [] ∧ (∃ p, x.1 = residual (words (accepted hist)) p) ∧ ∃ e ∈ x.1, [x.2] <+: e.1 ++ [0]) used := by
  obtain ⟨tr, used, edges, h1, h2, _, h3, _⟩ := C79_size h
  obtain ⟨n, oks, b, num, k1, k2, hadm, k3, k4⟩ := Made.unfold' h
  obtain ⟨m, t1, t2⟩ := C06_number_of_transitions n k1 k2 hist hadm oks b d k3
  have hm : m = tr := Nat.le_antisymm (card_le t2 h1 Eq (fun x hx => ⟨x, hx, rfl⟩) (fun _ _ _ _ _ h h' => h.trans h'.symm))
    (card_le h1 t2 Eq (fun x hx => ⟨x, hx, rfl⟩) (fun _ _ _ _ _ h h' => h.trans h'.symm))
  have hle : used ≤ tr := by
    by_cases he : accepted hist = []
    · refine card_le h2 h1 (fun _ _ => False) (fun i hi => ?_) (fun _ _ _ _ _ h => h.elim)
      obtain ⟨_, e, hmem, _⟩ := hi
      rw [he] at hmem; cases hmem
    obtain ⟨c, r, B, G, num, e1, e2⟩ := Made.one h he hsz
    have hne : (accepted hist).map wordE ≠ [] := by simpa using he
    refine card_le h2 h1 (fun i x => ∃ (o s : Nat) (g : Group) (q : Pair), Kid c G i (o, s) q ∧ IsStart c.groups s g ∧ DenG c.groups g x.1 ∧ q.1 = x.2) ?_ ?_
    · rintro i ⟨hi, e, hmem, hpart⟩
      have hk := (isKid_iff e1 hne (i := i)).2 (.inr ⟨_, mem_wordE hmem, hpart⟩)
      obtain ⟨⟨o, s⟩, q, hkid⟩ : IsKid c G i := Classical.byContradiction fun hc => hk ⟨hi, hc⟩
      obtain ⟨p, u, g, a1, a2⟩ := reach_mem e1 hne hkid.1
      have hq : q ∈ g := by have := hkid.2.1; rwa [show grp c (o, s).2 = g from a2.start.groupAt e1.ne] at this
      refine ⟨(residual ((accepted hist).map wordE) p, q.1), ⟨a2.den.ne_nil e1.ne (e1.ne _ a2.start.mem), ⟨p, rfl⟩, ?_⟩, o, s, g, q, hkid, a2.start, a2.den, rfl⟩
      by_cases hq0 : q.1 = 0
      · refine ⟨_, (DenG.nil_mem a2.den).2 ⟨q.2, by rw [← hq0]; exact hq, rfl⟩, ?_⟩
        simp [hq0]
      · obtain ⟨g', b1, b2⟩ := a2.den.child (e1.core.cinv.asc _ a2.start.mem) hq hq0
        obtain ⟨e', he'⟩ := List.exists_mem_of_ne_nil _ (b2.ne_nil e1.ne (e1.ne _ b1.mem))
        rw [mem_residual] at he'
        exact ⟨_, he', by simp⟩
    · rintro i i' ⟨L, l⟩ _ _ ⟨o, s, g, q, a1, a2, a3, a4⟩ ⟨o', s', g', q', b1, b2, b3, b4⟩
      have hg := e1.core.cinv.minimal a2.mem b2.mem a3 b3
      subst hg
      have hs := IsStart.inj e1.core.cinv.nodup a2 b2
      subst hs
      have ho := e2 _ _ _ a1.1 b1.1
      subst ho
      rw [a1.2.2, b1.2.2, a4, b4]
  have hu : used = m := by omega
  subst hu
  exact ⟨used, t1, h2, t2⟩

/-- **C106, unused units.** The number of unused units of a dictionary of at most 2^21 units is its size without the root and the transitions of the Dawg. -/
theorem C106_unused {hist d D} (h : Made hist d D) (hsz : D.size ≤ 2 ^ 21) : ∃ num : Nat, d.buildWithUnused = .ok (some (D, num)) ∧
    (num : Int) = D.size - 1 - d.numOfTransitions := by
  obtain ⟨used, h1, ⟨l, a1, a2, a3⟩, _⟩ := C106_one_unit_each h hsz
  obtain ⟨num, h2, ⟨l', b1, b2, b3⟩, _⟩ := C15_unused_exact h
  obtain ⟨_, _, _, _, ⟨l'', c1, c2, c3⟩, _, _, _, h5, h6, _⟩ := C79_size h
  refine ⟨num, h2, ?_⟩
  have hin : ∀ i ∈ l, i < D.size := by
    intro i hi
    obtain ⟨hi0, e, he, hp⟩ := (a2 i).1 hi
    obtain ⟨c, r, B', G, num, _, _, e3⟩ := Made.sem h (fun hc => by rw [hc] at he; cases he)
    have hne : (accepted hist).map wordE ≠ [] := fun hc => by
      have := mem_wordE he
      rw [hc] at this; cases this
    have hk := (isKid_iff e3 hne (i := i)).2 (.inr ⟨_, mem_wordE he, hp⟩)
    obtain ⟨x, q, hkid⟩ : IsKid c G i := Classical.byContradiction fun hc => hk ⟨hi0, hc⟩
    rw [hkid.2.2]
    have hB : D.size = 256 * B' := e3.u.len
    rw [hB]
    exact (xor_lt_of_block (label_lt _)).2 (e3.u.offs _ hkid.1).2.1
  have hlen : (D.root :: (l ++ l')).length = (List.range D.size).length := by
    refine (List.Perm.length_eq ((List.perm_ext_iff_of_nodup ?_ List.nodup_range).2 ?_))
    · rw [List.nodup_cons, List.nodup_append]
      refine ⟨?_, a1, b1, ?_⟩
      · rw [List.mem_append]
        rintro (hc | hc)
        · exact ((a2 _).1 hc).1 rfl
        · exact ((b2 _).1 hc).2.1 rfl
      · rintro i hi j hj rfl
        obtain ⟨_, e, he, hp⟩ := (a2 _).1 hi
        exact ((b2 _).1 hj).2.2 e he hp
    · intro i
      rw [List.mem_cons, List.mem_append, List.mem_range, a2, b2]
      constructor
      · rintro (rfl | hi | hi)
        · show 0 < D.size
          omega
        · exact hin i ((a2 i).2 hi)
        · exact hi.1
      · intro hi
        by_cases h0 : i = D.root
        · exact .inl h0
        · by_cases hx : ∃ e ∈ accepted hist, PartOf D e.1 i
          · exact .inr (.inl ⟨h0, hx⟩)
          · exact .inr (.inr ⟨hi, h0, fun e he hp => hx ⟨e, he, hp⟩⟩)
  simp only [List.length_cons, List.length_append, List.length_range] at hlen
  rw [h1]
  omega

/-- The dictionary of `Witness.histA` has 256 units; its unused units are all units but the root and one for each transition. -/
example : ∃ (d : Dawg) (num : Nat), d.buildWithUnused = .ok (some (Witness.dictA, num)) ∧ (num : Int) = 255 - d.numOfTransitions := by
  obtain ⟨d, hd⟩ := sampleMade
  have hs : Witness.dictA.size = 256 := by decide +kernel
  obtain ⟨num, h1, h2⟩ := C106_unused hd (by rw [hs]; decide)
  refine ⟨d, num, h1, ?_⟩
  rw [h2, hs]
  rfl

/-- The keys `ac` and `bc` with the same value: four units are in use, and `c` leads from `a` and from `b` to the same unit. -/
example : ∃ (d : Dawg) (D : Dictionary) (u v : Nat), Made [([97, 99], 1), ([98, 99], 1)] d D ∧
    HasCard (fun i => i ≠ D.root ∧ ∃ e ∈ accepted [([97, 99], 1), ([98, 99], 1)], PartOf D e.1 i) 4 ∧
    D.followString [97] D.root = .ok (true, u, 1) ∧ D.followString [98] D.root = .ok (true, v, 1) ∧ D.follow 99 u = D.follow 99 v := by
  obtain ⟨d, D, h1, oks, b, h2⟩ := C14_small_builds 256 (by omega) (by omega) [([97, 99], 1), ([98, 99], 1)] (by decide) (by decide)
  have h3 : (build 256 [([97, 99], 1), ([98, 99], 1)]).toOption.map (fun r => r.2.2.numOfTransitions) = some 4 := by decide +kernel
  rw [h2] at h3
  have h4 : d.numOfTransitions = 4 := by simpa [Except.toOption] using h3
  have hs : D.size ≤ 2 ^ 21 := by
    obtain ⟨_, _, _, _, _, _, _, _, _, _, h5, _⟩ := C79_size h1
    refine Nat.le_trans h5 ?_
    decide +kernel
  obtain ⟨used, k1, k2, _⟩ := C106_one_unit_each h1 hs
  have hu : used = 4 := by omega
  subst hu
  obtain ⟨u, v, w, w', a1, a2, _, _, _, _, a3⟩ := C106_shared h1 hs (p := [97]) (q := [98]) (by decide +kernel) (by decide +kernel)
  exact ⟨d, D, u, v, h1, k2, a1, a2, a3 99⟩

end Dawg.Props
