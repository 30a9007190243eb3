import Verif.Props.Lexicon
/-! # C77, C79: what a look-up reads and how large a dictionary is -/
namespace Dawg.Props
open Dawg Dawg.Spec Dawg.Client Dawg.Abs Dawg.Dict
attribute [-simp] List.length_flatten

/-! ## C77 -/

theorem rd_congr {xs ys : List Nat} {i : Nat} (h : ys[i]? = xs[i]?) : rd ys i = rd xs i := by
  unfold rd
  rw [h]

theorem followString_reads (D : Dictionary) : ∀ (q : Key) (i : Nat), ∃ I : List Nat, I.length = q.length ∧
    ∀ D' : Dictionary, (∀ j ∈ i :: I, D'.units[j]? = D.units[j]?) → D'.followString q i = D.followString q i ∧
      ∀ ok j n, D.followString q i = .ok (ok, j, n) → j ∈ i :: I
  | [], i => ⟨[], rfl, fun D' _ => ⟨rfl, fun ok j n h => by
      simp only [Dictionary.followString, Except.ok.injEq, Prod.mk.injEq] at h
      simp [h.2.1]⟩⟩
  | c :: q, i => by
    cases hu : rd D.units i with
    | error e =>
      refine ⟨List.replicate (q.length + 1) i, by simp, fun D' h => ?_⟩
      have h1 := rd_congr (h i (by simp))
      constructor
      · simp only [Dictionary.followString, Dictionary.follow, h1, hu, bind, Except.bind]
      · intro ok j n hr
        simp only [Dictionary.followString, Dictionary.follow, hu, bind, Except.bind] at hr
        cases hr
    | ok u =>
      obtain ⟨I, h1, h2⟩ := followString_reads D q (i ^^^ dictOffset u ^^^ c.toNat)
      refine ⟨(i ^^^ dictOffset u ^^^ c.toNat) :: I, by simp [h1], fun D' h => ?_⟩
      have k1 := rd_congr (h i (by simp))
      have k2 := rd_congr (h (i ^^^ dictOffset u ^^^ c.toNat) (by simp))
      obtain ⟨h3, h4⟩ := h2 D' (fun j hj => h j (List.mem_cons_of_mem _ hj))
      have hf : D'.follow c i = D.follow c i := by
        simp only [Dictionary.follow, k1, hu, ok_bind, k2]
      constructor
      · simp only [Dictionary.followString, hf]
        cases hr : D.follow c i with
        | error e => rfl
        | ok r =>
          simp only [ok_bind]
          cases r with
          | none => rfl
          | some next =>
            have : next = i ^^^ dictOffset u ^^^ c.toNat := by
              simp only [Dictionary.follow, hu, ok_bind] at hr
              obtain ⟨w, _, hw⟩ := bind_eq_ok.1 hr
              simp only [pure_eq_ok, Except.ok.injEq] at hw
              split at hw
              · cases hw
              · simpa using hw.symm
            subst this
            simp only [h3]
      · intro ok j n hr
        simp only [Dictionary.followString] at hr
        obtain ⟨r, hr1, hr2⟩ := bind_eq_ok.1 hr
        cases r with
        | none =>
          simp only [pure_eq_ok, Except.ok.injEq, Prod.mk.injEq] at hr2
          simp [hr2.2.1]
        | some next =>
          have : next = i ^^^ dictOffset u ^^^ c.toNat := by
            simp only [Dictionary.follow, hu, ok_bind] at hr1
            obtain ⟨w, _, hw⟩ := bind_eq_ok.1 hr1
            simp only [pure_eq_ok, Except.ok.injEq] at hw
            split at hw
            · cases hw
            · simpa using hw.symm
          subst this
          obtain ⟨⟨ok', j', n'⟩, h5, h6⟩ := bind_eq_ok.1 hr2
          simp only [pure_eq_ok, Except.ok.injEq, Prod.mk.injEq] at h6
          exact List.mem_cons_of_mem _ (h6.2.1 ▸ h4 _ _ _ h5)

/-- **C77.** A look-up of `q` depends on at most `len(q) + 2` units of the dictionary, however many keys it holds and even if it is corrupt: there are so many indices that
every other dictionary with the same units at these indices gives the same result, the same panic included. -/
theorem C77_reads (D : Dictionary) (q : Key) : ∃ I : List Nat, I.length = q.length + 2 ∧ ∀ D' : Dictionary, (∀ i ∈ I, D'.units[i]? = D.units[i]?) →
    D'.followString q D'.root = D.followString q D.root ∧ D'.containsString q = D.containsString q ∧ D'.findString q = D.findString q ∧
    ∀ out, D'.findStringValue q out = D.findStringValue q out := by
  obtain ⟨I, h1, h2⟩ := followString_reads D q 0
  have hroot : ∀ D : Dictionary, D.root = 0 := fun _ => rfl
  cases hr : D.followString q 0 with
  | error e =>
    refine ⟨0 :: 0 :: I, by simp [h1], fun D' h => ?_⟩
    have h3 := (h2 D' (fun j hj => h j (List.mem_cons_of_mem _ hj))).1
    simp only [Dictionary.containsString, Dictionary.findString, Dictionary.findStringValue, hroot, h3, hr]
    exact ⟨trivial, rfl, rfl, fun _ => rfl⟩
  | ok r =>
    obtain ⟨ok, j, n⟩ := r
    refine ⟨(j ^^^ dictOffset ((D.units[j]?).getD 0)) :: 0 :: I, by simp [h1], fun D' h => ?_⟩
    obtain ⟨h3, h4⟩ := h2 D' (fun j hj => h j (List.mem_cons_of_mem _ hj))
    have hj := rd_congr (h j (List.mem_cons_of_mem _ (h4 _ _ _ hr)))
    have hv : D'.value j = D.value j := by
      simp only [Dictionary.value, hj]
      cases hu : rd D.units j with
      | error e => rfl
      | ok u =>
        have : (D.units[j]?).getD 0 = u := by
          unfold rd at hu
          split at hu
          · rename_i h5
            rw [h5]
            simpa using hu
          · cases hu
        have h5 := rd_congr (h _ List.mem_cons_self)
        rw [this] at h5
        simp only [ok_bind, h5]
    have hh : D'.hasValue j = D.hasValue j := by simp only [Dictionary.hasValue, hj]
    simp only [Dictionary.containsString, Dictionary.findString, Dictionary.findStringValue, hroot, h3, hr, ok_bind, hh, hv]
    exact ⟨trivial, trivial, trivial, fun _ => trivial⟩

/-- The look-up of "a" in a dictionary of 256 units depends on three of them. -/
example : ∃ I : List Nat, I.length = 3 ∧ ∀ D' : Dictionary, (∀ i ∈ I, D'.units[i]? = Witness.dictA.units[i]?) → D'.findString [97] = Witness.dictA.findString [97] :=
  let ⟨I, h1, h2⟩ := C77_reads Witness.dictA [97]
  ⟨I, h1, fun D' h => (h2 D' h).2.2.1⟩

/-! ## C79 -/

theorem card_le {α β : Type} {S : α → Prop} {T : β → Prop} {m n : Nat} (hS : HasCard S m) (hT : HasCard T n) (R : α → β → Prop) (h1 : ∀ x, S x → ∃ y, T y ∧ R x y)
    (h2 : ∀ x x' y, S x → S x' → R x y → R x' y → x = x') : m ≤ n := by
  obtain ⟨l, a1, a2, rfl⟩ := hS
  obtain ⟨l', b1, b2, rfl⟩ := hT
  have hf : ∀ x : { x // x ∈ l }, ∃ y, T y ∧ R x.1 y := fun x => h1 x.1 ((a2 _).1 x.2)
  have hc := fun x => Classical.choose_spec (hf x)
  have := List.Nodup.length_le_of_subset (l₁ := l.attach.map (fun x => Classical.choose (hf x))) (l₂ := l') ?_ ?_
  · simpa using this
  · unfold List.Nodup
    rw [List.pairwise_map]
    have hn : l.attach.Nodup := by
      have : (l.attach.map Subtype.val).Nodup := by simpa using a1
      unfold List.Nodup at this ⊢
      rw [List.pairwise_map] at this
      exact this.imp fun h hc => h (congrArg _ hc)
    refine hn.imp ?_
    intro x x' hx hxe
    exact hx (Subtype.ext (h2 _ _ _ ((a2 _).1 x.2) ((a2 _).1 x'.2) (hc x).2 (hxe ▸ (hc x').2)))
  · intro y hy
    obtain ⟨x, _, rfl⟩ := List.mem_map.1 hy
    exact (b2 _).2 (hc x).1

/-- **C79.** How large a dictionary is.  Without the root it uses at least as many units as the minimal automaton has transitions and at most as many as the trie of the keys has edges.
Its size is a multiple of 256, at most 256 times the total length of the keys with their ends (and one), and at most 2^29 units; the file has 4 bytes per unit and 4 more. -/
theorem C79_size {hist d D} (h : Made hist d D) : ∃ transitions used edges : Nat,
    HasCard (fun x : List (Key × Nat) × UInt8 => x.1 ≠ [] ∧ (∃ p, x.1 = residual (words (accepted hist)) p) ∧ ∃ e ∈ x.1, [x.2] <+: e.1 ++ [0]) transitions ∧
    HasCard (fun i => i ≠ D.root ∧ ∃ e ∈ accepted hist, PartOf D e.1 i) used ∧ HasCard (TrieEdge (accepted hist)) edges ∧
    transitions ≤ used ∧ used ≤ edges ∧ used < D.size ∧ D.size % 256 = 0 ∧ D.size ≤ 256 * (1 + ((accepted hist).map (fun e => e.1.length + 1)).sum) ∧ D.size ≤ 2 ^ 29 ∧
    D.fileSize = 4 + 4 * D.size := by
  obtain ⟨n, oks, b, num, h1, h2, hadm, h3, h4⟩ := Made.unfold' h
  obtain ⟨tr, _, htr⟩ := C06_number_of_transitions n h1 h2 hist hadm oks b d h3
  obtain ⟨edges, _, hed, _⟩ := C06_trie_counts n h1 h2 hist hadm oks b d h3
  obtain ⟨c, r, _, _, B, G, pend, b3, b4, b5, b6, _⟩ := dict_built h1 h2 hadm h3 h4
  rw [msize_eq] at b5
  have hsz : D.size = 256 * B := b3.len
  have hrest : D.size % 256 = 0 ∧ D.size ≤ 256 * (1 + ((accepted hist).map (fun e => e.1.length + 1)).sum) ∧ D.size ≤ 2 ^ 29 ∧ D.fileSize = 4 + 4 * D.size :=
    ⟨by omega, by omega, by omega, rfl⟩
  have hroot : D.root = 0 := rfl
  classical
  -- the units in use lie in the array
  have hin : ∀ i, (∃ e ∈ accepted hist, PartOf D e.1 i) → i < D.size := by
    rintro i ⟨e, he, hp⟩
    obtain ⟨c, r, B', G, num, _, _, e3⟩ := Made.sem h (fun hc => by rw [hc] at he; cases he)
    have hne : (accepted hist).map wordE ≠ [] := fun hc => by
      have := mem_wordE he
      rw [hc] at this; cases this
    have hk := (isKid_iff e3 hne (i := i)).2 (.inr ⟨_, mem_wordE he, hp⟩)
    have hB : D.size = 256 * B' := e3.u.len
    by_cases h0 : i = 0
    · subst h0; omega
    · have : IsKid c G i := Classical.byContradiction fun hc => hk ⟨h0, hc⟩
      obtain ⟨x, q, hkid⟩ := this
      have : ∃ w, D.units[i]? = some w := by
        by_cases hq : q.1 = 0
        · exact ⟨_, (e3.u.leaf hkid hq).2⟩
        · rcases e3.u.node hkid hq with ⟨w, hw, _⟩ | ⟨_, o, _, _, hw⟩
          · cases hw
          · exact ⟨_, hw⟩
      obtain ⟨w, hw⟩ := this
      exact (List.getElem?_eq_some_iff.1 hw).1
  let S : Nat → Prop := fun i => i ≠ D.root ∧ ∃ e ∈ accepted hist, PartOf D e.1 i
  have hused : HasCard S ((List.range D.size).filter (fun i => decide (S i))).length := by
    refine ⟨_, List.nodup_range.sublist List.filter_sublist, fun i => ?_, rfl⟩
    rw [List.mem_filter, List.mem_range, decide_eq_true_eq]
    exact ⟨fun h => h.2, fun h => ⟨hin i h.2, h⟩⟩
  refine ⟨tr, _, edges, htr, hused, hed, ?_, ?_, ?_, hrest⟩
  · -- every transition of the minimal automaton has a unit
    by_cases he : accepted hist = []
    · refine card_le htr hused (fun _ _ => False) (fun x hx => ?_) (fun _ _ _ _ _ h => h.elim)
      obtain ⟨hx, ⟨p, hp⟩, _⟩ := hx
      rw [he] at hp
      exact absurd hp hx
    obtain ⟨c, r, B', G, num, _, _, e3⟩ := Made.sem h he
    have hne : (accepted hist).map wordE ≠ [] := by simpa using he
    refine card_le htr hused (fun x i => ∃ (o s : Nat) (g : Group) (q : Pair), (o, s) ∈ G ∧ IsStart c.groups s g ∧ DenG c.groups g x.1 ∧ q ∈ g ∧ q.1 = x.2 ∧ i = o ^^^ x.2.toNat) ?_ ?_
    · rintro ⟨L, l⟩ ⟨hL, ⟨p, hp⟩, e, hel, hl⟩
      simp only at hL hp hel hl ⊢
      obtain ⟨o, g, hn⟩ := e3.root hne
      have hp' : L = residual ((accepted hist).map wordE) p := hp
      obtain ⟨v, o', s', g', _, hn'⟩ := followString_hit e3 (q := p) hn (hp' ▸ hL)
      rw [← hp'] at hn'
      obtain ⟨q, hq, hq'⟩ := hn'.den.heads hel
      have hql : q.1 = l := by
        rcases hq' with ⟨a1, a2⟩ | ⟨a1, k, a2⟩
        · rw [a2] at hl
          simp at hl
          rw [a1, hl]
        · rw [a2] at hl
          simp at hl
          exact hl.symm
      have hk : Kid c G (o' ^^^ q.1.toNat) (o', s') q := ⟨hn'.mem, by rw [show grp c (o', s').2 = g' from hn'.start.groupAt e3.ne]; exact hq, rfl⟩
      refine ⟨o' ^^^ l.toNat, ?_, o', s', g', q, hn'.mem, hn'.start, hn'.den, hq, hql, rfl⟩
      rw [hql] at hk
      have h0 := e3.u.nz hk
      refine ⟨h0, ?_⟩
      rcases (isKid_iff e3 hne).1 (fun hc => hc.2 ⟨_, _, hk⟩) with h5 | ⟨e', he', h5⟩
      · exact absurd h5 h0
      · obtain ⟨e'', he'', rfl⟩ := List.mem_map.1 he'
        exact ⟨e'', he'', h5⟩
    · rintro ⟨L, l⟩ ⟨L', l'⟩ i _ _ ⟨o, s, g, q, a1, a2, a3, a4, a5, a6⟩ ⟨o', s', g', q', c1, c2, c3, c4, c5, c6⟩
      simp only at a3 a5 a6 c3 c5 c6
      have k1 : Kid c G i (o, s) q := ⟨a1, by rw [show grp c (o, s).2 = g from a2.groupAt e3.ne]; exact a4, by rw [a5]; exact a6⟩
      have k2 : Kid c G i (o', s') q' := ⟨c1, by rw [show grp c (o', s').2 = g' from c2.groupAt e3.ne]; exact c4, by rw [c5]; exact c6⟩
      obtain ⟨h5, h6⟩ := e3.u.disj k1 k2
      cases h5
      have hg : g = g' := (a2.groupAt e3.ne).symm.trans (c2.groupAt e3.ne)
      subst hg
      rw [a3.det e3.ne c3, ← a5, ← c5, h6]
  · -- every unit in use belongs to an edge of the trie
    refine card_le hused hed (fun i x => (∃ n, D.followString x D.root = .ok (true, i, n) ∧ (0 : UInt8) ∉ x) ∨
      ∃ k u n w, x = k ++ [0] ∧ D.followString k D.root = .ok (true, u, n) ∧ D.units[u]? = some w ∧ i = u ^^^ dictOffset w) ?_ ?_
    · rintro i ⟨hi, e, he, ⟨p, n, hp, hf⟩ | ⟨u, n, w, hf, hw, hi'⟩⟩
      · refine ⟨p, ⟨fun hc => ?_, e, he, hp.trans (List.prefix_append _ _)⟩, .inl ⟨n, hf, fun hc => ?_⟩⟩
        · subst hc
          simp only [Dictionary.followString, Except.ok.injEq, Prod.mk.injEq] at hf
          exact hi hf.2.1.symm
        · exact absurd (hp.subset hc) (hadm.nulFree _ (mem_of_accepted he))
      · exact ⟨e.1 ++ [0], ⟨by simp, e, he, List.prefix_refl _⟩, .inr ⟨_, _, _, _, rfl, hf, hw, hi'⟩⟩
    · rintro i i' x _ _ (⟨n, a1, a2⟩ | ⟨k, u, n, w, a1, a2, a3, a4⟩) (⟨n', c1, c2⟩ | ⟨k', u', n', w', c1, c2, c3, c4⟩)
      · rw [a1] at c1
        simp only [Except.ok.injEq, Prod.mk.injEq] at c1
        exact c1.2.1
      · exact absurd (by rw [c1]; simp) a2
      · exact absurd (by rw [a1]; simp) c2
      · have : k = k' := List.append_cancel_right (a1.symm.trans c1)
        subst this
        rw [a2] at c2
        simp only [Except.ok.injEq, Prod.mk.injEq] at c2
        obtain ⟨_, rfl, _⟩ := c2
        rw [a3] at c3
        cases c3
        rw [a4, c4]
  · -- the root is in use too
    have hlt : ((List.range D.size).filter (fun i => decide (S i))).length < (List.range D.size).length := by
      refine List.length_filter_lt_length_iff_exists.2 ⟨0, List.mem_range.2 (by omega), ?_⟩
      simp [S, hroot]
    simpa using hlt

/-- The dictionary of `Witness.histA` has 256 units, and at most as many in use as its trie has edges. -/
example : ∃ (used edges : Nat), HasCard (fun i => i ≠ Witness.dictA.root ∧ ∃ e ∈ accepted Witness.histA, PartOf Witness.dictA e.1 i) used ∧
    HasCard (TrieEdge (accepted Witness.histA)) edges ∧ used ≤ edges ∧ Witness.dictA.size = 256 :=
  let ⟨_, h⟩ := sampleMade
  let ⟨_, used, edges, _, h1, h2, _, h3, _⟩ := C79_size h
  ⟨used, edges, h1, h2, h3, by decide +kernel⟩

end Dawg.Props
