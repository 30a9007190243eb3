import Verif.Proof.Dict.Step
/-! # Arranging the children of a state -/
namespace Dawg.Dict
attribute [-simp] List.length_flatten
open Dawg.Abs DictBuilder

theorem reserve_in {db : DictBuilder} {B : Nat} {i : Nat} (hB : B ≤ 2097152) (hl : db.units.length = 256 * B) (hi : i < 256 * B) :
    db.reserveUnit i = db.unlinkUnit i := by
  apply reserveUnit_of_lt
  unfold DictBuilder.numOfUnits
  rw [hl, u32_of_lt (by omega)]; exact hi

/-- Placing children whose units are free. -/
theorem placeKids_spec {d : Dawg} {c r s g} (hd : DawgIs d c r) (hs : IsStart c.groups s g) {B o u : Nat} (hB : B ≤ 2097152) (ho : Win B o)
    (hval : ∀ q ∈ g, q.1 = 0 → baseValue q.2 < 2147483648) (hasc : Asc g) :
    ∀ (n j : Nat) (db : DictBuilder) (ex : Nat → ExtraUnit) (w : Nat), j + n = g.length → EX db.units db.extras B ex → FL B ex db.unfixedIndex →
    db.units[u]? = some w → (∀ q ∈ g.drop j, Free B ex (o ^^^ q.1.toNat) ∧ db.units[o ^^^ q.1.toNat]? = some 0 ∧ o ^^^ q.1.toNat ≠ u) →
    ∃ us xs uf ex', placeKids d u o ((List.range' j n).map (s + ·)) db = .ok { db with units := us, extras := xs, unfixedIndex := uf } ∧
      EX us xs B ex' ∧ FL B ex' uf ∧
      (∀ i, (ex' i).isFixed = true ↔ ((ex i).isFixed = true ∨ ∃ q ∈ g.drop j, i = o ^^^ q.1.toNat)) ∧
      (∀ i, (ex' i).isUsed = (ex i).isUsed) ∧
      (∀ q ∈ g.drop j, us[o ^^^ q.1.toNat]? = some (kidWord q)) ∧
      us[u]? = some (if (g.drop j).any (fun q => q.1 == 0) then dictSetHasLeaf w else w) ∧
      (∀ i, i ≠ u → (∀ q ∈ g.drop j, i ≠ o ^^^ q.1.toNat) → us[i]? = db.units[i]?)
  | 0, j, db, ex, w, hj, hex, hfl, hw, _ => by
    have h0 : g.drop j = [] := List.drop_eq_nil_of_le (by omega)
    refine ⟨_, _, _, ex, rfl, hex, hfl, ?_, fun _ => rfl, ?_, ?_, fun _ _ _ => rfl⟩
    · intro i; simp [h0]
    · simp [h0]
    · simpa [h0] using hw
  | n + 1, j, db, ex, w, hj, hex, hfl, hw, hfree => by
    have hjl : j < g.length := by omega
    have hget : g[j]? = some g[j] := by simp [hjl]
    have hdrop : g.drop j = g[j] :: g.drop (j + 1) := List.drop_eq_getElem_cons hjl
    generalize hq : g[j] = q at *
    have hqg : q ∈ g := by rw [← hq]; exact List.getElem_mem hjl
    obtain ⟨f1, f2, f3⟩ := hfree q (by rw [hdrop]; simp)
    -- labels of the other children differ
    have hlab : ∀ q' ∈ g.drop (j + 1), o ^^^ q'.1.toNat ≠ o ^^^ q.1.toNat := by
      intro q' hq' he
      have ha : Asc (g.drop j) := hasc.drop
      rw [hdrop] at ha
      have hlt := (List.pairwise_cons.1 ha).1 q' hq'
      have := xor_left_cancel he
      have : q'.1 = q.1 := UInt8.toNat_inj.1 this
      rw [this] at hlt
      exact absurd hlt (UInt8.lt_irrefl _)
    obtain ⟨xs1, uf1, ex1, e1, E1, F1, a1, a2⟩ := unlink_spec hex hfl hB f1
    have hres : db.reserveUnit (o ^^^ q.1.toNat) = .ok { db with extras := xs1, unfixedIndex := uf1 } := by
      rw [reserve_in hB hex.units f1.1.1, e1]
    rw [List.range'_succ, List.map_cons, placeKids, hd.label_at hs hget]
    simp only [ok_bind, hres, hd.isLeaf_at hs hget, hd.value_at hs hget]
    -- the state in which the others are placed
    obtain ⟨us2, hstep, g1, g2, g3, g4⟩ : ∃ us2,
        (∀ k : DictBuilder → Go DictBuilder, (if (q.1 == 0) = true then (do
            let db1 ← ({ db with extras := xs1, unfixedIndex := uf1 } : DictBuilder).modUnit u dictSetHasLeaf
            let db1 ← db1.modUnit (o ^^^ q.1.toNat) (fun _ => dictSetValue (baseValue q.2))
            k db1) else (do
            let db1 ← ({ db with extras := xs1, unfixedIndex := uf1 } : DictBuilder).modUnit (o ^^^ q.1.toNat) (fun u => dictSetLabel u q.1)
            k db1)) = k { db with units := us2, extras := xs1, unfixedIndex := uf1 }) ∧
        us2.length = db.units.length ∧ us2[o ^^^ q.1.toNat]? = some (kidWord q) ∧
        us2[u]? = some (if q.1 == 0 then dictSetHasLeaf w else w) ∧
        (∀ i, i ≠ u → i ≠ o ^^^ q.1.toNat → us2[i]? = db.units[i]?) := by
      have hil : o ^^^ q.1.toNat < db.units.length := (List.getElem?_eq_some_iff.1 f2).1
      have hul : u < db.units.length := (List.getElem?_eq_some_iff.1 hw).1
      by_cases h0 : q.1 = 0
      · refine ⟨(db.units.set u (dictSetHasLeaf w)).set (o ^^^ q.1.toNat) (dictSetValue (baseValue q.2)), ?_, by simp, ?_, ?_, ?_⟩
        · intro k
          rw [if_pos (by simp [h0]), modUnit_ok (db := { db with extras := xs1, unfixedIndex := uf1 }) hw]
          simp only [ok_bind]
          rw [modUnit_ok (w := 0)]
          · rfl
          · simp only []; rw [List.getElem?_set, if_neg (fun h => f3 h.symm)]; exact f2
        · rw [List.getElem?_set, if_pos rfl, if_pos (by simpa using hil)]
          rw [setValue_eq (hval q hqg h0), kidWord, if_pos h0]
        · rw [List.getElem?_set, if_neg f3, List.getElem?_set, if_pos rfl, if_pos hul, if_pos (by simp [h0])]
        · intro i hi1 hi2
          rw [List.getElem?_set, if_neg (fun h => hi2 h.symm), List.getElem?_set, if_neg (fun h => hi1 h.symm)]
      · refine ⟨db.units.set (o ^^^ q.1.toNat) (dictSetLabel 0 q.1), ?_, by simp, ?_, ?_, ?_⟩
        · intro k
          rw [if_neg (by simp [h0]), modUnit_ok (db := { db with extras := xs1, unfixedIndex := uf1 }) f2]
          rfl
        · rw [List.getElem?_set, if_pos rfl, if_pos hil, setLabel_zero, kidWord, if_neg h0]
        · rw [List.getElem?_set, if_neg f3, hw, if_neg (by simp [h0])]
        · intro i hi1 hi2
          rw [List.getElem?_set, if_neg (fun h => hi2 h.symm)]
    rw [hstep]
    obtain ⟨us, xs, uf, ex', b1, b2, b3, b4, b5, b6, b7, b8⟩ := placeKids_spec hd hs hB ho hval hasc n (j + 1)
      { db with units := us2, extras := xs1, unfixedIndex := uf1 } ex1 _ (by omega) ⟨by rw [g1]; exact E1.units, E1.len, E1.get⟩ F1 g3
      (by
        intro q' hq'
        obtain ⟨k1, k2, k3⟩ := hfree q' (by rw [hdrop]; exact List.mem_cons_of_mem _ hq')
        have hne := hlab q' hq'
        refine ⟨⟨k1.1, ?_⟩, ?_, k3⟩
        · rw [a1, k1.2, decide_eq_false hne]; rfl
        · simp only []; rw [g4 _ k3 hne, k2])
    refine ⟨us, xs, uf, ex', b1, b2, b3, ?_, ?_, ?_, ?_, ?_⟩
    · intro i
      rw [b4, a1, hdrop]
      simp only [Bool.or_eq_true, decide_eq_true_eq, List.mem_cons]
      constructor
      · rintro ((h | h) | ⟨q', h, h'⟩)
        · exact .inl h
        · exact .inr ⟨q, .inl rfl, h⟩
        · exact .inr ⟨q', .inr h, h'⟩
      · rintro (h | ⟨q', rfl | h, h'⟩)
        · exact .inl (.inl h)
        · exact .inl (.inr h')
        · exact .inr ⟨q', h, h'⟩
    · intro i; rw [b5, a2]
    · intro q' hq'
      rw [hdrop] at hq'
      rcases List.mem_cons.1 hq' with rfl | h
      · rw [b8 _ f3 (fun q'' h'' => (hlab q'' h'').symm)]; exact g2
      · exact b6 q' h
    · rw [b7, hdrop, List.any_cons]
      congr 1
      cases (q.1 == 0) <;> cases ((g.drop (j + 1)).any (fun q => q.1 == 0)) <;> simp [dictSetHasLeaf, Nat.or_assoc]
    · intro i h1 h2
      rw [hdrop] at h2
      rw [b8 i h1 (fun q' h => h2 q' (List.mem_cons_of_mem _ h))]
      exact g4 i h1 (h2 q List.mem_cons_self)

/-- The new arrangement in the invariant. -/
theorem UInv.place {c r units B F G pend num} (h : UInv c r units B F G pend num) {u o s : Nat} {l : UInt8} {g : Group}
    (hg : IsStart c.groups s g) (hne : ∀ g ∈ c.groups, g ≠ []) (hp : PendAt c r G u l s) (hpw : pend u ≠ none)
    (ho : o ≠ 0) (hoF : F / 256 ≤ o / 256) (hoB : o < 256 * B) (hoG : ∀ x ∈ G, x.1 ≠ o) (hasc : Asc g)
    (hkids : ∀ q ∈ g, Unplaced c G (o ^^^ q.1.toNat)) (henc : Enc (u ^^^ o))
    {units' : List Nat} {pend' : Nat → Option Nat} (hlen : units'.length = units.length)
    (hu : units'[u]? = some (nodeWord l (hasEmpty c s) (u ^^^ o))) (hk : ∀ q ∈ g, units'[o ^^^ q.1.toNat]? = some (kidWord q))
    (huo : ∀ i, i ≠ u → (∀ q ∈ g, i ≠ o ^^^ q.1.toNat) → units'[i]? = units[i]?)
    (hpu : pend' u = none) (hpk : ∀ q ∈ g, pend' (o ^^^ q.1.toNat) = if q.1 = 0 then none else some q.1.toNat)
    (hpo : ∀ i, i ≠ u → (∀ q ∈ g, i ≠ o ^^^ q.1.toNat) → pend' i = pend i) :
    UInv c r units' B F ((o, s) :: G) pend' num := by
  have hgrp : grp c s = g := hg.groupAt hne
  have hm := h.mult
  have hkid : ∀ {v x q}, Kid c ((o, s) :: G) v x q ↔ (x = (o, s) ∧ q ∈ g ∧ v = o ^^^ q.1.toNat) ∨ Kid c G v x q := by
    intro v x q
    unfold Kid
    rw [List.mem_cons]
    constructor
    · rintro ⟨rfl | h1, h2, h3⟩
      · exact .inl ⟨rfl, by rw [← hgrp]; exact h2, h3⟩
      · exact .inr ⟨h1, h2, h3⟩
    · rintro (⟨rfl, h2, h3⟩ | ⟨h1, h2, h3⟩)
      · exact ⟨.inl rfl, by rw [hgrp]; exact h2, h3⟩
      · exact ⟨.inr h1, h2, h3⟩
  have hiskid : ∀ v, IsKid c ((o, s) :: G) v ↔ (∃ q ∈ g, v = o ^^^ q.1.toNat) ∨ IsKid c G v := by
    intro v
    unfold IsKid
    simp only [hkid]
    constructor
    · rintro ⟨x, q, ⟨_, h1, h2⟩ | h1⟩
      · exact .inl ⟨q, h1, h2⟩
      · exact .inr ⟨x, q, h1⟩
    · rintro (⟨q, h1, h2⟩ | ⟨x, q, h1⟩)
      · exact ⟨(o, s), q, .inl ⟨rfl, h1, h2⟩⟩
      · exact ⟨x, q, .inr h1⟩
  have hunp : ∀ v, Unplaced c ((o, s) :: G) v → Unplaced c G v ∧ (∀ q ∈ g, v ≠ o ^^^ q.1.toNat) ∧ v ≠ u := by
    rintro v ⟨h1, h2⟩
    rw [hiskid] at h2
    have h3 : Unplaced c G v := ⟨h1, fun h => h2 (.inr h)⟩
    refine ⟨h3, fun q hq he => h2 (.inl ⟨q, hq, he⟩), ?_⟩
    rintro rfl
    exact hp.not_unplaced h3
  -- kids of the old entries are not new units
  have hold : ∀ {v x q}, Kid c G v x q → ∀ q' ∈ g, v ≠ o ^^^ q'.1.toNat := by
    rintro v x q hk q' hq' rfl
    exact (hkids q' hq').2 ⟨x, q, hk⟩
  have h0n : ∀ q' ∈ g, (0 : Nat) ≠ o ^^^ q'.1.toNat := fun q' hq' he => (hkids q' hq').1 he.symm
  have hun : ∀ q' ∈ g, o ^^^ q'.1.toNat ≠ u := by
    rintro q' hq' rfl
    exact hp.not_unplaced (hkids q' hq')
  have hinjg : ∀ {q q'}, q ∈ g → q' ∈ g → o ^^^ q.1.toNat = o ^^^ q'.1.toNat → q = q' := by
    intro q q' hq hq' he
    have hl : q.1 = q'.1 := UInt8.toNat_inj.1 (xor_left_cancel he)
    refine Classical.byContradiction fun hne => ?_
    obtain ⟨i, hi, rfl⟩ := List.mem_iff_getElem.1 hq
    obtain ⟨j, hj, rfl⟩ := List.mem_iff_getElem.1 hq'
    rcases Nat.lt_trichotomy i j with h | h | h
    · have := List.pairwise_iff_getElem.1 hasc i j hi hj h
      rw [hl] at this; exact absurd this (UInt8.lt_irrefl _)
    · subst h; exact hne rfl
    · have := List.pairwise_iff_getElem.1 hasc j i hj hi h
      rw [hl] at this; exact absurd this (UInt8.lt_irrefl _)
  have hpne : ∀ v, pend v = none → v ≠ u := by rintro v hv rfl; exact hpw hv
  refine ⟨by rw [hlen, h.len], ?_, ?_, ?_, ?_, ?_, ?_, ?_, ?_, ?_, ?_, ?_, h.bound, h.mult, ?_⟩
  · intro x hx
    rcases List.mem_cons.1 hx with rfl | hx
    · exact ⟨ho, hoB, g, hg⟩
    · exact h.offs x hx
  · rw [List.map_cons, List.nodup_cons]
    refine ⟨?_, h.nodup⟩
    intro hmem
    obtain ⟨x, hx, he⟩ := List.mem_map.1 hmem
    exact hoG x hx he
  · intro v x q x' q' h1 h2
    rcases hkid.1 h1 with ⟨rfl, a1, rfl⟩ | a1 <;> rcases hkid.1 h2 with ⟨rfl, b1, b2⟩ | b1
    · exact ⟨rfl, hinjg a1 b1 b2⟩
    · exact absurd rfl (hold b1 q a1)
    · exact absurd b2 (hold a1 q' b1)
    · exact h.disj a1 b1
  · intro v x q h1
    rcases hkid.1 h1 with ⟨rfl, a1, rfl⟩ | a1
    · exact (hkids q a1).1
    · exact h.nz a1
  · intro v x q h1 h2
    rcases hkid.1 h1 with ⟨rfl, a1, rfl⟩ | a1
    · exact ⟨by rw [hpk q a1, if_pos h2], by rw [hk q a1, kidWord, if_pos h2]⟩
    · obtain ⟨b1, b2⟩ := h.leaf a1 h2
      exact ⟨by rw [hpo v (hpne v b1) (hold a1), b1], by rw [huo v (hpne v b1) (hold a1), b2]⟩
  · intro v x q h1 h2
    rcases hkid.1 h1 with ⟨rfl, a1, rfl⟩ | a1
    · exact .inl ⟨q.1.toNat, by rw [hpk q a1, if_neg h2], by rw [hk q a1, kidWord, if_neg h2]⟩
    · by_cases hv : v = u
      · right
        subst hv
        rcases hp with ⟨h3, _⟩ | ⟨x', q', h3, h4, h5, h6⟩
        · exact absurd h3 (h.nz a1)
        · obtain ⟨rfl, rfl⟩ := h.disj a1 h3
          subst h4 h6
          exact ⟨hpu, o, by simp, henc, hu⟩
      · rcases h.node a1 h2 with ⟨w, b1, b2⟩ | ⟨b1, o', b2, b3, b4⟩
        · exact .inl ⟨w, by rw [hpo v hv (hold a1), b1], by rw [huo v hv (hold a1), b2]⟩
        · exact .inr ⟨by rw [hpo v hv (hold a1), b1], o', List.mem_cons_of_mem _ b2, b3, by rw [huo v hv (hold a1), b4]⟩
  · by_cases hv : 0 = u
    · right
      subst hv
      rcases hp with ⟨_, h3, h4⟩ | ⟨x', q', h3, _⟩
      · subst h3 h4
        exact ⟨hpu, o, by simp, henc, hu⟩
      · exact absurd rfl (h.nz h3)
    · rcases h.root with ⟨w, b1, b2⟩ | ⟨b1, o', b2, b3, b4⟩
      · exact .inl ⟨w, by rw [hpo 0 hv h0n, b1], by rw [huo 0 hv h0n, b2]⟩
      · exact .inr ⟨by rw [hpo 0 hv h0n, b1], o', List.mem_cons_of_mem _ b2, b3, by rw [huo 0 hv h0n, b4]⟩
  · intro v hv
    by_cases hvk : ∃ q ∈ g, v = o ^^^ q.1.toNat
    · exact .inr ((hiskid v).2 (.inl hvk))
    · by_cases hvu : v = u
      · subst hvu; exact absurd hpu hv
      · rw [hpo v hvu (fun q hq he => hvk ⟨q, hq, he⟩)] at hv
        rcases h.pendDom hv with h1 | h1
        · exact .inl h1
        · exact .inr ((hiskid v).2 (.inr h1))
  · intro v h1 h2 h3
    obtain ⟨a1, a2, a3⟩ := hunp v h3
    rw [huo v a3 a2]; exact h.free h1 h2 a1
  · intro v h1 h2
    obtain ⟨a1, a2, a3⟩ := hunp v h2
    rw [huo v a3 a2]
    obtain ⟨un, b1, b2, b3, b4⟩ := h.dead h1 a1
    refine ⟨un, b1, b2, ?_, b4⟩
    intro x hx
    rcases List.mem_cons.1 hx with rfl | hx
    · simp only []; omega
    · exact b3 x hx
  · rw [h.num]
    unfold unplacedBelow
    apply List.countP_congr
    intro v hv
    rw [List.mem_range] at hv
    simp only [decide_eq_true_eq]
    constructor
    · rintro ⟨h1, h2⟩
      refine ⟨h1, ?_⟩
      rw [hiskid]
      rintro (⟨q, hq, he⟩ | h3)
      · have := xor_div o q.1.toNat (label_lt _)
        rw [← he] at this; omega
      · exact h2 h3
    · intro h1; exact (hunp v h1).1
  · intro pre o' s' post he
    cases pre with
    | nil =>
      simp only [List.nil_append, List.cons.injEq, Prod.mk.injEq] at he
      obtain ⟨⟨rfl, rfl⟩, rfl⟩ := he
      rcases hp with ⟨h2, h3, h4⟩ | ⟨x, q, h2, h3, h4, h5⟩
      · right
        subst h2 h3
        rw [Nat.zero_xor] at henc hu
        exact ⟨h4, hpu, henc, hu⟩
      · left
        subst h3
        exact ⟨u, x, q, h2, h4, h5, hpu, henc, hu⟩
    | cons y pre =>
      simp only [List.cons_append, List.cons.injEq] at he
      obtain ⟨rfl, he⟩ := he
      rcases h.parents he with ⟨v, x, q, h1, h2, h3, h4, h5, h6⟩ | ⟨h1, h2, h3, h4⟩
      · have hko := hold (h1.mono (H := G) (by intro y hy; rw [he]; simp [hy]))
        exact .inl ⟨v, x, q, h1, h2, h3, by rw [hpo v (hpne v h4) hko, h4], h5, by rw [huo v (hpne v h4) hko, h6]⟩
      · exact .inr ⟨h1, by rw [hpo 0 (hpne 0 h2) h0n, h2], h3, by rw [huo 0 (hpne 0 h2) h0n, h4]⟩

end Dawg.Dict
