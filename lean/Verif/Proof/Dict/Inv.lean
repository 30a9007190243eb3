import Verif.Proof.Dict.Offset
import Verif.Proof.Builder.Count
/-! # The invariant of the units -/
namespace Dawg.Dict
attribute [-simp] List.length_flatten
open Dawg.Abs

/-- The group that starts at `s`. -/
abbrev grp (c : Core) (s : Nat) : Group := groupAt 1 c.groups s

/-- Unit `u` holds transition `q` of the group `x.2` that is arranged at offset `x.1`. -/
def Kid (c : Core) (G : List (Nat × Nat)) (u : Nat) (x : Nat × Nat) (q : Pair) : Prop :=
  x ∈ G ∧ q ∈ grp c x.2 ∧ u = x.1 ^^^ q.1.toNat

def IsKid (c : Core) (G : List (Nat × Nat)) (u : Nat) : Prop := ∃ x q, Kid c G u x q

/-- Does the state have a value? -/
def hasEmpty (c : Core) (s : Nat) : Bool := (grp c s).any (fun q => q.1 == 0)

/-- Unit `u` has label `l` and points to an arrangement of state `s`. -/
def Arr (c : Core) (G : List (Nat × Nat)) (units : List Nat) (u : Nat) (l : UInt8) (s : Nat) : Prop :=
  ∃ o, (o, s) ∈ G ∧ Enc (u ^^^ o) ∧ units[u]? = some (nodeWord l (hasEmpty c s) (u ^^^ o))

/-- A unit that is neither the root nor holds a transition. -/
def Unplaced (c : Core) (G : List (Nat × Nat)) (u : Nat) : Prop := u ≠ 0 ∧ ¬ IsKid c G u

open Classical in
/-- The number of unplaced units below `F`. -/
noncomputable def unplacedBelow (c : Core) (G : List (Nat × Nat)) (F : Nat) : Nat := (List.range F).countP (fun u => decide (Unplaced c G u))

structure UInv (c : Core) (r : Nat) (units : List Nat) (B F : Nat) (G : List (Nat × Nat)) (pend : Nat → Option Nat) (num : Nat) : Prop where
  len : units.length = 256 * B
  offs : ∀ x ∈ G, x.1 ≠ 0 ∧ x.1 < 256 * B ∧ ∃ g, IsStart c.groups x.2 g
  nodup : (G.map Prod.fst).Nodup
  disj : ∀ {u x q x' q'}, Kid c G u x q → Kid c G u x' q' → x = x' ∧ q = q'
  nz : ∀ {u x q}, Kid c G u x q → u ≠ 0
  leaf : ∀ {u x q}, Kid c G u x q → q.1 = 0 → pend u = none ∧ units[u]? = some (leafWord (baseValue q.2))
  node : ∀ {u x q}, Kid c G u x q → q.1 ≠ 0 →
    (∃ w, pend u = some w ∧ units[u]? = some w) ∨ (pend u = none ∧ Arr c G units u q.1 (baseChild q.2))
  root : (∃ w, pend 0 = some w ∧ units[0]? = some w) ∨ (pend 0 = none ∧ Arr c G units 0 0 r)
  pendDom : ∀ {u}, pend u ≠ none → u = 0 ∨ IsKid c G u
  free : ∀ {u}, F ≤ u → u < 256 * B → Unplaced c G u → units[u]? = some 0
  dead : ∀ {u}, u < F → Unplaced c G u → ∃ un, un / 256 = u / 256 ∧ un ≠ 0 ∧ (∀ x ∈ G, x.1 ≠ un) ∧ units[u]? = some ((u ^^^ un) % 256)
  num : num = unplacedBelow c G F
  bound : F ≤ 256 * B
  mult : F % 256 = 0
  parents : ∀ {pre o s post}, G = pre ++ (o, s) :: post →
    (∃ u x q, Kid c post u x q ∧ q.1 ≠ 0 ∧ baseChild q.2 = s ∧ pend u = none ∧ Enc (u ^^^ o) ∧ units[u]? = some (nodeWord q.1 (hasEmpty c s) (u ^^^ o))) ∨
    (s = r ∧ pend 0 = none ∧ Enc o ∧ units[0]? = some (nodeWord 0 (hasEmpty c s) o))

theorem Kid.mono {c G u x q} (h : Kid c G u x q) {H : List (Nat × Nat)} (hs : ∀ y ∈ G, y ∈ H) : Kid c H u x q := ⟨hs _ h.1, h.2.1, h.2.2⟩

theorem UInv.kid_lt {c r units B F G pend num} (h : UInv c r units B F G pend num) {u x q} (hk : Kid c G u x q) : u < 256 * B := by
  obtain ⟨h1, h2, h3⟩ := hk
  rw [h3]; exact (xor_lt_of_block (label_lt _)).2 (h.offs _ h1).2.1

theorem Kid.div {c G u x q} (h : Kid c G u x q) : u / 256 = x.1 / 256 := by
  obtain ⟨_, _, h3⟩ := h
  rw [h3, xor_div _ _ (label_lt _)]

/-- A pending unit: the root, or a transition that is not a leaf. -/
def PendAt (c : Core) (r : Nat) (G : List (Nat × Nat)) (u : Nat) (l : UInt8) (s : Nat) : Prop :=
  (u = 0 ∧ l = 0 ∧ s = r) ∨ (∃ x q, Kid c G u x q ∧ q.1 = l ∧ l ≠ 0 ∧ baseChild q.2 = s)

theorem PendAt.placed {c r G u l s} (h : PendAt c r G u l s) : u = 0 ∨ IsKid c G u := by
  rcases h with ⟨h, _⟩ | ⟨x, q, h, _⟩
  · exact .inl h
  · exact .inr ⟨x, q, h⟩

theorem PendAt.not_unplaced {c r G u l s} (h : PendAt c r G u l s) : ¬ Unplaced c G u := by
  rintro ⟨h1, h2⟩
  rcases h.placed with h3 | h3
  · exact h1 h3
  · exact h2 h3

/-- Any change of a pending unit that keeps it pending, or makes it point to an arranged state. -/
theorem UInv.set {c r units B F G pend num} (h : UInv c r units B F G pend num) {u : Nat} {w w' : Nat} (hp : pend u = some w)
    {units' : List Nat} {pend' : Nat → Option Nat} (hu : units'[u]? = some w') (huo : ∀ j, j ≠ u → units'[j]? = units[j]?) (hlen : units'.length = units.length)
    (hpo : ∀ j, j ≠ u → pend' j = pend j)
    (hpu : pend' u = some w' ∨ (pend' u = none ∧ ∃ l s o, PendAt c r G u l s ∧ (o, s) ∈ G ∧ Enc (u ^^^ o) ∧ w' = nodeWord l (hasEmpty c s) (u ^^^ o))) :
    UInv c r units' B F G pend' num := by
  have hdom := h.pendDom (u := u) (by rw [hp]; simp)
  have hnu : ¬ Unplaced c G u := by
    rintro ⟨h1, h2⟩
    rcases hdom with h3 | h3
    · exact h1 h3
    · exact h2 h3
  have hne : ∀ j, pend j = none → j ≠ u := by rintro j hj rfl; rw [hp] at hj; cases hj
  refine ⟨by rw [hlen, h.len], h.offs, h.nodup, h.disj, h.nz, ?_, ?_, ?_, ?_, ?_, ?_, h.num, h.bound, h.mult, ?_⟩
  · intro v x q hk h0
    obtain ⟨h1, h2⟩ := h.leaf hk h0
    have := hne v h1
    exact ⟨by rw [hpo v this, h1], by rw [huo v this, h2]⟩
  · intro v x q hk h0
    by_cases hv : v = u
    · subst hv
      rcases hpu with h1 | ⟨h1, l, s, o, h2, h3, h4, h5⟩
      · exact .inl ⟨w', h1, hu⟩
      · right
        refine ⟨h1, o, ?_⟩
        rcases h2 with ⟨h2, _⟩ | ⟨x', q', h2, h6, h7, h8⟩
        · exact absurd h2 (h.nz hk)
        · obtain ⟨rfl, rfl⟩ := h.disj hk h2
          subst h6 h8
          exact ⟨h3, h4, by rw [hu, h5]⟩
    · rcases h.node hk h0 with ⟨w, h1, h2⟩ | ⟨h1, o, h2, h3, h4⟩
      · exact .inl ⟨w, by rw [hpo v hv, h1], by rw [huo v hv, h2]⟩
      · exact .inr ⟨by rw [hpo v hv, h1], o, h2, h3, by rw [huo v hv, h4]⟩
  · by_cases hv : 0 = u
    · subst hv
      rcases hpu with h1 | ⟨h1, l, s, o, h2, h3, h4, h5⟩
      · exact .inl ⟨w', h1, hu⟩
      · right
        refine ⟨h1, o, ?_⟩
        rcases h2 with ⟨_, h6, h7⟩ | ⟨x', q', h2, _⟩
        · subst h6 h7
          exact ⟨h3, h4, by rw [hu, h5]⟩
        · exact absurd rfl (h.nz h2)
    · rcases h.root with ⟨w, h1, h2⟩ | ⟨h1, o, h2, h3, h4⟩
      · exact .inl ⟨w, by rw [hpo 0 hv, h1], by rw [huo 0 hv, h2]⟩
      · exact .inr ⟨by rw [hpo 0 hv, h1], o, h2, h3, by rw [huo 0 hv, h4]⟩
  · intro v hv
    by_cases hvu : v = u
    · subst hvu; exact hdom
    · rw [hpo v hvu] at hv; exact h.pendDom hv
  · intro v h1 h2 h3
    have : v ≠ u := by rintro rfl; exact hnu h3
    rw [huo v this]; exact h.free h1 h2 h3
  · intro v h1 h2
    have : v ≠ u := by rintro rfl; exact hnu h2
    rw [huo v this]; exact h.dead h1 h2
  · intro pre o s post he
    rcases h.parents he with ⟨v, x, q, h1, h2, h3, h4, h5, h6⟩ | ⟨h1, h2, h3, h4⟩
    · have := hne v h4
      exact .inl ⟨v, x, q, h1, h2, h3, by rw [hpo v this, h4], h5, by rw [huo v this, h6]⟩
    · have := hne 0 h2
      exact .inr ⟨h1, by rw [hpo 0 this, h2], h3, by rw [huo 0 this, h4]⟩

/-- The unit at `j` is untouched if it is placed. -/
theorem UInv.transfer {c r units B F G pend num units' B' F' num'} (h : UInv c r units B F G pend num) (hB : B ≤ B')
    (hlen : units'.length = 256 * B') (hplaced : ∀ j, j < 256 * B → ¬ Unplaced c G j → units'[j]? = units[j]?)
    (hfree : ∀ {u}, F' ≤ u → u < 256 * B' → Unplaced c G u → units'[u]? = some 0)
    (hdead : ∀ {u}, u < F' → Unplaced c G u → ∃ un, un / 256 = u / 256 ∧ un ≠ 0 ∧ (∀ x ∈ G, x.1 ≠ un) ∧ units'[u]? = some ((u ^^^ un) % 256))
    (hnum : num' = unplacedBelow c G F') (hF : F' ≤ 256 * B') (hm : F' % 256 = 0) (hpos : 0 < B) :
    UInv c r units' B' F' G pend num' := by
  have hk : ∀ {u x q}, Kid c G u x q → units'[u]? = units[u]? := by
    intro u x q hk
    exact hplaced u (h.kid_lt hk) (fun hu => hu.2 ⟨x, q, hk⟩)
  have h0 : units'[0]? = units[0]? := hplaced 0 (by omega) (fun hu => hu.1 rfl)
  refine ⟨hlen, ?_, h.nodup, h.disj, h.nz, ?_, ?_, ?_, h.pendDom, hfree, hdead, hnum, hF, hm, ?_⟩
  · intro x hx
    obtain ⟨a, b, c⟩ := h.offs x hx
    exact ⟨a, by omega, c⟩
  · intro u x q hku hq
    rw [hk hku]; exact h.leaf hku hq
  · intro u x q hku hq
    unfold Arr
    rw [hk hku]; exact h.node hku hq
  · unfold Arr
    rw [h0]; exact h.root
  · intro pre o s post he
    rcases h.parents he with ⟨v, x, q, h1, h2, h3, h4, h5, h6⟩ | h1
    · refine .inl ⟨v, x, q, h1, h2, h3, h4, h5, ?_⟩
      rw [hk (h1.mono (by intro y hy; rw [he]; simp [hy])), h6]
    · rw [h0]; exact .inr h1

/-! ## The window -/

/-- What the extra units say. -/
structure WInv (c : Core) (B F : Nat) (ex : Nat → ExtraUnit) (G : List (Nat × Nat)) : Prop where
  fixed : ∀ u, Win B u → ((ex u).isFixed = true ↔ u < F ∨ u = 0 ∨ IsKid c G u)
  used : ∀ o, Win B o → ((ex o).isUsed = true ↔ o = 0 ∨ ∃ s, (o, s) ∈ G)

theorem WInv.free_iff {c B F ex G} (h : WInv c B F ex G) {u : Nat} (hw : Win B u) : (ex u).isFixed = false ↔ F ≤ u ∧ Unplaced c G u := by
  have := h.fixed u hw
  unfold Unplaced
  cases hf : (ex u).isFixed
  · rw [hf] at this
    simp only [Bool.false_eq_true, false_iff, not_or] at this
    simp only [true_iff]
    exact ⟨by omega, this.2⟩
  · rw [hf] at this
    simp only [true_iff] at this
    simp only [Bool.true_eq_false, false_iff, not_and]
    rintro h1 h2 h4
    rcases this with h3 | h3 | h3
    · omega
    · exact h2 h3
    · exact h4 h3

/-- A block with a free unit has an unused offset. -/
theorem unused_exists {c r units B F G pend num ex} (hu : UInv c r units B F G pend num) (hw : WInv c B F ex G) (hne : ∀ g ∈ c.groups, g ≠ [])
    {b u : Nat} (hb1 : b < B) (hb2 : B ≤ b + 16) (hub : u / 256 = b) (hun : Unplaced c G u) : ∃ j, j / 256 = b ∧ (ex j).isUsed = false := by
  refine Classical.byContradiction fun hcon => ?_
  have hall : ∀ j, j / 256 = b → j = 0 ∨ ∃ s, (j, s) ∈ G := by
    intro j hj
    apply (hw.used j ⟨by omega, by omega⟩).1
    cases hf : (ex j).isUsed
    · exact absurd ⟨j, hj, hf⟩ hcon
    · rfl
  have hkid : ∀ j, j / 256 = b → ∃ v, v / 256 = b ∧ v ≠ u ∧ ((j = 0 ∧ v = 0) ∨ (j ≠ 0 ∧ ∃ s q, Kid c G v (j, s) q)) := by
    intro j hj
    by_cases hj0 : j = 0
    · exact ⟨0, by omega, fun h => hun.1 h.symm, .inl ⟨hj0, rfl⟩⟩
    · rcases hall j hj with h | ⟨s, hs⟩
      · exact absurd h hj0
      · obtain ⟨_, _, g, hg⟩ := hu.offs _ hs
        have hgrp : grp c s = g := hg.groupAt hne
        obtain ⟨q, hq⟩ := List.exists_mem_of_ne_nil _ (hne g hg.mem)
        have hk : Kid c G (j ^^^ q.1.toNat) (j, s) q := ⟨hs, by rw [hgrp]; exact hq, rfl⟩
        refine ⟨j ^^^ q.1.toNat, by rw [xor_div _ _ (label_lt _)]; exact hj, ?_, .inr ⟨hj0, s, q, hk⟩⟩
        rintro rfl
        exact hun.2 ⟨_, _, hk⟩
  have hsk : ∀ j, ∃ v, j / 256 = b → v / 256 = b ∧ v ≠ u ∧ ((j = 0 ∧ v = 0) ∨ (j ≠ 0 ∧ ∃ s q, Kid c G v (j, s) q)) := by
    intro j
    by_cases hj : j / 256 = b
    · obtain ⟨v, hv⟩ := hkid j hj; exact ⟨v, fun _ => hv⟩
    · exact ⟨0, fun h => absurd h hj⟩
  obtain ⟨f, hf⟩ := Classical.skolem.1 hsk
  have hf1 := fun j hj => (hf j hj).1
  have hf2 := fun j hj => (hf j hj).2.1
  have hf3 := fun j hj => (hf j hj).2.2
  have hinj : ∀ j j', j / 256 = b → j' / 256 = b → f j = f j' → j = j' := by
    intro j j' hj hj' he
    rcases hf3 j hj with ⟨h1, h2⟩ | ⟨h1, s, q, h2⟩ <;> rcases hf3 j' hj' with ⟨h1', h2'⟩ | ⟨h1', s', q', h2'⟩
    · rw [h1, h1']
    · exact absurd (he ▸ h2) (hu.nz h2')
    · exact absurd (he ▸ h2') (hu.nz h2)
    · rw [← he] at h2'
      have := (hu.disj h2 h2').1
      exact (Prod.mk.inj this).1
  have hnd : ((List.range' (256 * b) 256).map f).Nodup := by
    rw [List.nodup_iff_pairwise_ne, List.pairwise_map]
    apply List.Pairwise.imp_of_mem _ (List.nodup_iff_pairwise_ne.1 List.nodup_range')
    intro x y hx hy hxy he
    rw [List.mem_range'_1] at hx hy
    exact hxy (hinj x y (by omega) (by omega) he)
  have hsub : ((List.range' (256 * b) 256).map f) ⊆ (List.range' (256 * b) 256).erase u := by
    intro v hv
    obtain ⟨j, hj, rfl⟩ := List.mem_map.1 hv
    rw [List.mem_range'_1] at hj
    have := hf1 j (by omega)
    rw [List.mem_erase_of_ne (hf2 j (by omega)), List.mem_range'_1]; omega
  have := List.Nodup.length_le_of_subset hnd hsub
  rw [List.length_map, List.length_erase_of_mem (List.mem_range'_1.2 (by omega)), List.length_range'] at this
  omega

end Dawg.Dict
