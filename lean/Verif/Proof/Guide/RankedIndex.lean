import Verif.Proof.Guide.RankedOrder
import Verif.Proof.Guide.Index
/-! # When a ranked guide serves as an index guide -/
namespace Dawg.Guided
attribute [-simp] List.length_flatten
open Dawg.Abs Dawg.Spec Dawg.Dict

/-- The default comparator. -/
abbrev ltCmp : Int → Int → Bool := fun lhs rhs => decide (lhs < rhs)

theorem upto_lt {a b : Int} : Upto ltCmp a b ↔ a ≤ b := by
  unfold Upto ltCmp
  simp only [decide_eq_true_eq]; omega

/-- A key that is a proper prefix of another one has a smaller value. -/
def PrefixLess (L : Lang) : Prop := ∀ e ∈ L, ∀ f ∈ L, e.1 ≠ f.1 → e.1 <+: f.1 → e.2 < f.2

/-- Of two keys of which none is a prefix of the other, the value of the smaller one is not less. -/
def Falling (L : Lang) : Prop := ∀ e ∈ L, ∀ f ∈ L, e.1 < f.1 → ¬ e.1 <+: f.1 → f.2 ≤ e.2

theorem PrefixLess.residual {L : Lang} (h : PrefixLess L) (l : UInt8) : PrefixLess (residual L [l]) := by
  intro e he f hf hne hpre
  rw [mem_residual] at he hf
  have h1 := h ([l] ++ e.1, e.2) he ([l] ++ f.1, f.2) hf (by simpa using hne) (by simpa using hpre)
  exact h1

theorem Falling.residual {L : Lang} (h : Falling L) (l : UInt8) : Falling (residual L [l]) := by
  intro e he f hf hlt hpre
  rw [mem_residual] at he hf
  have h1 := h ([l] ++ e.1, e.2) he ([l] ++ f.1, f.2) hf (by simpa using hlt) (by simpa using hpre)
  exact h1

theorem Reach.prefixLess {kid : Nat → UInt8 → Nat} {acc : Lang} (h : PrefixLess acc) {u L} (hr : Reach kid acc u L) : PrefixLess L := by
  induction hr with
  | root => exact h
  | step _ _ ih => exact ih.residual _

theorem Reach.falling {kid : Nat → UInt8 → Nat} {acc : Lang} (h : Falling acc) {u L} (hr : Reach kid acc u L) : Falling L := by
  induction hr with
  | root => exact h
  | step _ _ ih => exact ih.residual _

theorem Reach.mem_value {kid : Nat → UInt8 → Nat} {acc : Lang} {u L} (hr : Reach kid acc u L) : ∀ e ∈ L, ∃ e' ∈ acc, e'.2 = e.2 := by
  induction hr with
  | root => exact fun e he => ⟨e, he, rfl⟩
  | step _ _ ih =>
    intro e he
    rw [mem_residual] at he
    obtain ⟨e', he1, he2⟩ := ih (_, e.2) he
    exact ⟨e', he1, he2⟩

section
variable {D : Dictionary} {At : Nat → Lang → Prop} {kid : Nat → UInt8 → Nat} {clean : UInt8 → Prop} {sorter : Sorter} {gd : Guide}

theorem mem_underT {L : Lang} {l : UInt8} (h0 : l ≠ 0) {e : Entry} (he : e ∈ underT L [l]) : e ∈ L ∧ ∃ k, e.1 = l :: k := by
  rw [underT_one L h0] at he
  obtain ⟨f, hf, rfl⟩ := List.mem_map.1 he
  rw [mem_residual] at hf
  exact ⟨hf, f.1, rfl⟩

/-- A terminal transition that must come last. -/
theorem link_zero_lt (hs : StableSort sorter) (V : View D At kid clean) {u L} (h : At u L) (hp : PrefixLess L) {v : Nat} (hv : ([], v) ∈ L) {l : UInt8} (hl : l ∈ heads L) :
    (mkLink D sorter ltCmp L 0).value < (mkLink D sorter ltCmp L l).value := by
  have h0 := V.heads_ne_zero h hl
  obtain ⟨⟨e, he1, he2⟩, _⟩ := mkLink_spec hs strictTotal_lt V h (mem_arcs.2 (.inl ⟨rfl, v, hv⟩))
  obtain ⟨⟨f, hf1, hf2⟩, _⟩ := mkLink_spec hs strictTotal_lt V h (mem_arcs.2 (.inr hl))
  rw [underT_zero, V.here_eq h hv, List.mem_singleton] at he1
  subst he1
  obtain ⟨hf3, k, hk⟩ := mem_underT h0 hf1
  have := hp _ hv _ hf3 (by rw [hk]; simp) (by simp)
  show (mkLink D sorter (fun lhs rhs => decide (lhs < rhs)) L 0).value < (mkLink D sorter (fun lhs rhs => decide (lhs < rhs)) L l).value
  rw [← he2, ← hf2]
  simpa using this

theorem cutOk_rord (hs : StableSort sorter) (V : View D At kid clean) (hp : ∀ {u L}, At u L → PrefixLess L) : CutOk At (rord D sorter ltCmp) := by
  intro u L h
  have hperm := rord_perm (cmp := ltCmp) hs.perm V h
  have hsort := rord_sorted hs strictTotal_lt V h
  by_cases hz : (0 : UInt8) ∈ rord D sorter ltCmp L
  · have hz' := hperm.mem_iff.1 hz
    obtain ⟨v, hv⟩ : ∃ v, ([], v) ∈ L := by
      rcases mem_arcs.1 hz' with ⟨_, hv⟩ | hh
      · exact hv
      · exact absurd rfl (V.heads_ne_zero h hh)
    obtain ⟨A, post, hA⟩ := List.append_of_mem hz
    have hnd : (rord D sorter ltCmp L).Nodup := (hperm.nodup_iff).2 (arcs_nodup V h)
    cases post with
    | nil =>
      refine ⟨A, ?_, .inr hA⟩
      have harc : arcs L = 0 :: heads L := by
        unfold arcs
        rw [if_pos (List.any_eq_true.2 ⟨_, hv, by simp⟩)]; rfl
      rw [hA, harc] at hperm
      exact (List.perm_cons 0).1 ((List.perm_append_singleton 0 A).symm.trans hperm)
    | cons l post =>
      exfalso
      rw [hA, List.nodup_append] at hnd
      have hl0 : l ≠ 0 := fun hc => (List.nodup_cons.1 hnd.2.1).1 (by rw [hc]; simp)
      have hl : l ∈ heads L := by
        rcases mem_arcs.1 (hperm.mem_iff.1 (show l ∈ rord D sorter ltCmp L by rw [hA]; simp)) with ⟨hc, _⟩ | hh
        · exact absurd hc hl0
        · exact hh
      have h1 := link_zero_lt hs V h (hp h) hv hl
      unfold ltCmp at hA
      rw [hA, List.pairwise_append, List.pairwise_cons] at hsort
      have h2 := (hsort.2.1.1 l (by simp)).1
      have := upto_lt.1 h2
      unfold ltCmp at h1
      omega
  · refine ⟨_, ?_, .inl rfl⟩
    have harc : arcs L = heads L := by
      unfold arcs
      rw [if_neg, List.nil_append]
      intro hc
      obtain ⟨⟨k, v⟩, he, hk⟩ := List.any_eq_true.1 hc
      simp only [beq_iff_eq] at hk
      subst hk
      exact hz (hperm.mem_iff.2 (mem_arcs.2 (.inl ⟨rfl, v, he⟩)))
    rwa [harc] at hperm

/-- The transitions in byte order, the terminal one last. -/
theorem rord_eq (hs : StableSort sorter) (V : View D At kid clean) {u L} (h : At u L) (hp : PrefixLess L) (hf : Falling L) :
    rord D sorter ltCmp L = heads L ∨ rord D sorter ltCmp L = heads L ++ [0] := by
  have hperm := rord_perm (cmp := ltCmp) hs.perm V h
  have hsort := rord_sorted hs strictTotal_lt V h
  have hheads : (heads L).Pairwise (fun a b => Upto ltCmp (mkLink D sorter ltCmp L b).value (mkLink D sorter ltCmp L a).value ∧
      ((mkLink D sorter ltCmp L b).value = (mkLink D sorter ltCmp L a).value → a ≤ b)) := by
    refine (heads_asc L).imp_of_mem ?_
    intro a b ha hb hab
    refine ⟨?_, fun _ => UInt8.le_of_lt hab⟩
    obtain ⟨⟨e, he1, he2⟩, he3⟩ := mkLink_spec hs strictTotal_lt V h (mem_arcs.2 (.inr ha))
    obtain ⟨⟨f, hf1, hf2⟩, hf3⟩ := mkLink_spec hs strictTotal_lt V h (mem_arcs.2 (.inr hb))
    obtain ⟨he4, k, hk⟩ := mem_underT (V.heads_ne_zero h ha) he1
    obtain ⟨hf4, k', hk'⟩ := mem_underT (V.heads_ne_zero h hb) hf1
    have := hf _ he4 _ hf4 (by rw [hk, hk']; exact List.cons_lt_cons_iff.2 (.inl hab)) (by
      rw [hk, hk', List.cons_prefix_cons]
      rintro ⟨rfl, _⟩
      exact UInt8.lt_irrefl _ hab)
    refine upto_lt.2 ?_
    show (mkLink D sorter (fun lhs rhs => decide (lhs < rhs)) L b).value ≤ (mkLink D sorter (fun lhs rhs => decide (lhs < rhs)) L a).value
    rw [← he2, ← hf2]
    simpa using this
  have hanti : ∀ {X : List UInt8}, (rord D sorter ltCmp L).Perm X → X.Pairwise (fun a b => Upto ltCmp (mkLink D sorter ltCmp L b).value (mkLink D sorter ltCmp L a).value ∧
      ((mkLink D sorter ltCmp L b).value = (mkLink D sorter ltCmp L a).value → a ≤ b)) → rord D sorter ltCmp L = X := by
    intro X hX hs2
    refine hX.eq_of_pairwise (le := fun a b => Upto ltCmp (mkLink D sorter ltCmp L b).value (mkLink D sorter ltCmp L a).value ∧
      ((mkLink D sorter ltCmp L b).value = (mkLink D sorter ltCmp L a).value → a ≤ b)) ?_ hsort hs2
    intro a b _ _ hab hba
    have h1 := upto_lt.1 hab.1
    have h2 := upto_lt.1 hba.1
    have he := Int.le_antisymm h1 h2
    exact UInt8.le_antisymm (hab.2 he) (hba.2 he.symm)
  by_cases hany : L.any (fun e => e.1 == []) = true
  · right
    have harc : arcs L = 0 :: heads L := by
      unfold arcs
      rw [if_pos hany]; rfl
    rw [harc] at hperm
    obtain ⟨⟨k, v⟩, hv, hk⟩ := List.any_eq_true.1 hany
    simp only [beq_iff_eq] at hk
    subst hk
    refine hanti (hperm.trans (List.perm_append_singleton 0 _).symm) ?_
    rw [List.pairwise_append]
    refine ⟨hheads, by simp, ?_⟩
    intro a ha b hb
    rw [List.mem_singleton] at hb
    subst hb
    have := link_zero_lt hs V h hp hv ha
    exact ⟨upto_lt.2 (Int.le_of_lt this), fun hc => by omega⟩
  · left
    have harc : arcs L = heads L := by
      unfold arcs
      rw [if_neg hany]; rfl
    rw [harc] at hperm
    exact hanti hperm hheads

/-- A guide does not tell whether the terminal transition is listed last. -/
theorem GuideIs.heads_of {ord : Lang → List UInt8} (hg : GuideIs D At kid ord gd) (ho : ∀ {u L}, At u L → ord L = heads L ∨ ord L = heads L ++ [0]) :
    GuideIs D At kid heads gd where
  size := hg.size
  child {u L} h := by
    rw [hg.child h]
    rcases ho h with he | he <;> rw [he]
    cases heads L <;> rfl
  sibling {u L pre l post} h hL := by
    rcases ho h with he | he
    · exact hg.sibling h (he.trans hL)
    · rw [hg.sibling (pre := pre) (post := post ++ [0]) h (by rw [he, hL]; simp)]
      cases post <;> rfl

end
end Dawg.Guided
