import Verif.Proof.Guide.RankedChain
/-! # The order of the transitions in a ranked guide -/
namespace Dawg.Spec

/-- A comparator that is a strict total order. -/
structure StrictTotal {α : Type} (less : α → α → Bool) : Prop extends StrictWeak less where
  total : ∀ a b, a ≠ b → less a b = true ∨ less b a = true

end Dawg.Spec

namespace Dawg.Guided
attribute [-simp] List.length_flatten
open Dawg.Abs Dawg.Spec Dawg.Dict

/-! ## Insertion sort meets the contract of `SliceStable` -/

section
variable {α : Type} {less : α → α → Bool}

theorem insert_perm (x : α) : ∀ l, (insertFromRight less x l).Perm (x :: l)
  | [] => List.Perm.refl _
  | y :: ys => by
    unfold insertFromRight
    split
    · exact ((insert_perm x ys).cons y).trans (List.Perm.swap x y ys)
    · exact List.Perm.refl _

theorem insert_sorted (h : StrictWeak less) (x : α) : ∀ {l}, l.Pairwise (fun a b => less a b = false) → (insertFromRight less x l).Pairwise (fun a b => less a b = false)
  | [], _ => by simp [insertFromRight]
  | y :: ys, hl => by
    obtain ⟨h1, h2⟩ := List.pairwise_cons.1 hl
    unfold insertFromRight
    split
    · rename_i hxy
      rw [List.pairwise_cons]
      refine ⟨?_, insert_sorted h x h2⟩
      intro z hz
      rcases List.mem_cons.1 ((insert_perm x ys).mem_iff.1 hz) with rfl | hz
      · exact h.asymm _ _ hxy
      · exact h1 z hz
    · rename_i hxy
      have hxy : less x y = false := by simpa using hxy
      rw [List.pairwise_cons]
      refine ⟨?_, hl⟩
      intro z hz
      rcases List.mem_cons.1 hz with rfl | hz
      · exact hxy
      · exact h.negTrans _ _ _ hxy (h1 z hz)

theorem insert_stable (h : StrictWeak less) (x a : α) : ∀ {l}, l.Pairwise (fun a b => less a b = false) →
    (insertFromRight less x l).filter (fun b => !less a b && !less b a) = (x :: l).filter (fun b => !less a b && !less b a)
  | [], _ => rfl
  | y :: ys, hl => by
    obtain ⟨h1, h2⟩ := List.pairwise_cons.1 hl
    unfold insertFromRight
    split
    · rename_i hxy
      rw [List.filter_cons, insert_stable h x a h2]
      by_cases hx : (!less a x && !less x a) = true
      · -- then y is not in the class
        have hy : ¬ (!less a y && !less y a) = true := by
          intro hy
          simp only [Bool.and_eq_true, Bool.not_eq_true'] at hx hy
          have := h.negTrans _ _ _ hx.2 hy.1
          rw [hxy] at this; cases this
        rw [if_neg hy, List.filter_cons, if_pos hx, List.filter_cons, if_pos hx, List.filter_cons, if_neg hy]
      · simp only [List.filter_cons, if_neg hx]
    · rfl

theorem insertionSort_stableSort : StableSort (fun (less : α → α → Bool) l => insertionSort less l) where
  perm less l := by
    have : ∀ (l acc : List α), (l.foldl (fun acc x => insertFromRight less x acc) acc).Perm (acc ++ l) := by
      intro l
      induction l with
      | nil => intro acc; simp
      | cons x l ih =>
        intro acc
        rw [List.foldl_cons]
        refine (ih _).trans (((insert_perm x acc).append_right l).trans ?_)
        rw [List.cons_append]
        exact List.perm_middle.symm
    exact (List.reverse_perm _).trans (by simpa using this l [])
  sorted less l h := by
    have : ∀ (l acc : List α), acc.Pairwise (fun a b => less a b = false) → (l.foldl (fun acc x => insertFromRight less x acc) acc).Pairwise (fun a b => less a b = false) := by
      intro l
      induction l with
      | nil => intro acc ha; exact ha
      | cons x l ih => intro acc ha; exact ih _ (insert_sorted h x ha)
    unfold insertionSort
    rw [List.pairwise_reverse]
    exact this l [] List.Pairwise.nil
  stable less l h a := by
    have : ∀ (l acc : List α), acc.Pairwise (fun a b => less a b = false) → (l.foldl (fun acc x => insertFromRight less x acc) acc).filter (fun b => !less a b && !less b a) =
        (l.reverse ++ acc).filter (fun b => !less a b && !less b a) := by
      intro l
      induction l with
      | nil => intro acc _; rfl
      | cons x l ih =>
        intro acc ha
        rw [List.foldl_cons, ih _ (insert_sorted h x ha), List.filter_append, insert_stable h x a ha, ← List.filter_append]
        simp
    unfold insertionSort
    rw [List.filter_reverse, this l [] List.Pairwise.nil, List.append_nil, List.filter_reverse, List.reverse_reverse]

end

/-- The comparator of links is a strict weak order if the comparator of values is a strict total order. -/
theorem linkCmp_strictWeak {cmp : Int → Int → Bool} (h : StrictTotal cmp) : StrictWeak (linkCmp cmp) where
  asymm a b hab := by
    unfold linkCmp at *
    by_cases hv : a.value = b.value
    · rw [if_neg (by simp [hv])] at hab
      rw [if_neg (by simp [hv])]
      simp only [decide_eq_true_eq, decide_eq_false_iff_not] at *
      exact fun hc => UInt8.lt_irrefl _ (UInt8.lt_trans hab hc)
    · rw [if_pos hv] at hab
      rw [if_pos (Ne.symm hv)]
      exact h.asymm _ _ hab
  negTrans a b c h1 h2 := by
    have key : ∀ x y : Link, linkCmp cmp x y = false ↔ (cmp x.value y.value = true ∨ (x.value = y.value ∧ y.label ≤ x.label)) := by
      intro x y
      unfold linkCmp
      by_cases hv : x.value = y.value
      · rw [if_neg (by simp [hv])]
        simp only [decide_eq_false_iff_not, UInt8.not_lt]
        constructor
        · intro hl; exact .inr ⟨hv, hl⟩
        · rintro (hc | ⟨_, hl⟩)
          · rw [hv] at hc
            have := h.asymm _ _ hc
            rw [hc] at this; cases this
          · exact hl
      · rw [if_pos hv]
        constructor
        · intro hc
          rcases h.total _ _ hv with ht | ht
          · exact .inl ht
          · rw [hc] at ht; cases ht
        · rintro (hc | ⟨he, _⟩)
          · exact h.asymm _ _ hc
          · exact absurd he hv
    rw [key] at *
    have htrans : ∀ x y z, cmp x y = true → cmp y z = true → cmp x z = true := by
      intro x y z hxy hyz
      refine Classical.byContradiction fun hc => ?_
      have hc : cmp x z = false := by simpa using hc
      have := h.negTrans _ _ _ hc (h.asymm _ _ hyz)
      rw [hxy] at this; cases this
    rcases h1 with h1 | ⟨h1, h1'⟩ <;> rcases h2 with h2 | ⟨h2, h2'⟩
    · exact .inl (htrans _ _ _ h1 h2)
    · rw [← h2]; exact .inl h1
    · rw [h1]; exact .inl h2
    · exact .inr ⟨h1.trans h2, UInt8.le_trans h2' h1'⟩

theorem StrictTotal.trans {cmp : Int → Int → Bool} (h : StrictTotal cmp) {x y z : Int} (hxy : cmp x y = true) (hyz : cmp y z = true) : cmp x z = true := by
  refine Classical.byContradiction fun hc => ?_
  have hc : cmp x z = false := by simpa using hc
  have := h.negTrans _ _ _ hc (h.asymm _ _ hyz)
  rw [hxy] at this; cases this

theorem strictTotal_lt : StrictTotal (fun lhs rhs : Int => decide (lhs < rhs)) where
  asymm a b h := by simp only [decide_eq_true_eq, decide_eq_false_iff_not] at *; omega
  negTrans a b c h1 h2 := by simp only [decide_eq_false_iff_not] at *; omega
  total a b h := by simp only [decide_eq_true_eq]; omega

theorem strictTotal_gt : StrictTotal (fun lhs rhs : Int => decide (lhs > rhs)) where
  asymm a b h := by simp only [decide_eq_true_eq, decide_eq_false_iff_not] at *; omega
  negTrans a b c h1 h2 := by simp only [decide_eq_false_iff_not] at *; omega
  total a b h := by simp only [decide_eq_true_eq]; omega

/-- `b` is at least as good as `a`. -/
def Upto (cmp : Int → Int → Bool) (a b : Int) : Prop := a = b ∨ cmp a b = true

theorem Upto.trans {cmp : Int → Int → Bool} (h : StrictTotal cmp) {a b c : Int} (h1 : Upto cmp a b) (h2 : Upto cmp b c) : Upto cmp a c := by
  rcases h1 with rfl | h1
  · exact h2
  · rcases h2 with rfl | h2
    · exact .inr h1
    · exact .inr (StrictTotal.trans h h1 h2)

section
variable {D : Dictionary} {At : Nat → Lang → Prop} {kid : Nat → UInt8 → Nat} {clean : UInt8 → Prop} {sorter : Sorter} {cmp : Int → Int → Bool}

/-- The links are sorted: a later one is not better. -/
theorem rlinks_sorted (hs : StableSort sorter) (hc : StrictTotal cmp) (V : View D At kid clean) {u L} (h : At u L) :
    (rlinks D sorter cmp L).Pairwise (fun a b => Upto cmp b.value a.value ∧ (b.value = a.value → a.label ≤ b.label)) := by
  rw [rlinks_eq V h]
  refine (hs.sorted _ _ (linkCmp_strictWeak hc)).imp ?_
  intro a b hab
  unfold linkCmp at hab
  by_cases hv : b.value = a.value
  · rw [if_neg (by simp [hv])] at hab
    exact ⟨.inl hv, fun _ => by simpa using hab⟩
  · rw [if_pos hv] at hab
    refine ⟨?_, fun h => absurd h hv⟩
    rcases hc.total _ _ hv with ht | ht
    · exact .inr ht
    · rw [hab] at ht; cases ht

/-- The value of a link is the value of a key behind it, and no key behind it is better. -/
theorem rbest_spec (hs : StableSort sorter) (hc : StrictTotal cmp) (V : View D At kid clean) : ∀ (n : Nat) {u L}, At u L → (∀ e ∈ L, e.1.length < n) →
    ((∃ e ∈ L, (e.2 : Int) = rbest D sorter cmp L) ∧ ∀ e ∈ L, Upto cmp e.2 (rbest D sorter cmp L)) ∧
    ∀ l ∈ arcs L, (∃ e ∈ underT L [l], (e.2 : Int) = (mkLink D sorter cmp L l).value) ∧ ∀ e ∈ underT L [l], Upto cmp e.2 (mkLink D sorter cmp L l).value
  | 0, u, L, h, hn => by
    obtain ⟨e, he⟩ := List.exists_mem_of_ne_nil _ (V.ne h)
    exact absurd (hn e he) (by omega)
  | n + 1, u, L, h, hn => by
    have hlinks : ∀ l ∈ arcs L, (∃ e ∈ underT L [l], (e.2 : Int) = (mkLink D sorter cmp L l).value) ∧ ∀ e ∈ underT L [l], Upto cmp e.2 (mkLink D sorter cmp L l).value := by
      intro l hl
      unfold mkLink
      rcases mem_arcs.1 hl with ⟨rfl, v, hv⟩ | hh
      · simp only [if_true]
        rw [underT_zero, V.here_eq h hv, V.hereV h hv]
        refine ⟨⟨_, List.mem_singleton_self _, rfl⟩, ?_⟩
        intro e he
        rw [List.mem_singleton] at he
        subst he
        exact .inl rfl
      · have h0 := V.heads_ne_zero h hh
        rw [underT_one L h0]
        simp only [if_neg h0]
        obtain ⟨⟨⟨e, he1, he2⟩, h3⟩, _⟩ := rbest_spec hs hc V n (V.step h hh) (by
          intro e he
          obtain ⟨e', he', h4, _⟩ := depth_lt he
          have := hn e' he'
          rw [h4] at this
          simp only [List.length_cons] at this; omega)
        refine ⟨⟨pre [l] e, List.mem_map_of_mem he1, he2⟩, ?_⟩
        intro e' he'
        obtain ⟨e1, he1, rfl⟩ := List.mem_map.1 he'
        exact h3 e1 he1
    refine ⟨?_, hlinks⟩
    obtain ⟨l, ls, h1, h2, h3, ks, h4⟩ := rlinks_cons (cmp := cmp) hs.perm V h
    have hord := underT_ord V (ord := rord D sorter cmp) (fun {_ _} h => rord_perm hs.perm V h) h
    have hsort := rlinks_sorted hs hc V h
    rw [h4, List.pairwise_cons] at hsort
    constructor
    · obtain ⟨⟨e, he1, he2⟩, _⟩ := hlinks l h3
      refine ⟨e, hord.mem_iff.1 ?_, he2.trans h2.symm⟩
      rw [h1, underT_cons]
      exact List.mem_append_left _ he1
    · intro e he
      rw [← hord.mem_iff] at he
      obtain ⟨l', hl', he'⟩ := List.mem_flatMap.1 he
      have he'' : e ∈ underT L [l'] := by unfold underT; simpa using he'
      have harc : l' ∈ arcs L := (rord_perm hs.perm V h).mem_iff.1 hl'
      have h5 := (hlinks l' harc).2 e he''
      rw [h2]
      unfold rord at hl'
      rw [h4, List.map_cons, List.mem_cons] at hl'
      rcases hl' with rfl | hl'
      · exact h5
      · obtain ⟨k, hk, rfl⟩ := List.mem_map.1 hl'
        have hk' := rlinks_mk (cmp := cmp) hs.perm V h k (by rw [h4]; exact List.mem_cons_of_mem _ hk)
        have := (hsort.1 k hk).1
        rw [hk'] at this
        exact h5.trans hc this

theorem mkLink_spec (hs : StableSort sorter) (hc : StrictTotal cmp) (V : View D At kid clean) {u L} (h : At u L) {l : UInt8} (hl : l ∈ arcs L) :
    (∃ e ∈ underT L [l], (e.2 : Int) = (mkLink D sorter cmp L l).value) ∧ ∀ e ∈ underT L [l], Upto cmp e.2 (mkLink D sorter cmp L l).value :=
  (rbest_spec hs hc V (D.size + 1) h (fun e he => by have := V.depth h e he; omega)).2 l hl

/-- What two transitions in order mean. -/
theorem rord_sorted (hs : StableSort sorter) (hc : StrictTotal cmp) (V : View D At kid clean) {u L} (h : At u L) :
    (rord D sorter cmp L).Pairwise (fun a b => Upto cmp (mkLink D sorter cmp L b).value (mkLink D sorter cmp L a).value ∧
      ((mkLink D sorter cmp L b).value = (mkLink D sorter cmp L a).value → a ≤ b)) := by
  unfold rord
  rw [List.pairwise_map]
  refine (rlinks_sorted hs hc V h).imp_of_mem ?_
  intro a b ha hb hab
  have e1 := rlinks_mk (cmp := cmp) hs.perm V h a ha
  have e2 := rlinks_mk (cmp := cmp) hs.perm V h b hb
  rw [← e1, ← e2]
  exact hab

theorem desc_rord (hs : StableSort sorter) (hc : StrictTotal cmp) (V : View D At kid clean) : Desc (fun a b => Upto cmp (a : Int) (b : Int)) At (rord D sorter cmp) := by
  intro u L A l post h hL e he
  obtain ⟨l', hl', he'⟩ := List.mem_flatMap.1 he
  have he'' : e ∈ underT L [l'] := by unfold underT; simpa using he'
  have hsort := rord_sorted hs hc V h
  rw [hL, List.pairwise_append] at hsort
  have h1 := ((List.pairwise_cons.1 hsort.2.1).1 l' hl').1
  have ha : ∀ x ∈ A ++ l :: post, x ∈ arcs L := by rw [← hL]; exact fun x hx => (rord_perm hs.perm V h).mem_iff.1 hx
  obtain ⟨⟨e1, he1, he2⟩, _⟩ := mkLink_spec hs hc V h (ha l (by simp))
  have h2 := (mkLink_spec hs hc V h (ha l' (by simp [hl']))).2 e he''
  refine ⟨e1, he1, ?_⟩
  simp only [he2]
  exact h2.trans hc h1

end
end Dawg.Guided
