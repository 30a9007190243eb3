import Verif.Proof.Builder.Abs
import Verif.Proof.Pools
/-! # Groups of transitions in the pools -/
namespace Dawg.Abs
attribute [-simp] List.length_flatten

/-! ## Base words -/

theorem and_one_ne_zero (b : Nat) : ((b &&& 1) != 0) = b.testBit 0 := by
  have := and_shift_ne_zero b 0; simpa using this
theorem and_two_ne_zero (b : Nat) : ((b &&& 2) != 0) = b.testBit 1 := by
  have := and_shift_ne_zero b 1; simpa using this

theorem u32_testBit (n i : Nat) : (u32 n).testBit i = (decide (i < 32) && n.testBit i) :=
  Nat.testBit_mod_two_pow n 32 i

theorem one_testBit_one : (1 : Nat).testBit 1 = false := by decide
theorem two_testBit_zero : (2 : Nat).testBit 0 = false := by decide
theorem two_testBit_one : (2 : Nat).testBit 1 = true := by decide
theorem one_testBit_zero : (1 : Nat).testBit 0 = true := by decide

theorem hasSibling_baseOf (l : UInt8) (c : Nat) (st sib : Bool) : baseHasSibling (baseOf l c st sib) = sib := by
  unfold baseHasSibling
  rw [and_one_ne_zero]
  simp only [baseOf, DawgUnit.base]
  cases st <;> cases sib <;> split <;>
    simp [Nat.testBit_or, u32_testBit, Nat.testBit_shiftLeft, one_testBit_zero, two_testBit_zero, -Nat.testBit_zero]

theorem isState_baseOf (l : UInt8) (c : Nat) (st sib : Bool) (hl : l ≠ 0) : baseIsState (baseOf l c st sib) = st := by
  unfold baseIsState
  rw [and_two_ne_zero]
  simp only [baseOf, DawgUnit.base, if_neg hl]
  cases st <;> cases sib <;>
    simp [Nat.testBit_or, u32_testBit, Nat.testBit_shiftLeft, one_testBit_one, two_testBit_one]

/-! ## Well-formed groups -/

/-- The flag bits of a group mark its first and last element. -/
structure GroupWf (g : Group) : Prop where
  ne : g ≠ []
  sib : ∀ (i : Nat) p, g[i]? = some p → baseHasSibling p.2 = decide (i + 1 < g.length)
  first : ∀ (i : Nat) p, g[i]? = some p → (p.1 == 0 || baseIsState p.2) = decide (i = 0)

theorem encClosed_length (es : List Edge) : (encClosed es).length = es.length := by
  induction es <;> simp [encClosed, *]

theorem encNode_length (l : UInt8) (c : Nat) (es : List Edge) : (encNode l c es).length = es.length + 1 := by
  simp [encNode, encClosed_length]

theorem encClosed_get : ∀ (es : List Edge) (j : Nat) (p : Pair), (encClosed es)[j]? = some p →
    ∃ e, es[j]? = some e ∧ p = (e.label, baseOf e.label e.child (decide (j + 1 = es.length)) true)
  | [], j, p, h => by simp [encClosed] at h
  | e :: es, 0, p, h => by
    simp [encClosed] at h
    refine ⟨e, rfl, ?_⟩
    subst h
    cases es <;> simp
  | e :: es, j + 1, p, h => by
    simp [encClosed] at h
    obtain ⟨e', he, hp⟩ := encClosed_get es j p h
    exact ⟨e', by simpa using he, by simpa using hp⟩

theorem encNode_get (l : UInt8) (c : Nat) (es : List Edge) (i : Nat) (p : Pair) (h : (encNode l c es)[i]? = some p) :
    i ≤ es.length ∧ ∃ e, (⟨l, c⟩ :: es)[es.length - i]? = some e ∧
      p = (e.label, baseOf e.label e.child (decide (i = 0)) (decide (i < es.length))) := by
  have hi : i < (encNode l c es).length := (List.getElem?_eq_some_iff.1 h).1
  rw [encNode_length] at hi
  unfold encNode at h
  rw [List.getElem?_reverse (by simp [encClosed_length]; omega)] at h
  simp only [List.length_cons, encClosed_length, Nat.add_sub_cancel] at h
  refine ⟨by omega, ?_⟩
  by_cases hlast : i = es.length
  · subst hlast
    simp at h
    refine ⟨⟨l, c⟩, by simp, ?_⟩
    subst h
    cases es <;> simp
  · obtain ⟨j, hj⟩ : ∃ j, es.length - i = j + 1 := ⟨es.length - i - 1, by omega⟩
    rw [hj] at h ⊢
    simp only [List.getElem?_cons_succ] at h ⊢
    obtain ⟨e, he, hp⟩ := encClosed_get es j p h
    refine ⟨e, he, ?_⟩
    subst hp
    have h1 : decide (j + 1 = es.length) = decide (i = 0) := by congr 1; apply propext; omega
    have h2 : decide (i < es.length) = true := by simp; omega
    rw [h1, h2]

/-- Labels of a state, descending. -/
def Desc (l : UInt8) (es : List Edge) : Prop := List.Pairwise (fun a b => b < a) (l :: es.map Edge.label)

theorem desc_get_ne_zero {l : UInt8} {c : Nat} {es : List Edge} (hd : Desc l es) {j : Nat} {e : Edge}
    (hj : j < es.length) (he : (⟨l, c⟩ :: es)[j]? = some e) : e.label ≠ 0 := by
  have hlen : es.length < (l :: es.map Edge.label).length := by simp
  have hj' : j < (l :: es.map Edge.label).length := by simp; omega
  have := List.pairwise_iff_getElem.1 hd j es.length hj' hlen hj
  have hl : (l :: es.map Edge.label)[j] = e.label := by
    have : (List.map Edge.label (⟨l, c⟩ :: es))[j]? = some e.label := by
      rw [List.getElem?_map, he]; rfl
    simp only [List.map_cons] at this
    exact (List.getElem?_eq_some_iff.1 this).2
  rw [hl] at this
  intro h0; rw [h0] at this
  exact absurd this (UInt8.not_lt_zero)

theorem encNode_wf {l : UInt8} {c : Nat} {es : List Edge} (hd : Desc l es) : GroupWf (encNode l c es) := by
  refine ⟨?_, ?_, ?_⟩
  · simp [encNode]
  · intro i p h
    obtain ⟨hi, e, he, rfl⟩ := encNode_get l c es i p h
    rw [hasSibling_baseOf, encNode_length]
    congr 1; apply propext; omega
  · intro i p h
    obtain ⟨hi, e, he, rfl⟩ := encNode_get l c es i p h
    by_cases h0 : i = 0
    · subst h0
      by_cases hz : e.label = 0
      · simp [hz]
      · simp [isState_baseOf _ _ _ _ hz]
    · have hz : e.label ≠ 0 := desc_get_ne_zero hd (by omega) he
      simp [isState_baseOf _ _ _ _ hz, h0, hz]

/-! ## Start indices -/

/-- Group `g` of `gs` starts at index `s` of the pools. -/
def IsStart (gs : List Group) (s : Nat) (g : Group) : Prop :=
  ∃ pre post, gs = pre ++ g :: post ∧ s = poolLen pre

def starts : Nat → List Group → List Nat
  | _, [] => []
  | s, g :: gs => s :: starts (s + g.length) gs

def groupAt : Nat → List Group → Nat → Group
  | _, [], _ => []
  | s, g :: gs, i => if s = i then g else groupAt (s + g.length) gs i

theorem starts_length (s : Nat) (gs : List Group) : (starts s gs).length = gs.length := by
  induction gs generalizing s <;> simp [starts, *]

theorem starts_append (s : Nat) (gs hs : List Group) :
    starts s (gs ++ hs) = starts s gs ++ starts (s + gs.flatten.length) hs := by
  induction gs generalizing s with
  | nil => simp [starts]
  | cons g gs ih => simp [starts, ih, Nat.add_assoc]

theorem starts_snoc (gs : List Group) (g : Group) : starts 1 (gs ++ [g]) = starts 1 gs ++ [poolLen gs] := by
  simp [starts_append, starts, poolLen]

theorem poolLen_append (a b : List Group) : poolLen (a ++ b) = poolLen a + b.flatten.length := by
  simp [poolLen]; omega

theorem mem_starts {gs : List Group} {s : Nat} : s ∈ starts 1 gs ↔ ∃ g, IsStart gs s g := by
  constructor
  · suffices ∀ s0 gs, s ∈ starts s0 gs → ∃ pre g post, gs = pre ++ g :: post ∧ s = s0 + pre.flatten.length by
      intro h
      obtain ⟨pre, g, post, h1, h2⟩ := this 1 gs h
      exact ⟨g, pre, post, h1, h2⟩
    intro s0 gs
    induction gs generalizing s0 with
    | nil => simp [starts]
    | cons g gs ih =>
      intro h
      simp only [starts, List.mem_cons] at h
      rcases h with rfl | h
      · exact ⟨[], g, gs, rfl, by simp⟩
      · obtain ⟨pre, g', post, rfl, rfl⟩ := ih _ h
        exact ⟨g :: pre, g', post, rfl, by simp; omega⟩
  · rintro ⟨g, pre, post, rfl, rfl⟩
    rw [starts_append]
    simp [starts, poolLen]

theorem starts_ge {s0 s : Nat} {gs : List Group} (h : s ∈ starts s0 gs) : s0 ≤ s := by
  induction gs generalizing s0 with
  | nil => simp [starts] at h
  | cons g gs ih =>
    simp only [starts, List.mem_cons] at h
    rcases h with rfl | h
    · exact Nat.le_refl _
    · have := ih h; omega

theorem starts_lt {s0 s : Nat} {gs : List Group} (hne : ∀ g ∈ gs, g ≠ []) (h : s ∈ starts s0 gs) :
    s < s0 + gs.flatten.length := by
  induction gs generalizing s0 with
  | nil => simp [starts] at h
  | cons g gs ih =>
    simp only [starts, List.mem_cons] at h
    have : 0 < g.length := List.length_pos_iff.2 (hne g (by simp))
    rcases h with rfl | h
    · simp; omega
    · have := ih (fun g' hg' => hne g' (by simp [hg'])) h
      simp; omega

theorem starts_nodup {s0 : Nat} {gs : List Group} (hne : ∀ g ∈ gs, g ≠ []) : (starts s0 gs).Nodup := by
  induction gs generalizing s0 with
  | nil => simp [starts]
  | cons g gs ih =>
    simp only [starts, List.nodup_cons]
    have hg : 0 < g.length := List.length_pos_iff.2 (hne g (by simp))
    refine ⟨fun h => ?_, ih (fun g' hg' => hne g' (by simp [hg']))⟩
    have := starts_ge h; omega

theorem IsStart.pos {gs s g} (h : IsStart gs s g) : 0 < s := by
  obtain ⟨pre, post, _, rfl⟩ := h; simp [poolLen]; omega

theorem IsStart.mem {gs s g} (h : IsStart gs s g) : g ∈ gs := by
  obtain ⟨pre, post, rfl, rfl⟩ := h; simp

theorem IsStart.bound {gs s g} (h : IsStart gs s g) : s + g.length ≤ poolLen gs := by
  obtain ⟨pre, post, rfl, rfl⟩ := h; simp [poolLen]; omega

theorem IsStart.append {gs s g} (h : IsStart gs s g) (hs : List Group) : IsStart (gs ++ hs) s g := by
  obtain ⟨pre, post, rfl, rfl⟩ := h
  exact ⟨pre, post ++ hs, by simp, rfl⟩

theorem IsStart.last (gs : List Group) (g : Group) : IsStart (gs ++ [g]) (poolLen gs) g :=
  ⟨gs, [], rfl, rfl⟩

theorem IsStart.groupAt {gs s g} (h : IsStart gs s g) (hne : ∀ g ∈ gs, g ≠ []) : groupAt 1 gs s = g := by
  obtain ⟨pre, post, rfl, rfl⟩ := h
  suffices ∀ s0, Abs.groupAt s0 (pre ++ g :: post) (s0 + pre.flatten.length) = g from this 1
  intro s0
  induction pre generalizing s0 with
  | nil => simp [Abs.groupAt]
  | cons a pre ih =>
    have ha : 0 < a.length := List.length_pos_iff.2 (hne a (by simp))
    simp only [List.cons_append, Abs.groupAt]
    rw [if_neg (by simp only [List.flatten_cons, List.length_append]; omega)]
    have := ih (fun g' hg' => hne g' (by simp at hg' ⊢; grind)) (s0 + a.length)
    simpa [Nat.add_assoc] using this

theorem IsStart.unique {gs s g g'} (h : IsStart gs s g) (h' : IsStart gs s g') (hne : ∀ g ∈ gs, g ≠ []) : g = g' := by
  rw [← h.groupAt hne, h'.groupAt hne]

theorem nodup_getElem_inj {α : Type} {l : List α} (h : l.Nodup) {i j : Nat} (hi : i < l.length) (hj : j < l.length)
    (he : l[i] = l[j]) : i = j := by
  rcases Nat.lt_trichotomy i j with hlt | heq | hgt
  · exact absurd he (List.pairwise_iff_getElem.1 (List.nodup_iff_pairwise_ne.1 h) i j hi hj hlt)
  · exact heq
  · exact absurd he.symm (List.pairwise_iff_getElem.1 (List.nodup_iff_pairwise_ne.1 h) j i hj hi hgt)

theorem IsStart.inj {gs s s' g} (hnd : gs.Nodup) (h : IsStart gs s g) (h' : IsStart gs s' g) : s = s' := by
  obtain ⟨pre, post, rfl, rfl⟩ := h
  obtain ⟨pre', post', heq, rfl⟩ := h'
  have hlen : pre.length = pre'.length := by
    have h1 : (pre ++ g :: post)[pre.length]? = some g := by simp
    have h2 : (pre ++ g :: post)[pre'.length]? = some g := by rw [heq]; simp
    obtain ⟨l1, e1⟩ := List.getElem?_eq_some_iff.1 h1
    obtain ⟨l2, e2⟩ := List.getElem?_eq_some_iff.1 h2
    exact nodup_getElem_inj hnd l1 l2 (e1.trans e2.symm)
  have := (List.append_inj heq hlen).1
  rw [this]

theorem findStart_some {gs g s} (h0 : findStart g 1 gs = some s) : IsStart gs s g := by
  suffices ∀ s0 gs, findStart g s0 gs = some s → ∃ pre post, gs = pre ++ g :: post ∧ s = s0 + pre.flatten.length from this 1 gs h0
  clear h0
  intro s0 gs
  induction gs generalizing s0 with
  | nil => simp [findStart]
  | cons a gs ih =>
    intro h
    simp only [findStart] at h
    split at h
    · rename_i he; subst he; simp at h; exact ⟨[], gs, rfl, by simp [h]⟩
    · obtain ⟨pre, post, rfl, rfl⟩ := ih _ h
      exact ⟨a :: pre, post, rfl, by simp; omega⟩

theorem findStart_none {gs g} {s0 : Nat} (h : findStart g s0 gs = none) : g ∉ gs := by
  induction gs generalizing s0 with
  | nil => simp
  | cons a gs ih =>
    simp only [findStart] at h
    split at h
    · simp at h
    · rename_i hne
      intro hm
      rcases List.mem_cons.1 hm with e | hm
      · exact hne e.symm
      · exact ih h hm

theorem IsStart.findStart {gs g s} (hnd : gs.Nodup) (h : IsStart gs s g) : findStart g 1 gs = some s := by
  cases hf : Abs.findStart g 1 gs with
  | none => exact absurd h.mem (findStart_none hf)
  | some s' => rw [IsStart.inj hnd (findStart_some hf) h]

theorem IsStart.get {gs s g} (h : IsStart gs s g) {i : Nat} (hi : i < g.length) (x : Pair) :
    (x :: gs.flatten)[s + i]? = g[i]? := by
  obtain ⟨pre, post, rfl, rfl⟩ := h
  simp only [poolLen]
  rw [show 1 + pre.flatten.length + i = (pre.flatten.length + i) + 1 by omega]
  simp only [List.getElem?_cons_succ, List.flatten_append, List.flatten_cons]
  rw [List.getElem?_append_right (by omega), Nat.add_sub_cancel_left, List.getElem?_append_left hi]

end Dawg.Abs
