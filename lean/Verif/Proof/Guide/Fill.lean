import Verif.Proof.Guide.View
/-! # Filling in a guide

What the two guide builders have in common: a depth-first walk that visits every unit once and writes
labels that only depend on the language of the unit. -/
namespace Dawg.Guided
attribute [-simp] List.length_flatten
open Dawg.Abs Dawg.Spec Dawg.Dict GuideBuilder

/-! ## The table of visited units -/

theorem and_two_pow_ne (b k : Nat) : ((b &&& 2 ^ k) != 0) = b.testBit k := by
  have h1 : (b &&& 2 ^ k).testBit k = b.testBit k := by simp [Nat.testBit_and, Nat.testBit_two_pow]
  cases hb : b.testBit k with
  | true =>
    rw [hb] at h1
    rw [bne_iff_ne]
    intro h0
    rw [h0] at h1; simp at h1
  | false =>
    have : b &&& 2 ^ k = 0 := by
      apply Nat.eq_of_testBit_eq
      intro i
      rw [Nat.testBit_and, Nat.testBit_two_pow, Nat.zero_testBit]
      by_cases hi : k = i
      · subst hi; simp [hb]
      · simp [hi]
    rw [this]; rfl

/-- Unit `i` is marked. -/
def Fixed (t : List UInt8) (i : Nat) : Prop := isFixed t i = .ok true

theorem isFixed_eq {t : List UInt8} {i : Nat} (h : i / 8 < t.length) : isFixed t i = .ok ((t[i / 8]).toNat.testBit (i % 8)) := by
  simp only [isFixed, rd_lt h, ok_bind, pure_eq_ok, Nat.one_shiftLeft, and_two_pow_ne]

theorem setIsFixed_spec {t : List UInt8} {i : Nat} (h : i / 8 < t.length) :
    ∃ t', setIsFixed t i = .ok t' ∧ t'.length = t.length ∧ ∀ j, j / 8 < t.length → (Fixed t' j ↔ Fixed t j ∨ j = i) := by
  refine ⟨t.set (i / 8) (UInt8.ofNat ((t[i / 8]).toNat ||| 1 <<< (i % 8))), ?_, by simp, ?_⟩
  · simp only [setIsFixed, rd_lt h, ok_bind, wr_lt h]
  · intro j hj
    unfold Fixed
    rw [isFixed_eq hj, isFixed_eq (by simpa using hj)]
    simp only [Except.ok.injEq]
    by_cases hij : i / 8 = j / 8
    · have e1 : (t.set (i / 8) (UInt8.ofNat ((t[i / 8]).toNat ||| 1 <<< (i % 8))))[j / 8]'(by simpa using hj) =
          UInt8.ofNat ((t[i / 8]).toNat ||| 1 <<< (i % 8)) := by
        simp [hij]
      have e2 : t[j / 8] = t[i / 8] := by simp [hij]
      rw [e1, e2, UInt8.toNat_ofNat', Nat.one_shiftLeft]
      have hb := label_lt (t[i / 8])
      have hlt : (t[i / 8]).toNat ||| 2 ^ (i % 8) < 2 ^ 8 := by
        refine Nat.or_lt_two_pow (by simpa using hb) (Nat.pow_lt_pow_right (by omega) (by omega))
      rw [Nat.mod_eq_of_lt hlt, Nat.testBit_or, Nat.testBit_two_pow, Bool.or_eq_true, decide_eq_true_eq]
      constructor
      · rintro (h | h)
        · exact .inl h
        · exact .inr (by omega)
      · rintro (h | h)
        · exact .inl h
        · exact .inr (by omega)
    · have e1 : (t.set (i / 8) (UInt8.ofNat ((t[i / 8]).toNat ||| 1 <<< (i % 8))))[j / 8]'(by simpa using hj) = t[j / 8] := by
        rw [List.getElem_set_ne hij]
      rw [e1]
      constructor
      · exact .inl
      · rintro (h | h)
        · exact h
        · exact absurd (by rw [h]) hij

theorem not_fixed {t : List UInt8} {i : Nat} (h : i / 8 < t.length) (hn : ¬ Fixed t i) : isFixed t i = .ok false := by
  unfold Fixed at hn
  rw [isFixed_eq h] at hn ⊢
  cases hb : (t[i / 8]).toNat.testBit (i % 8) with
  | true => rw [hb] at hn; exact absurd rfl hn
  | false => rfl

/-! ## Reached units -/

inductive Reach (kid : Nat → UInt8 → Nat) (acc : Lang) : Nat → Lang → Prop
  | root : Reach kid acc 0 acc
  | step {u L l} : Reach kid acc u L → l ∈ heads L → Reach kid acc (kid u l) (residual L [l])

section
variable {D : Dictionary} {At : Nat → Lang → Prop} {kid : Nat → UInt8 → Nat} {clean : UInt8 → Prop}

theorem Reach.at (V : View D At kid clean) {acc u L} (h0 : At 0 acc) (h : Reach kid acc u L) : At u L := by
  induction h with
  | root => exact h0
  | step _ hl ih => exact V.step ih hl

theorem View.reach (V : View D At kid clean) {acc} (h0 : At 0 acc) : View D (Reach kid acc) kid clean where
  func h h' := V.func (h.at V h0) (h'.at V h0)
  lt h := V.lt (h.at V h0)
  ne h := V.ne (h.at V h0)
  nul h := V.nul (h.at V h0)
  shape h := V.shape (h.at V h0)
  hasValue h := V.hasValue (h.at V h0)
  value h := V.value (h.at V h0)
  fwc l h := V.fwc l (h.at V h0)
  follow h := V.follow (h.at V h0)
  step h hl := .step h hl
  miss h := V.miss (h.at V h0)
  kid_lt h := V.kid_lt (h.at V h0)
  kid_ne h := V.kid_ne (h.at V h0)
  leaf h := V.leaf (h.at V h0)
  uniq h h' := V.uniq (h.at V h0) (h'.at V h0)
  mult := V.mult
  total h := V.total (h.at V h0)

/-- Following a string that continues to a key. -/
theorem View.followString (V : View D At kid clean) : ∀ (p : Key) {u L}, At u L → residual L p ≠ [] →
    ∃ v, D.followString p u = .ok (true, v, p.length) ∧ At v (residual L p)
  | [], u, L, h, _ => ⟨u, rfl, by rw [residual_nil]; exact h⟩
  | l :: p, u, L, h, hr => by
    have hl : l ∈ heads L := mem_heads.2 (fun hl => hr (residual_eq_nil_of_take hl p))
    rw [show l :: p = [l] ++ p from rfl, residual_residual] at hr ⊢
    obtain ⟨v, h1, h2⟩ := V.followString p (V.step h hl) hr
    refine ⟨v, ?_, h2⟩
    simp only [List.cons_append, List.nil_append, Dictionary.followString, V.follow h hl, ok_bind, h1, pure_eq_ok, List.length_cons]

theorem Reach.path (V : View D At kid clean) {acc u L} (h0 : At 0 acc) (h : Reach kid acc u L) :
    ∃ p, L = residual acc p ∧ D.followString p 0 = .ok (true, u, p.length) := by
  induction h with
  | root => exact ⟨[], by rw [residual_nil], rfl⟩
  | @step u L l h hl ih =>
    obtain ⟨p, rfl, h2⟩ := ih
    refine ⟨p ++ [l], by rw [residual_residual], ?_⟩
    rw [Dictionary.followString_append, h2]
    simp only [ok_bind, if_true, Dictionary.followString, V.follow (h.at V h0) hl, pure_eq_ok]
    simp

/-! ## Guides -/

/-- `gd` lists the transitions `ord L` of every reached unit in order. -/
structure GuideIs (D : Dictionary) (At : Nat → Lang → Prop) (kid : Nat → UInt8 → Nat) (ord : Lang → List UInt8) (gd : Guide) : Prop where
  size : gd.units.length = D.size
  child : ∀ {u L}, At u L → gd.child u = .ok ((ord L).headD 0)
  sibling : ∀ {u L pre l post}, At u L → ord L = pre ++ l :: post → gd.sibling (kid u l) = .ok (post.headD 0)

/-- The child label of unit `u` is right. -/
def ChildOk (At : Nat → Lang → Prop) (ord : Lang → List UInt8) (u : Nat) (x : UInt8) : Prop :=
  ∃ L, At u L ∧ x = (ord L).headD 0

/-- The sibling label of unit `i` is right. -/
def SibOk (At : Nat → Lang → Prop) (kid : Nat → UInt8 → Nat) (ord : Lang → List UInt8) (i : Nat) (x : UInt8) : Prop :=
  ∃ u L pre l post, At u L ∧ ord L = pre ++ l :: post ∧ i = kid u l ∧ x = post.headD 0

/-- `us'` comes from `us` by writing right labels. -/
structure Writes (At : Nat → Lang → Prop) (kid : Nat → UInt8 → Nat) (ord : Lang → List UInt8) (us us' : List GuideUnit) : Prop where
  len : us'.length = us.length
  child : ∀ {i g g'}, us[i]? = some g → us'[i]? = some g' → g'.child = g.child ∨ ChildOk At ord i g'.child
  sibling : ∀ {i g g'}, us[i]? = some g → us'[i]? = some g' → g'.sibling = g.sibling ∨ SibOk At kid ord i g'.sibling

variable {ord : Lang → List UInt8}

theorem Writes.refl (us : List GuideUnit) : Writes At kid ord us us :=
  ⟨rfl, fun h h' => by rw [h] at h'; cases h'; exact .inl rfl, fun h h' => by rw [h] at h'; cases h'; exact .inl rfl⟩

theorem Writes.trans {us us' us'' : List GuideUnit} (h : Writes At kid ord us us') (h' : Writes At kid ord us' us'') : Writes At kid ord us us'' := by
  have key : ∀ {i : Nat} {g g'' : GuideUnit}, us[i]? = some g → us''[i]? = some g'' → ∃ g', us'[i]? = some g' := by
    intro i g g'' h1 _
    have : i < us'.length := by rw [h.len]; exact (List.getElem?_eq_some_iff.1 h1).1
    exact ⟨us'[i], by simp [this]⟩
  refine ⟨h'.len.trans h.len, ?_, ?_⟩
  · intro i g g'' h1 h2
    obtain ⟨g', h3⟩ := key h1 h2
    rcases h'.child h3 h2 with e | e
    · rcases h.child h1 h3 with f | f
      · exact .inl (e.trans f)
      · exact .inr (by rw [e]; exact f)
    · exact .inr e
  · intro i g g'' h1 h2
    obtain ⟨g', h3⟩ := key h1 h2
    rcases h'.sibling h3 h2 with e | e
    · rcases h.sibling h1 h3 with f | f
      · exact .inl (e.trans f)
      · exact .inr (by rw [e]; exact f)
    · exact .inr e

theorem setChild_writes {us : List GuideUnit} {u : Nat} {x : UInt8} (hu : u < us.length) (hx : ChildOk At ord u x) :
    ∃ us', setChild us u x = .ok us' ∧ Writes At kid ord us us' ∧ ∃ g, us'[u]? = some g ∧ g.child = x := by
  refine ⟨us.set u { us[u] with child := x }, ?_, ⟨by simp, ?_, ?_⟩, { us[u] with child := x }, by simp [hu], rfl⟩
  · simp only [setChild, rd_lt hu, ok_bind, wr_lt hu]
  · intro i g g' h1 h2
    rw [List.getElem?_set] at h2
    by_cases hi : u = i
    · subst hi
      rw [if_pos rfl, if_pos hu] at h2
      cases h2
      exact .inr hx
    · rw [if_neg hi, h1] at h2
      cases h2
      exact .inl rfl
  · intro i g g' h1 h2
    rw [List.getElem?_set] at h2
    by_cases hi : u = i
    · subst hi
      rw [if_pos rfl, if_pos hu] at h2
      cases h2
      rw [List.getElem?_eq_getElem hu] at h1
      cases h1
      exact .inl rfl
    · rw [if_neg hi, h1] at h2
      cases h2
      exact .inl rfl

theorem setSibling_writes {us : List GuideUnit} {u : Nat} {x : UInt8} (hu : u < us.length) (hx : SibOk At kid ord u x) :
    ∃ us', setSibling us u x = .ok us' ∧ Writes At kid ord us us' ∧ ∃ g, us'[u]? = some g ∧ g.sibling = x := by
  refine ⟨us.set u { us[u] with sibling := x }, ?_, ⟨by simp, ?_, ?_⟩, { us[u] with sibling := x }, by simp [hu], rfl⟩
  · simp only [setSibling, rd_lt hu, ok_bind, wr_lt hu]
  · intro i g g' h1 h2
    rw [List.getElem?_set] at h2
    by_cases hi : u = i
    · subst hi
      rw [if_pos rfl, if_pos hu] at h2
      cases h2
      rw [List.getElem?_eq_getElem hu] at h1
      cases h1
      exact .inl rfl
    · rw [if_neg hi, h1] at h2
      cases h2
      exact .inl rfl
  · intro i g g' h1 h2
    rw [List.getElem?_set] at h2
    by_cases hi : u = i
    · subst hi
      rw [if_pos rfl, if_pos hu] at h2
      cases h2
      exact .inr hx
    · rw [if_neg hi, h1] at h2
      cases h2
      exact .inl rfl

/-- The orders used: some of the transitions, without repetition. -/
def OrdOk (At : Nat → Lang → Prop) (ord : Lang → List UInt8) : Prop := ∀ {u L}, At u L → (∀ l ∈ ord L, l ∈ arcs L) ∧ (ord L).Nodup

theorem nodup_post {A : List UInt8} (h : A.Nodup) {pre pre' post post' : List UInt8} {l : UInt8} (h1 : A = pre ++ l :: post) (h2 : A = pre' ++ l :: post') :
    post = post' := by
  induction pre generalizing A pre' with
  | nil =>
    cases pre' with
    | nil => rw [h1] at h2; simpa using h2
    | cons a pre' =>
      rw [h1] at h2 h
      simp only [List.nil_append, List.cons_append, List.cons.injEq] at h2 h
      rw [List.nodup_cons] at h
      exact absurd (by rw [h2.2]; simp) h.1
  | cons a pre ih =>
    cases pre' with
    | nil =>
      rw [h1] at h2 h
      simp only [List.nil_append, List.cons_append, List.cons.injEq] at h2 h
      rw [List.nodup_cons] at h
      exact absurd (by rw [h2.1]; simp) h.1
    | cons b pre' =>
      rw [h1] at h2 h
      simp only [List.cons_append, List.cons.injEq, List.nodup_cons] at h2 h
      exact ih h.2 rfl h2.2

theorem SibOk.eq (V : View D At kid clean) (ho : OrdOk At ord) {u L pre l post} (h : At u L) (hL : ord L = pre ++ l :: post) {x : UInt8}
    (hs : SibOk At kid ord (kid u l) x) : x = post.headD 0 := by
  obtain ⟨u', L', pre', l', post', h1, h2, h3, rfl⟩ := hs
  have hl : l ∈ arcs L := (ho h).1 l (by rw [hL]; simp)
  have hl' : l' ∈ arcs L' := (ho h1).1 l' (by rw [h2]; simp)
  obtain ⟨rfl, rfl⟩ := V.uniq h h1 hl hl' h3
  rw [nodup_post (ho h).2 h2 hL]

theorem ChildOk.eq (V : View D At kid clean) {u L} (h : At u L) {x : UInt8} (hs : ChildOk At ord u x) : x = (ord L).headD 0 := by
  obtain ⟨L', h1, rfl⟩ := hs
  rw [V.func h h1]

/-- The labels of unit `u` and of the units behind its transitions are right. -/
def Right (kid : Nat → UInt8 → Nat) (ord : Lang → List UInt8) (us : List GuideUnit) (u : Nat) (L : Lang) : Prop :=
  (∃ g, us[u]? = some g ∧ g.child = (ord L).headD 0) ∧
  ∀ pre l post, ord L = pre ++ l :: post → ∃ g, us[kid u l]? = some g ∧ g.sibling = post.headD 0

theorem Right.mono (V : View D At kid clean) (ho : OrdOk At ord) {us us' : List GuideUnit} (hw : Writes At kid ord us us') {u L} (h : At u L)
    (hr : Right kid ord us u L) : Right kid ord us' u L := by
  have key : ∀ {i : Nat} {g : GuideUnit}, us[i]? = some g → ∃ g', us'[i]? = some g' := by
    intro i g h1
    have : i < us'.length := by rw [hw.len]; exact (List.getElem?_eq_some_iff.1 h1).1
    exact ⟨us'[i], by simp [this]⟩
  refine ⟨?_, ?_⟩
  · obtain ⟨g, h1, h2⟩ := hr.1
    obtain ⟨g', h3⟩ := key h1
    refine ⟨g', h3, ?_⟩
    rcases hw.child h1 h3 with e | e
    · rw [e, h2]
    · exact e.eq V h
  · intro pre l post hL
    obtain ⟨g, h1, h2⟩ := hr.2 pre l post hL
    obtain ⟨g', h3⟩ := key h1
    refine ⟨g', h3, ?_⟩
    rcases hw.sibling h1 h3 with e | e
    · rw [e, h2]
    · exact e.eq V ho h hL

/-- The state of the walk: `S` are the units being worked on. -/
structure Walk (D : Dictionary) (At : Nat → Lang → Prop) (kid : Nat → UInt8 → Nat) (ord : Lang → List UInt8) (us : List GuideUnit) (t : List UInt8)
    (S : List Nat) : Prop where
  ulen : us.length = D.size
  tlen : t.length = D.size / 8
  zero : Writes At kid ord (List.replicate D.size ⟨0, 0⟩) us
  done : ∀ {u L}, At u L → Fixed t u → u ∉ S → Right kid ord us u L ∧ ∀ l ∈ heads L, Fixed t (kid u l) ∧ kid u l ∉ S

theorem Walk.div_lt (V : View D At kid clean) {us t S} (w : Walk D At kid ord us t S) {i : Nat} (h : i < D.size) : i / 8 < t.length := by
  have := V.mult
  rw [w.tlen]; omega

theorem Walk.start (_V : View D At kid clean) : Walk D At kid ord (List.replicate D.size ⟨0, 0⟩) (List.replicate (D.size / 8) 0) [] := by
  refine ⟨by simp, by simp, Writes.refl _, ?_⟩
  intro u L _ hf _
  exfalso
  unfold Fixed isFixed rd at hf
  rw [List.getElem?_replicate] at hf
  by_cases hi : u / 8 < D.size / 8
  · rw [if_pos hi] at hf
    simp [ok_bind, pure_eq_ok] at hf
  · rw [if_neg hi] at hf
    cases hf

/-- Beginning to work on a unit. -/
theorem Walk.enter (V : View D At kid clean) {us t S} (w : Walk D At kid ord us t S) {u L} (h : At u L) (hn : ¬ Fixed t u) :
    ∃ t', setIsFixed t u = .ok t' ∧ Walk D At kid ord us t' (u :: S) ∧ (∀ i, Fixed t i → i < D.size → Fixed t' i) ∧ Fixed t' u := by
  obtain ⟨t', h1, h2, h3⟩ := setIsFixed_spec (w.div_lt V (V.lt h))
  refine ⟨t', h1, ⟨w.ulen, h2.trans w.tlen, w.zero, ?_⟩, ?_, ?_⟩
  · intro u' L' h' hf hS
    rw [List.mem_cons, not_or] at hS
    rcases (h3 u' (w.div_lt V (V.lt h'))).1 hf with hf | hf
    · obtain ⟨a1, a2⟩ := w.done h' hf hS.2
      refine ⟨a1, fun l hl => ?_⟩
      obtain ⟨b1, b2⟩ := a2 l hl
      refine ⟨(h3 _ (w.div_lt V (V.lt (V.step h' hl)))).2 (.inl b1), ?_⟩
      rw [List.mem_cons, not_or]
      exact ⟨fun he => hn (by rw [← he]; exact b1), b2⟩
    · exact absurd hf hS.1
  · intro i hf hi
    exact (h3 i (w.div_lt V hi)).2 (.inl hf)
  · exact (h3 u (w.div_lt V (V.lt h))).2 (.inr rfl)

/-- Writing labels. -/
theorem Walk.write (V : View D At kid clean) (ho : OrdOk At ord) {us us' t S} (w : Walk D At kid ord us t S) (hw : Writes At kid ord us us') :
    Walk D At kid ord us' t S :=
  ⟨hw.len.trans w.ulen, w.tlen, w.zero.trans hw, fun h hf hS => ⟨(w.done h hf hS).1.mono V ho hw h, (w.done h hf hS).2⟩⟩

/-- Leaving a finished unit. -/
theorem Walk.leave (V : View D At kid clean) {us t S} {u L} (w : Walk D At kid ord us t (u :: S)) (h : At u L) (hS : u ∉ S)
    (hr : Right kid ord us u L) (hk : ∀ l ∈ heads L, Fixed t (kid u l) ∧ kid u l ∉ S) : Walk D At kid ord us t S := by
  refine ⟨w.ulen, w.tlen, w.zero, ?_⟩
  intro u' L' h' hf hS'
  by_cases he : u' = u
  · subst he
    rw [V.func h' h]
    exact ⟨hr, hk⟩
  · obtain ⟨a1, a2⟩ := w.done h' hf (by simp [he, hS'])
    refine ⟨a1, fun l hl => ⟨(a2 l hl).1, fun hc => (a2 l hl).2 (List.mem_cons_of_mem _ hc)⟩⟩

/-- A unit whose last sibling and missing child have not been written. -/
theorem Walk.child_zero (V : View D At kid clean) {us t S} (w : Walk D At kid ord us t S) {u L} (h : At u L) (hz : (ord L).headD 0 = 0) :
    ∃ g, us[u]? = some g ∧ g.child = (ord L).headD 0 := by
  have hu : u < us.length := by rw [w.ulen]; exact V.lt h
  refine ⟨us[u], by simp [hu], ?_⟩
  rcases w.zero.child (i := u) (g := ⟨0, 0⟩) (by simp [V.lt h]) (List.getElem?_eq_getElem hu) with e | e
  · rw [e, hz]
  · exact e.eq V h

theorem Walk.sib_zero (V : View D At kid clean) (ho : OrdOk At ord) {us t S} (w : Walk D At kid ord us t S) {u L pre l post} (h : At u L)
    (hL : ord L = pre ++ l :: post) (hz : post.headD 0 = 0) : ∃ g, us[kid u l]? = some g ∧ g.sibling = post.headD 0 := by
  have hl : l ∈ arcs L := (ho h).1 l (by rw [hL]; simp)
  have hu : kid u l < us.length := by rw [w.ulen]; exact V.kid_lt h hl
  refine ⟨us[kid u l], by simp [hu], ?_⟩
  rcases w.zero.sibling (i := kid u l) (g := ⟨0, 0⟩) (by simp [V.kid_lt h hl]) (List.getElem?_eq_getElem hu) with e | e
  · rw [e, hz]
  · exact e.eq V ho h hL

/-- The finished guide. -/
theorem Walk.finish (V : View D At kid clean) {us t acc} (h0 : At 0 acc) (w : Walk D At kid ord us t []) (hf : Fixed t 0) :
    GuideIs D (Reach kid acc) kid ord ⟨us⟩ := by
  have all : ∀ {u L}, Reach kid acc u L → Fixed t u := by
    intro u L h
    induction h with
    | root => exact hf
    | @step u L l h hl ih => exact ((w.done (h.at V h0) ih (by simp)).2 l hl).1
  refine ⟨w.ulen, ?_, ?_⟩
  · intro u L h
    obtain ⟨g, h1, h2⟩ := (w.done (h.at V h0) (all h) (by simp)).1.1
    simp only [Guide.child, rd_some h1, ok_bind, pure_eq_ok, h2]
  · intro u L pre l post h hL
    obtain ⟨g, h1, h2⟩ := (w.done (h.at V h0) (all h) (by simp)).1.2 pre l post hL
    simp only [Guide.sibling, rd_some h1, ok_bind, pure_eq_ok, h2]

/-- `x` lies above the language `L`: it has a longer key. -/
def Above (At : Nat → Lang → Prop) (L : Lang) (x : Nat) : Prop := ∃ Lx, At x Lx ∧ ∃ m ∈ Lx, ∀ e ∈ L, e.1.length < m.1.length

theorem Above.ne (V : View D At kid clean) {u L x} (h : At u L) (ha : Above At L x) : x ≠ u := by
  rintro rfl
  obtain ⟨Lx, h1, m, h2, h3⟩ := ha
  rw [V.func h1 h] at h2
  exact absurd (h3 m h2) (by omega)

theorem Above.down {L x l} (ha : Above At L x) : Above At (residual L [l]) x := by
  obtain ⟨Lx, h1, m, h2, h3⟩ := ha
  refine ⟨Lx, h1, m, h2, fun e he => ?_⟩
  obtain ⟨e', he', h4, _⟩ := depth_lt he
  have := h3 e' he'
  rw [h4] at this
  simp only [List.length_cons] at this; omega

theorem Above.self (V : View D At kid clean) {u L} (h : At u L) (l : UInt8) : Above At (residual L [l]) u := by
  obtain ⟨m, hm, hall⟩ := exists_longest (V.ne h)
  refine ⟨L, h, m, hm, fun e he => ?_⟩
  obtain ⟨e', he', h4, _⟩ := depth_lt he
  have := hall e' he'
  rw [h4] at this
  simp only [List.length_cons] at this; omega

end
end Dawg.Guided
