import Verif.Proof.Guide.Fill
/-! # `BuildGuide` -/
namespace Dawg.Guided
attribute [-simp] List.length_flatten
open Dawg.Abs Dawg.Spec Dawg.Dict GuideBuilder

/-! ## The Dawg as an automaton of languages -/

/-- A chain of siblings with the labels `ls`. -/
inductive DKids (d : Dawg) (DAt : Nat → Lang → Prop) (L : Lang) : List Nat → List UInt8 → Prop
  | nil : DKids d DAt L [] []
  | cons {k ks l ls} : k ≠ 0 → d.label k = .ok l → d.sibling k = .ok (ks.headD 0) → (l ≠ 0 → DAt k (residual L [l])) → DKids d DAt L ks ls →
      DKids d DAt L (k :: ks) (l :: ls)

/-- `DAt i L`: behind the transition `i` the language `L` is left. -/
structure DView (d : Dawg) (DAt : Nat → Lang → Prop) : Prop where
  kids : ∀ {i L}, DAt i L → ∃ ks, d.child i = .ok (ks.headD 0) ∧ DKids d DAt L ks (arcs L) ∧ ks.length < d.size
  depth : ∀ {i L}, DAt i L → ∀ e ∈ L, e.1.length + 1 < d.size
  label0 : ∃ x, d.label 0 = .ok x

theorem DKids.chain {d DAt L ks ls} (h : DKids d DAt L ks ls) : ∀ {fuel}, ks ≠ [] → ks.length < fuel → d.chain fuel (ks.headD 0) = .ok ks := by
  induction h with
  | nil => intro _ h; exact absurd rfl h
  | @cons k ks l ls hk hl hs _ hr ih =>
    intro fuel _ hf
    obtain ⟨fuel, rfl⟩ : ∃ n, fuel = n + 1 := ⟨fuel - 1, by omega⟩
    rw [Dawg.chain, List.headD_cons, hs]
    simp only [ok_bind]
    cases ks with
    | nil => rfl
    | cons k' ks =>
      have hk' : k' ≠ 0 := by cases hr; assumption
      rw [List.headD_cons, if_neg hk']
      have := ih (fuel := fuel) (by simp) (by simp only [List.length_cons] at hf ⊢; omega)
      rw [List.headD_cons] at this
      rw [this]
      rfl

theorem arcs_eq {gs g L} (h : DenG gs g L) (hne : ∀ g ∈ gs, g ≠ []) (ha : Asc g) : arcs L = g.map Prod.fst := by
  rcases DenG.shape h hne ha with ⟨_, h1, h2, _⟩ | ⟨b, rest, M, rfl, _, rfl, _, _, h2, _⟩
  · unfold arcs
    rw [if_neg, List.nil_append, h2]
    simp only [List.any_eq_true, beq_iff_eq, not_exists, not_and]
    exact fun e he => h1 e he
  · unfold arcs
    rw [if_pos (by simp), h2]; rfl

/-- The transition `i` leads to the state at `s`. -/
def DAtN (d : Dawg) (c : Core) (i : Nat) (L : Lang) : Prop := ∃ s g, d.child i = .ok s ∧ IsStart c.groups s g ∧ DenG c.groups g L

theorem dview {d : Dawg} {c r acc} (hd : DawgIs d c r) (hf : FinalCore c r acc) : DView d (DAtN d c) := by
  have hne := hf.cinv.ne
  refine ⟨?_, ?_, ⟨_, hd.label_root⟩⟩
  · rintro i L ⟨s, g, h1, h2, h3⟩
    have ha := hf.cinv.asc _ h2.mem
    refine ⟨(List.range' 0 g.length).map (s + ·), ?_, ?_, ?_⟩
    · have := List.length_pos_iff.2 (hne g h2.mem)
      obtain ⟨n, hn⟩ : ∃ n, g.length = n + 1 := ⟨g.length - 1, by omega⟩
      rw [h1, hn, List.range'_succ, List.map_cons, List.headD_cons]; rfl
    · rw [arcs_eq h3 hne ha]
      have : ∀ n j, j + n = g.length → DKids d (DAtN d c) L ((List.range' j n).map (s + ·)) ((g.drop j).map Prod.fst) := by
        intro n
        induction n with
        | zero =>
          intro j hj
          rw [List.drop_eq_nil_of_le (by omega)]
          exact .nil
        | succ n ih =>
          intro j hj
          have hjl : j < g.length := by omega
          have hget : g[j]? = some g[j] := by simp [hjl]
          rw [List.range'_succ, List.map_cons, List.drop_eq_getElem_cons hjl, List.map_cons]
          refine .cons ?_ (hd.label_at h2 hget) ?_ ?_ (ih (j + 1) (by omega))
          · have := h2.pos; omega
          · rw [hd.sibling_at hf h2 hget]
            cases n with
            | zero => rw [if_neg (by omega)]; rfl
            | succ n => rw [if_pos (by omega), List.range'_succ, List.map_cons, List.headD_cons]
          · intro h0
            obtain ⟨g', h4, h5⟩ := h3.child ha (List.getElem_mem hjl) h0
            exact ⟨_, g', hd.child_at h2 hget, h4, h5⟩
      simpa using this g.length 0 (by omega)
    · rw [List.length_map, List.length_range', hd.size_eq]
      have := h2.bound
      unfold poolLen at this
      have := h2.pos
      omega
  · rintro i L ⟨s, g, h1, h2, h3⟩ e he
    have := depth_bound hf.cinv h2.mem h3 e he
    rw [hd.size_eq]
    have := groups_le_flatten hne
    omega

/-! ## The walk -/

section
variable {D : Dictionary} {At : Nat → Lang → Prop} {kid : Nat → UInt8 → Nat} {clean : UInt8 → Prop} {d : Dawg} {DAt : Nat → Lang → Prop}

theorem ordOk_heads : OrdOk At heads := fun {_ L} _ => ⟨fun _ hl => heads_arcs hl, heads_nodup L⟩

theorem sib_mono {ord : Lang → List UInt8} (V : View D At kid clean) (ho : OrdOk At ord) {us us' : List GuideUnit} (hw : Writes At kid ord us us') {u L pre l post}
    (h : At u L) (hL : ord L = pre ++ l :: post) (hr : ∃ g, us[kid u l]? = some g ∧ g.sibling = post.headD 0) :
    ∃ g, us'[kid u l]? = some g ∧ g.sibling = post.headD 0 := by
  obtain ⟨g, h1, h2⟩ := hr
  have hlt : kid u l < us'.length := by rw [hw.len]; exact (List.getElem?_eq_some_iff.1 h1).1
  refine ⟨us'[kid u l], by simp [hlt], ?_⟩
  rcases hw.sibling h1 (List.getElem?_eq_getElem hlt) with e | e
  · rw [e, h2]
  · exact e.eq V ho h hL

theorem child_mono {ord : Lang → List UInt8} (V : View D At kid clean) {us us' : List GuideUnit} (hw : Writes At kid ord us us') {u L}
    (h : At u L) (hr : ∃ g, us[u]? = some g ∧ g.child = (ord L).headD 0) : ∃ g, us'[u]? = some g ∧ g.child = (ord L).headD 0 := by
  obtain ⟨g, h1, h2⟩ := hr
  have hlt : u < us'.length := by rw [hw.len]; exact (List.getElem?_eq_some_iff.1 h1).1
  refine ⟨us'[u], by simp [hlt], ?_⟩
  rcases hw.child h1 (List.getElem?_eq_getElem hlt) with e | e
  · rw [e, h2]
  · exact e.eq V h

/-- What a call of `buildIndices` does. -/
def GCall (D : Dictionary) (At : Nat → Lang → Prop) (kid : Nat → UInt8 → Nat) (d : Dawg) (DAt : Nat → Lang → Prop) (fuel : Nat) : Prop :=
  ∀ {us t S u L i}, Walk D At kid heads us t S → At u L → DAt i L → (∀ x ∈ S, Above At L x) → (∀ e ∈ L, e.1.length < fuel) →
    ∃ us' t', buildIndices d D fuel ⟨us, t⟩ i u = .ok (⟨us', t'⟩, true) ∧ Walk D At kid heads us' t' S ∧ Writes At kid heads us us' ∧
      (∀ i, i < D.size → Fixed t i → Fixed t' i) ∧ Fixed t' u

theorem kidsLoop_spec (V : View D At kid clean) (W : DView d DAt) {fuel : Nat} (IH : GCall D At kid d DAt fuel) {u : Nat} {L : Lang} (h : At u L) {S : List Nat}
    (hS : ∀ x ∈ S, Above At L x) (hfu : ∀ e ∈ L, e.1.length < fuel + 1) {ks : List Nat} {ls : List UInt8} (hk : DKids d DAt L ks ls) :
    ∀ {us t pre}, heads L = pre ++ ls → Walk D At kid heads us t (u :: S) →
    ∃ us' t', kidsLoop d D (fun gb i x => buildIndices d D fuel gb i x) u ks ⟨us, t⟩ = .ok (⟨us', t'⟩, true) ∧ Walk D At kid heads us' t' (u :: S) ∧
      Writes At kid heads us us' ∧ (∀ i, i < D.size → Fixed t i → Fixed t' i) ∧ (∀ l ∈ ls, Fixed t' (kid u l)) ∧
      ∀ pre l post, ls = pre ++ l :: post → ∃ g, us'[kid u l]? = some g ∧ g.sibling = post.headD 0 := by
  induction hk with
  | nil =>
    intro us t pre _ w
    exact ⟨us, t, rfl, w, Writes.refl _, fun _ _ h => h, by simp, by simp⟩
  | @cons k ks l ls hk0 hlab hsib hnext hrest ih =>
    intro us t pre hL w
    have hl : l ∈ heads L := by rw [hL]; simp
    have hl0 := V.heads_ne_zero h hl
    have hkid := V.step h hl
    obtain ⟨us1, t1, e1, w1, hw1, m1, f1⟩ := IH (i := k) w hkid (hnext hl0)
      (by
        intro x hx
        rcases List.mem_cons.1 hx with rfl | hx
        · exact Above.self V h l
        · exact (hS x hx).down)
      (by
        intro e he
        obtain ⟨e', he', h4, _⟩ := depth_lt he
        have := hfu e' he'
        rw [h4] at this
        simp only [List.length_cons] at this; omega)
    -- the sibling label
    obtain ⟨us2, e2, hw2, g2⟩ : ∃ us2, ((ks.headD 0 = 0 ∧ us2 = us1) ∨ (ks.headD 0 ≠ 0 ∧ setSibling us1 (kid u l) (ls.headD 0) = .ok us2)) ∧
        Writes At kid heads us1 us2 ∧ ∃ g, us2[kid u l]? = some g ∧ g.sibling = ls.headD 0 := by
      cases hrest with
      | nil =>
        refine ⟨us1, .inl ⟨rfl, rfl⟩, Writes.refl _, ?_⟩
        exact w1.sib_zero V ordOk_heads h hL rfl
      | @cons k' ks' l' ls' hk' _ _ _ _ =>
        rw [List.headD_cons, List.headD_cons]
        obtain ⟨us2, a1, a2, a3⟩ := setSibling_writes (At := At) (kid := kid) (ord := heads) (us := us1) (u := kid u l) (x := l')
          (by rw [w1.ulen]; exact V.kid_lt h (heads_arcs hl)) ⟨u, L, pre, l, l' :: ls', h, hL, rfl, rfl⟩
        exact ⟨us2, .inr ⟨hk', a1⟩, a2, a3⟩
    obtain ⟨us3, t3, e3, w3, hw3, m3, f3, s3⟩ := ih (pre := pre ++ [l]) (by rw [hL]; simp) (w1.write V ordOk_heads hw2)
    refine ⟨us3, t3, ?_, w3, (hw1.trans hw2).trans hw3, fun i hi hf => m3 i hi (m1 i hi hf), ?_, ?_⟩
    · rw [kidsLoop, hlab]
      simp only [ok_bind, V.follow h hl, e1, Bool.not_true, Bool.false_eq_true, if_false, hsib]
      have hsl : ∃ x, d.label (ks.headD 0) = .ok x ∧ (ks.headD 0 ≠ 0 → x = ls.headD 0) := by
        cases hrest with
        | nil => obtain ⟨x, hx⟩ := W.label0; exact ⟨x, hx, by simp⟩
        | cons _ hl' _ _ _ => exact ⟨_, hl', fun _ => rfl⟩
      obtain ⟨x, hx1, hx2⟩ := hsl
      rw [hx1]
      simp only [ok_bind]
      rcases e2 with ⟨hz, rfl⟩ | ⟨hz, e2⟩
      · rw [if_neg (by simp only [hz, ne_eq, not_true, not_false_eq_true])]
        simp only [pure_eq_ok, ok_bind]
        exact e3
      · rw [if_pos hz, hx2 hz, e2]
        simp only [pure_eq_ok, ok_bind]
        exact e3
    · intro l' hl'
      rcases List.mem_cons.1 hl' with rfl | hl'
      · exact m3 _ (V.kid_lt h (heads_arcs hl)) f1
      · exact f3 l' hl'
    · intro pre' l' post hp
      cases pre' with
      | nil =>
        simp only [List.nil_append, List.cons.injEq] at hp
        obtain ⟨rfl, rfl⟩ := hp
        exact sib_mono V ordOk_heads hw3 h hL g2
      | cons a pre' =>
        simp only [List.cons_append, List.cons.injEq] at hp
        exact s3 pre' l' post hp.2

theorem guide_call (V : View D At kid clean) (W : DView d DAt) : ∀ fuel, GCall D At kid d DAt fuel := by
  intro fuel
  induction fuel with
  | zero =>
    intro us t S u L i _ h _ _ hfu
    obtain ⟨e, he⟩ := List.exists_mem_of_ne_nil _ (V.ne h)
    exact absurd (hfu e he) (by omega)
  | succ fuel IH =>
    intro us t S u L i w h hi hS hfu
    have huS : u ∉ S := fun hu => (hS u hu).ne V h rfl
    have hdiv := w.div_lt V (V.lt h)
    by_cases hf : Fixed t u
    · refine ⟨us, t, ?_, w, Writes.refl _, fun _ _ h => h, hf⟩
      unfold Fixed at hf
      rw [buildIndices]
      simp only [hf, ok_bind, if_true, pure_eq_ok]
    · obtain ⟨t1, e1, w1, m1, f1⟩ := w.enter V h hf
      obtain ⟨ks, k1, k2, k3⟩ := W.kids hi
      rw [buildIndices]
      simp only [not_fixed hdiv hf, ok_bind, Bool.false_eq_true, if_false, e1, k1]
      -- the transitions without the terminal one
      have key : ∀ {ks' : List Nat}, DKids d DAt L ks' (heads L) → ks'.length < d.size → ks' ≠ [] →
          ∃ us' t', (do
              let l' ← d.label (ks'.headD 0)
              let us ← setChild us u l'
              let kids ← d.chain (d.size + 1) (ks'.headD 0)
              kidsLoop d D (fun gb i x => buildIndices d D fuel gb i x) u kids ⟨us, t1⟩ : Go (GuideBuilder × Bool)) = .ok (⟨us', t'⟩, true) ∧
            Walk D At kid heads us' t' S ∧ Writes At kid heads us us' ∧ (∀ i, i < D.size → Fixed t i → Fixed t' i) ∧ Fixed t' u := by
        intro ks' hk' hlen hne'
        have hlab : d.label (ks'.headD 0) = .ok ((heads L).headD 0) := by
          generalize heads L = A at hk'
          cases hk' with
          | nil => exact absurd rfl hne'
          | cons _ hl _ _ _ => exact hl
        obtain ⟨us2, a1, a2, a3⟩ := setChild_writes (At := At) (kid := kid) (ord := heads) (us := us) (u := u) (x := (heads L).headD 0)
          (by rw [w.ulen]; exact V.lt h) ⟨L, h, rfl⟩
        obtain ⟨us3, t3, b1, b2, b3, b4, b5, b6⟩ := kidsLoop_spec V W IH h hS hfu hk' (pre := []) rfl (w1.write V ordOk_heads a2)
        refine ⟨us3, t3, ?_, ?_, a2.trans b3, fun i hi hf => b4 i hi (m1 i hf hi), b4 u (V.lt h) f1⟩
        · rw [hlab]
          simp only [ok_bind, a1, hk'.chain hne' (show ks'.length < d.size + 1 by omega)]
          exact b1
        · refine b2.leave V h huS ⟨child_mono V b3 h a3, b6⟩ (fun l hl => ⟨b5 l hl, fun hc => ?_⟩)
          exact (hS _ hc).down.ne V (V.step h hl) rfl
      by_cases hany : L.any (fun e => e.1 == []) = true
      · -- terminal transition first
        have harcs : arcs L = 0 :: heads L := by unfold arcs; rw [if_pos hany]; rfl
        rw [harcs] at k2
        cases k2 with
        | @cons k ks' _ _ hk0 hlab hsib hnext hrest =>
          rw [List.headD_cons, hlab]
          simp only [ok_bind, if_true, hsib]
          cases ks' with
          | nil =>
            have hz : heads L = [] := by generalize heads L = A at hrest; cases hrest; rfl
            simp only [List.headD_nil, and_self, if_true, pure_eq_ok]
            refine ⟨us, t1, rfl, ?_, Writes.refl _, fun i hi hf => m1 i hf hi, f1⟩
            exact w1.leave V h huS ⟨w1.child_zero V h (by rw [hz]; rfl), by rw [hz]; simp⟩ (by rw [hz]; simp)
          | cons k' ks' =>
            have hk' : k' ≠ 0 := by generalize heads L = A at hrest; cases hrest; assumption
            rw [List.headD_cons, if_neg (by simp [hk'])]
            exact key hrest (by simp only [List.length_cons] at k3 ⊢; omega) (by simp)
      · have harcs : arcs L = heads L := by unfold arcs; rw [if_neg hany]; rfl
        rw [harcs] at k2
        have hne' : ks ≠ [] := by
          rintro rfl
          have hz : heads L = [] := by generalize heads L = A at k2; cases k2; rfl
          rcases V.shape h with ⟨_, h2⟩ | ⟨v, h2, _⟩
          · rw [hz] at h2; exact V.ne h h2
          · exact hany (by rw [h2]; simp)
        have hlab : d.label (ks.headD 0) = .ok ((heads L).headD 0) ∧ (heads L).headD 0 ≠ 0 := by
          have hnz : ∀ l ∈ heads L, l ≠ 0 := fun l hl => V.heads_ne_zero h hl
          generalize heads L = A at k2 hnz
          cases k2 with
          | nil => exact absurd rfl hne'
          | cons _ hl _ _ _ => exact ⟨hl, hnz _ (by simp)⟩
        have := key k2 k3 hne'
        rw [hlab.1] at this ⊢
        simp only [ok_bind] at this ⊢
        rw [if_neg hlab.2]
        simp only [pure_eq_ok, ok_bind]
        rw [if_neg (by intro hc; exact hlab.2 hc.1), hlab.1]
        simp only [ok_bind]
        exact this

/-- `BuildGuide` on a Dawg with at least one key. -/
theorem buildGuide_spec (V : View D At kid clean) (W : DView d DAt) {acc : Lang} (h0 : At 0 acc) (hd0 : DAt 0 acc) :
    ∃ gd, buildGuide d D = .ok (some gd) ∧ GuideIs D (Reach kid acc) kid heads gd := by
  have hdep := W.depth hd0
  obtain ⟨e, he⟩ := List.exists_mem_of_ne_nil _ (V.ne h0)
  have h2 := hdep e he
  obtain ⟨us, t, e1, w, _, _, f⟩ := guide_call V W (d.size + 1) (Walk.start (ord := heads) V) h0 hd0 (by simp)
    (fun e he => by have := hdep e he; omega)
  refine ⟨⟨us⟩, ?_, w.finish V h0 f⟩
  unfold buildGuide GuideBuilder.build
  simp only
  rw [if_neg (by omega), show d.root = 0 from rfl, show D.root = 0 from rfl, e1]
  rfl

end
end Dawg.Guided
