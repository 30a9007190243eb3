import Verif.Proof.Guide.Build
/-! # `BuildRankedGuideCmp` -/
namespace Dawg.Guided
attribute [-simp] List.length_flatten
open Dawg.Abs Dawg.Spec Dawg.Dict GuideBuilder

/-- The value of the empty key. -/
def hereV (L : Lang) : Int := ((L.find? (fun e => e.1 == [])).map (fun e => Int.ofNat e.2)).getD 0

/-- The links of a state in their final order; the first argument bounds the depth. -/
def rlinksN (sorter : Sorter) (cmp : Int → Int → Bool) : Nat → Lang → List Link
  | 0, _ => []
  | n + 1, L => sorter (linkCmp cmp)
      ((arcs L).map fun l => ⟨l, if l = 0 then hereV L else ((rlinksN sorter cmp n (residual L [l])).head?.map Link.value).getD 0⟩)

section
variable {D : Dictionary} {At : Nat → Lang → Prop} {kid : Nat → UInt8 → Nat} {clean : UInt8 → Prop} {d : Dawg} {DAt : Nat → Lang → Prop}
  {sorter : Sorter} {cmp : Int → Int → Bool}

theorem rlinksN_stable : ∀ (n m : Nat) {L : Lang}, L ≠ [] → (∀ e ∈ L, e.1.length < n) → n ≤ m → rlinksN sorter cmp m L = rlinksN sorter cmp n L
  | 0, m, L, hne, hl, _ => by
    obtain ⟨e, he⟩ := List.exists_mem_of_ne_nil _ hne
    exact absurd (hl e he) (by omega)
  | n + 1, m, L, hne, hl, hm => by
    obtain ⟨m, rfl⟩ : ∃ k, m = k + 1 := ⟨m - 1, by omega⟩
    rw [rlinksN, rlinksN]
    congr 1
    apply List.map_congr_left
    intro l hla
    by_cases h0 : l = 0
    · rw [if_pos h0, if_pos h0]
    · rw [if_neg h0, if_neg h0]
      have hh : l ∈ heads L := by
        rcases mem_arcs.1 hla with ⟨h, _⟩ | h
        · exact absurd h h0
        · exact h
      rw [rlinksN_stable n m (mem_heads.1 hh) (by
        intro e he
        obtain ⟨e', he', h4, _⟩ := depth_lt he
        have := hl e' he'
        rw [h4] at this
        simp only [List.length_cons] at this; omega) (by omega)]

variable (sorter cmp D) in
/-- The links of a state of the dictionary in their final order. -/
def rlinks (L : Lang) : List Link := rlinksN sorter cmp (D.size + 1) L

variable (sorter cmp D) in
/-- The order of the transitions. -/
def rord (L : Lang) : List UInt8 := (rlinks D sorter cmp L).map Link.label

variable (sorter cmp D) in
/-- The value of the first transition. -/
def rbest (L : Lang) : Int := ((rlinks D sorter cmp L).head?.map Link.value).getD 0

variable (sorter cmp D) in
/-- The link of a transition. -/
def mkLink (L : Lang) (l : UInt8) : Link := ⟨l, if l = 0 then hereV L else rbest D sorter cmp (residual L [l])⟩

theorem rlinks_eq (V : View D At kid clean) {u L} (h : At u L) :
    rlinks D sorter cmp L = sorter (linkCmp cmp) ((arcs L).map (mkLink D sorter cmp L)) := by
  unfold rlinks
  rw [rlinksN]
  congr 1
  apply List.map_congr_left
  intro l hla
  unfold mkLink
  by_cases h0 : l = 0
  · rw [if_pos h0, if_pos h0]
  · rw [if_neg h0, if_neg h0]
    have hh : l ∈ heads L := by
      rcases mem_arcs.1 hla with ⟨h, _⟩ | h
      · exact absurd h h0
      · exact h
    unfold rbest rlinks
    rw [rlinksN_stable D.size (D.size + 1) (mem_heads.1 hh) (fun e he => by have := V.depth (V.step h hh) e he; omega) (by omega)]

theorem arcs_nodup (V : View D At kid clean) {u L} (h : At u L) : (arcs L).Nodup := by
  unfold arcs
  by_cases hany : L.any (fun e => e.1 == []) = true
  · rw [if_pos hany, List.singleton_append, List.nodup_cons]
    exact ⟨fun h0 => V.heads_ne_zero h h0 rfl, heads_nodup L⟩
  · rw [if_neg hany]; exact heads_nodup L

theorem rord_perm (hp : ∀ less l, (sorter less l).Perm l) (V : View D At kid clean) {u L} (h : At u L) : (rord D sorter cmp L).Perm (arcs L) := by
  unfold rord
  rw [rlinks_eq V h]
  refine ((hp _ _).map _).trans ?_
  rw [List.map_map, show (Link.label ∘ mkLink D sorter cmp L) = id from funext (fun _ => rfl), List.map_id]

theorem ordOk_rord (hp : ∀ less l, (sorter less l).Perm l) (V : View D At kid clean) : OrdOk At (rord D sorter cmp) :=
  fun {_ _} h => ⟨fun _ hl => (rord_perm hp V h).mem_iff.1 hl, (rord_perm hp V h).nodup_iff.2 (arcs_nodup V h)⟩

/-- Every link is the link of its label. -/
theorem rlinks_mk (hp : ∀ less l, (sorter less l).Perm l) (V : View D At kid clean) {u L} (h : At u L) : ∀ k ∈ rlinks D sorter cmp L, k = mkLink D sorter cmp L k.label := by
  intro k hk
  rw [rlinks_eq V h, (hp _ _).mem_iff] at hk
  obtain ⟨l, _, rfl⟩ := List.mem_map.1 hk
  rfl

theorem View.hereV (V : View D At kid clean) {u L v} (h : At u L) (hv : (([] : Key), v) ∈ L) : hereV L = Int.ofNat v := by
  rcases V.shape h with ⟨h1, _⟩ | ⟨w, h1, h2⟩
  · exact absurd rfl (h1 _ hv)
  · have hw : v = w := by
      rw [h1] at hv
      rcases List.mem_cons.1 hv with hv | hv
      · cases hv; rfl
      · exact absurd rfl (h2 _ hv)
    subst hw
    unfold Guided.hereV
    rw [h1]
    simp

theorem arcs_ne (V : View D At kid clean) {u L} (h : At u L) : arcs L ≠ [] := by
  intro hc
  obtain ⟨⟨k, v⟩, he⟩ := List.exists_mem_of_ne_nil _ (V.ne h)
  cases k with
  | nil =>
    have : (0 : UInt8) ∈ arcs L := mem_arcs.2 (.inl ⟨rfl, v, he⟩)
    rw [hc] at this; simp at this
  | cons a k =>
    have : a ∈ arcs L := heads_arcs (mem_heads.2 (List.ne_nil_of_mem (show (k, v) ∈ residual L [a] by rw [mem_residual]; exact he)))
    rw [hc] at this; simp at this

theorem rlinks_cons (hp : ∀ less l, (sorter less l).Perm l) (V : View D At kid clean) {u L} (h : At u L) :
    ∃ l ls, rord D sorter cmp L = l :: ls ∧ rbest D sorter cmp L = (mkLink D sorter cmp L l).value ∧ l ∈ arcs L ∧
      ∃ ks, rlinks D sorter cmp L = mkLink D sorter cmp L l :: ks := by
  have h1 := rord_perm (cmp := cmp) hp V h
  have h2 := rlinks_mk (cmp := cmp) hp V h
  cases hr : rlinks D sorter cmp L with
  | nil =>
    unfold rord at h1
    rw [hr] at h1
    exact absurd h1.symm.eq_nil (arcs_ne V h)
  | cons k ks =>
    have hk := h2 k (by rw [hr]; simp)
    refine ⟨k.label, ks.map Link.label, by unfold rord; rw [hr]; rfl, ?_, h1.mem_iff.1 (by unfold rord; rw [hr]; simp), ks, by rw [← hk]⟩
    unfold rbest
    rw [hr, ← hk]; rfl

/-! ## Values of visited units -/

theorem findMaxValue_spec (hp : ∀ less l, (sorter less l).Perm l) (V : View D At kid clean) {us t S} (w : Walk D At kid (rord D sorter cmp) us t S) : ∀ (fuel : Nat) {u L},
    At u L → Fixed t u → u ∉ S → (∀ e ∈ L, e.1.length < fuel) → RankedBuilder.findMaxValue D us fuel u = .ok (some (rbest D sorter cmp L)) := by
  intro fuel
  induction fuel with
  | zero =>
    intro u L h _ _ hfu
    obtain ⟨e, he⟩ := List.exists_mem_of_ne_nil _ (V.ne h)
    exact absurd (hfu e he) (by omega)
  | succ fuel ih =>
    intro u L h hf hS hfu
    obtain ⟨⟨⟨g, h1, h2⟩, _⟩, h3⟩ := w.done h hf hS
    obtain ⟨l, ls, h4, h5, h6, _⟩ := rlinks_cons (cmp := cmp) hp V h
    rw [h4, List.headD_cons] at h2
    rw [RankedBuilder.findMaxValue, rd_some h1]
    simp only [ok_bind, h2]
    rw [h5]
    unfold mkLink
    by_cases h0 : l = 0
    · subst h0
      rw [if_neg (by simp), if_pos rfl]
      rcases mem_arcs.1 h6 with ⟨_, v, hv⟩ | hh
      · rw [V.hasValue h, List.any_eq_true.2 ⟨_, hv, by simp⟩]
        simp only [ok_bind, Bool.not_true, Bool.false_eq_true, if_false, V.value h hv, V.hereV h hv]
        rfl
      · exact absurd rfl (V.heads_ne_zero h hh)
    · rw [if_pos h0, if_neg h0]
      have hh : l ∈ heads L := by
        rcases mem_arcs.1 h6 with ⟨h, _⟩ | h
        · exact absurd h h0
        · exact h
      rw [V.follow h hh]
      simp only [ok_bind]
      exact ih (V.step h hh) (h3 l hh).1 (h3 l hh).2 (by
        intro e he
        obtain ⟨e', he', h4, _⟩ := depth_lt he
        have := hfu e' he'
        rw [h4] at this
        simp only [List.length_cons] at this; omega)

/-! ## Writing the order -/

theorem turnLoop_spec (hp : ∀ less l, (sorter less l).Perm l) (V : View D At kid clean) {u : Nat} {L : Lang} (h : At u L) {t S} : ∀ (ks : List Link) {us A l},
    rord D sorter cmp L = A ++ l :: ks.map Link.label → Walk D At kid (rord D sorter cmp) us t S →
    ∃ us', RankedBuilder.turnLoop D u ks us (kid u l) = .ok us' ∧ Writes At kid (rord D sorter cmp) us us' ∧
      ∀ B m post, l :: ks.map Link.label = B ++ m :: post → ∃ g, us'[kid u m]? = some g ∧ g.sibling = post.headD 0
  | [], us, A, l, hL, w => by
    refine ⟨us, rfl, Writes.refl _, ?_⟩
    intro B m post hB
    cases B with
    | nil =>
      simp only [List.map_nil, List.nil_append, List.cons.injEq] at hB
      obtain ⟨rfl, rfl⟩ := hB
      exact w.sib_zero V (ordOk_rord hp V) h hL rfl
    | cons b B => simp at hB
  | k :: ks, us, A, l, hL, w => by
    have hl : l ∈ arcs L := (rord_perm hp V h).mem_iff.1 (by rw [hL]; simp)
    obtain ⟨us1, a1, a2, a3⟩ := setSibling_writes (At := At) (kid := kid) (ord := rord D sorter cmp) (us := us) (u := kid u l) (x := k.label)
      (by rw [w.ulen]; exact V.kid_lt h hl) ⟨u, L, A, l, (k :: ks).map Link.label, h, hL, rfl, rfl⟩
    obtain ⟨us2, b1, b2, b3⟩ := turnLoop_spec hp V h ks (us := us1) (A := A ++ [l]) (l := k.label) (by rw [hL]; simp) (w.write V (ordOk_rord hp V) a2)
    refine ⟨us2, ?_, a2.trans b2, ?_⟩
    · rw [RankedBuilder.turnLoop, V.fwc k.label h]
      simp only [ok_bind, a1]
      exact b1
    · intro B m post hB
      cases B with
      | nil =>
        simp only [List.nil_append, List.cons.injEq] at hB
        obtain ⟨rfl, rfl⟩ := hB
        exact sib_mono V (ordOk_rord hp V) b2 h hL a3
      | cons b B =>
        simp only [List.map_cons, List.cons_append, List.cons.injEq] at hB
        exact b3 B m post hB.2

theorem turnLinks_spec (hp : ∀ less l, (sorter less l).Perm l) (V : View D At kid clean) {u : Nat} {L : Lang} (h : At u L) {t S us}
    (w : Walk D At kid (rord D sorter cmp) us t S) : ∃ us', RankedBuilder.turnLinksToUnits D u (rlinks D sorter cmp L) us = .ok us' ∧
      Writes At kid (rord D sorter cmp) us us' ∧ Right kid (rord D sorter cmp) us' u L := by
  obtain ⟨l, ls, h1, _, _, ks, h2⟩ := rlinks_cons (cmp := cmp) hp V h
  have hls : rord D sorter cmp L = l :: ks.map Link.label := by unfold rord; rw [h2]; rfl
  obtain ⟨us1, a1, a2, a3⟩ := setChild_writes (At := At) (kid := kid) (ord := rord D sorter cmp) (us := us) (u := u) (x := l)
    (by rw [w.ulen]; exact V.lt h) ⟨L, h, by rw [hls]; rfl⟩
  obtain ⟨us2, b1, b2, b3⟩ := turnLoop_spec hp V h ks (us := us1) (A := []) hls (w.write V (ordOk_rord hp V) a2)
  refine ⟨us2, ?_, a2.trans b2, child_mono V b2 h (by rw [hls]; exact a3), ?_⟩
  · rw [h2, RankedBuilder.turnLinksToUnits]
    rw [show (mkLink D sorter cmp L l).label = l from rfl, a1]
    simp only [ok_bind]
    rw [V.fwc l h]
    exact b1
  · intro B m post hB
    rw [hls] at hB
    exact b3 B m post hB

/-! ## The walk -/

/-- What a call of `buildIndices`, or of any other function `f` in its place, does. -/
def RCall (D : Dictionary) (At : Nat → Lang → Prop) (kid : Nat → UInt8 → Nat) (DAt : Nat → Lang → Prop) (sorter : Sorter) (cmp : Int → Int → Bool)
    (f : RankedBuilder → Nat → Nat → Go (RankedBuilder × Option Int)) (fuel : Nat) : Prop :=
  ∀ {us t S u L i}, Walk D At kid (rord D sorter cmp) us t S → At u L → DAt i L → (∀ x ∈ S, Above At L x) → (∀ e ∈ L, e.1.length < fuel) →
    ∃ us' t', f ⟨us, t⟩ i u = .ok (⟨us', t'⟩, some (rbest D sorter cmp L)) ∧
      Walk D At kid (rord D sorter cmp) us' t' S ∧ Writes At kid (rord D sorter cmp) us us' ∧
      (∀ i, i < D.size → Fixed t i → Fixed t' i) ∧ Fixed t' u

theorem enumerateLinks_spec (V : View D At kid clean) {f : RankedBuilder → Nat → Nat → Go (RankedBuilder × Option Int)} {fuel : Nat} (IH : RCall D At kid DAt sorter cmp f fuel) {u : Nat} {L : Lang} (h : At u L) {S : List Nat}
    (hS : ∀ x ∈ S, Above At L x) (hfu : ∀ e ∈ L, e.1.length < fuel + 1) {ks : List Nat} {ls : List UInt8} (hk : DKids d DAt L ks ls) :
    ∀ {us t}, (∀ l ∈ ls, l ∈ arcs L) → Walk D At kid (rord D sorter cmp) us t (u :: S) →
    ∃ us' t', RankedBuilder.enumerateLinks d D (fun rb i x => f rb i x) u ks ⟨us, t⟩ =
        .ok (⟨us', t'⟩, some (ls.map (mkLink D sorter cmp L))) ∧ Walk D At kid (rord D sorter cmp) us' t' (u :: S) ∧
      Writes At kid (rord D sorter cmp) us us' ∧ (∀ i, i < D.size → Fixed t i → Fixed t' i) ∧ (∀ l ∈ ls, l ≠ 0 → Fixed t' (kid u l)) := by
  induction hk with
  | nil =>
    intro us t _ w
    exact ⟨us, t, rfl, w, Writes.refl _, fun _ _ h => h, by simp⟩
  | @cons k ks l ls hk0 hlab hsib hnext hrest ih =>
    intro us t hls w
    have hl : l ∈ arcs L := hls l (by simp)
    obtain ⟨us1, t1, e1, w1, hw1, m1, f1⟩ : ∃ us1 t1, (do
        if l = 0 then do
          if !(← D.hasValue u) then pure (⟨us, t⟩, none)
          else pure (⟨us, t⟩, some (Int.ofNat (← D.value u)))
        else
          match ← D.follow l u with
          | none => pure (⟨us, t⟩, none)
          | some x => f ⟨us, t⟩ k x : Go (RankedBuilder × Option Int)) =
          .ok (⟨us1, t1⟩, some (mkLink D sorter cmp L l).value) ∧ Walk D At kid (rord D sorter cmp) us1 t1 (u :: S) ∧ Writes At kid (rord D sorter cmp) us us1 ∧
        (∀ i, i < D.size → Fixed t i → Fixed t1 i) ∧ (l ≠ 0 → Fixed t1 (kid u l)) := by
      by_cases h0 : l = 0
      · subst h0
        rcases mem_arcs.1 hl with ⟨_, v, hv⟩ | hh
        · refine ⟨us, t, ?_, w, Writes.refl _, fun _ _ h => h, by simp⟩
          rw [if_pos rfl, V.hasValue h, List.any_eq_true.2 ⟨_, hv, by simp⟩]
          simp only [ok_bind, Bool.not_true, Bool.false_eq_true, if_false, V.value h hv, mkLink, if_true, V.hereV h hv]
          rfl
        · exact absurd rfl (V.heads_ne_zero h hh)
      · have hh : l ∈ heads L := by
          rcases mem_arcs.1 hl with ⟨h, _⟩ | h
          · exact absurd h h0
          · exact h
        obtain ⟨us1, t1, e1, w1, hw1, m1, f1⟩ := IH (i := k) w (V.step h hh) (hnext h0)
          (by
            intro x hx
            rcases List.mem_cons.1 hx with rfl | hx
            · exact Above.self V h l
            · exact (hS x hx).down)
          (by
            intro e he
            obtain ⟨e', he', h4, _⟩ := depth_lt he
            have := hfu e' he'
            rw [h4] at this
            simp only [List.length_cons] at this; omega)
        refine ⟨us1, t1, ?_, w1, hw1, m1, fun _ => f1⟩
        rw [if_neg h0, V.follow h hh]
        simp only [ok_bind]
        rw [e1]
        unfold mkLink
        rw [if_neg h0]
    obtain ⟨us2, t2, e2, w2, hw2, m2, f2⟩ := ih (us := us1) (t := t1) (fun x hx => hls x (List.mem_cons_of_mem _ hx)) w1
    refine ⟨us2, t2, ?_, w2, hw1.trans hw2, fun i hi hf => m2 i hi (m1 i hi hf), ?_⟩
    · have tail : ∀ x : Go (RankedBuilder × Option Int), x = .ok (⟨us1, t1⟩, some (mkLink D sorter cmp L l).value) → (do
          let __x ← x
          match __x.snd with
          | none => pure (__x.fst, none)
          | some v => do
            let __x ← RankedBuilder.enumerateLinks d D (fun rb i x => f rb i x) u ks __x.fst
            pure (__x.fst, __x.snd.map (fun x => ({ label := l, value := v } : Link) :: x)) : Go (RankedBuilder × Option (List Link))) =
          .ok (⟨us2, t2⟩, some ((l :: ls).map (mkLink D sorter cmp L))) := by
        rintro x rfl
        simp only [ok_bind, e2, pure_eq_ok, Option.map_some, List.map_cons]
        rfl
      rw [RankedBuilder.enumerateLinks, hlab]
      simp only [ok_bind]
      by_cases h0 : l = 0
      · rw [if_pos h0] at e1 ⊢
        rw [← tail _ e1]
        simp only [bind_assoc]
        congr 1
        funext b
        cases b
        · rfl
        · simp only [Bool.not_true, Bool.false_eq_true, if_false, bind_assoc]; rfl
      · rw [if_neg h0] at e1 ⊢
        rw [← tail _ e1]
        simp only [bind_assoc]
        congr 1
        funext b
        cases b <;> rfl
    · intro m hm h0
      rcases List.mem_cons.1 hm with rfl | hm
      · exact m2 _ (V.kid_lt h hl) (f1 h0)
      · exact f2 m hm h0

theorem ranked_call (hp : ∀ less l, (sorter less l).Perm l) (V : View D At kid clean) (W : DView d DAt) : ∀ fuel, RCall D At kid DAt sorter cmp (RankedBuilder.buildIndices sorter d D cmp fuel) fuel := by
  intro fuel
  induction fuel with
  | zero =>
    intro us t S u L i _ h _ _ hfu
    obtain ⟨e, he⟩ := List.exists_mem_of_ne_nil _ (V.ne h)
    exact absurd (hfu e he) (by omega)
  | succ fuel IH =>
    intro us t S u L i w h hi hS hfu
    have huS : u ∉ S := fun hu => (hS u hu).ne V h rfl
    have hdiv := w.div_lt V (V.lt h)
    by_cases hf : Fixed t u
    · refine ⟨us, t, ?_, w, Writes.refl _, fun _ _ h => h, hf⟩
      have := findMaxValue_spec hp V w (D.size + 1) h hf huS (fun e he => by have := V.depth h e he; omega)
      unfold Fixed at hf
      rw [RankedBuilder.buildIndices]
      simp only [hf, ok_bind, if_true, this, pure_eq_ok]
    · obtain ⟨t1, e1, w1, m1, f1⟩ := w.enter V h hf
      obtain ⟨ks, k1, k2, k3⟩ := W.kids hi
      have hks : ks ≠ [] := by
        rintro rfl
        have := arcs_ne V h
        generalize arcs L = A at k2 this
        cases k2
        exact this rfl
      have hkids : DictBuilder.dawgKids d i = .ok ks := by
        unfold DictBuilder.dawgKids
        rw [k1]
        simp only [ok_bind]
        have hne : ks.headD 0 ≠ 0 := by
          generalize arcs L = A at k2
          cases k2 with
          | nil => exact absurd rfl hks
          | cons hk0 _ _ _ _ => exact hk0
        rw [if_neg hne]
        exact k2.chain hks (by omega)
      obtain ⟨us2, t2, a1, a2, a3, a4, a5⟩ := enumerateLinks_spec V IH h hS hfu k2 (fun _ h => h) w1
      obtain ⟨us3, b1, b2, b3⟩ := turnLinks_spec hp V h a2
      refine ⟨us3, t2, ?_, ?_, a3.trans b2, fun i hi hf => a4 i hi (m1 i hf hi), a4 u (V.lt h) f1⟩
      · rw [RankedBuilder.buildIndices]
        simp only [not_fixed hdiv hf, ok_bind, Bool.false_eq_true, if_false, e1, hkids, a1, ← rlinks_eq V h, b1]
        obtain ⟨l, ls, _, c2, _, ks', c3⟩ := rlinks_cons (cmp := cmp) hp V h
        rw [c2, c3]
        rfl
      · refine (a2.write V (ordOk_rord hp V) b2).leave V h huS b3 (fun l hl => ⟨a5 l (heads_arcs hl) (V.heads_ne_zero h hl), fun hc => ?_⟩)
        exact (hS _ hc).down.ne V (V.step h hl) rfl

/-- `BuildRankedGuideCmp` on a Dawg with at least one key, for every sorting routine that permutes. -/
theorem buildRanked_spec (hp : ∀ less l, (sorter less l).Perm l) (V : View D At kid clean) (W : DView d DAt) {acc : Lang} (h0 : At 0 acc) (hd0 : DAt 0 acc) :
    ∃ gd, buildRankedGuideCmp sorter d D cmp = .ok (some gd) ∧ GuideIs D (Reach kid acc) kid (rord D sorter cmp) gd := by
  have hdep := W.depth hd0
  obtain ⟨e, he⟩ := List.exists_mem_of_ne_nil _ (V.ne h0)
  have h2 := hdep e he
  obtain ⟨us, t, e1, w, _, _, f⟩ := ranked_call (cmp := cmp) hp V W (d.size + 1) (Walk.start (ord := rord D sorter cmp) V) h0 hd0 (by simp)
    (fun e he => by have := hdep e he; omega)
  refine ⟨⟨us⟩, ?_, w.finish V h0 f⟩
  unfold buildRankedGuideCmp RankedBuilder.build
  simp only
  rw [if_neg (by omega), show d.root = 0 from rfl, show D.root = 0 from rfl, e1]
  rfl

end
end Dawg.Guided
