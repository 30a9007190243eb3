import Verif.Proof.Guide.RankedIndex
/-! # Indexes over guides in which the terminal transition comes before others

`buildIndices` walks the children in the order of the guide and ends at the first label 0.  In a ranked guide this
is the terminal transition, so that the children behind it are not counted. -/
namespace Dawg.Guided
attribute [-simp] List.length_flatten
open Dawg.Abs Dawg.Spec Dawg.Dict

/-- The transitions before the terminal one. -/
def cutOf (ord : Lang → List UInt8) (L : Lang) : List UInt8 := (ord L).takeWhile (fun l => l != 0)

/-- The keys in the order in which an index finds them, to the depth `n`. -/
def findable (ord : Lang → List UInt8) : Nat → Lang → List Key
  | 0, _ => []
  | n + 1, L => (if L.any (fun e => e.1 == []) then [[]] else []) ++
      (cutOf ord L).flatMap (fun l => (findable ord n (residual L [l])).map (fun k => l :: k))

/-- Whether an index finds the key. -/
def seen (ord : Lang → List UInt8) : Lang → Key → Prop
  | _, [] => True
  | L, b :: k => b ∈ cutOf ord L ∧ seen ord (residual L [b]) k

theorem takeWhile_cut : ∀ l : List UInt8, ∃ Y, l = l.takeWhile (fun x => x != 0) ++ Y ∧ Y.headD 0 = 0 ∧ ∀ x ∈ l.takeWhile (fun x => x != 0), x ≠ 0
  | [] => ⟨[], rfl, rfl, by simp⟩
  | a :: l => by
    by_cases ha : a = 0
    · subst ha
      exact ⟨0 :: l, by simp, rfl, by simp⟩
    · obtain ⟨Y, h1, h2, h3⟩ := takeWhile_cut l
      refine ⟨Y, ?_, h2, ?_⟩
      · rw [List.takeWhile_cons_of_pos (by simpa using ha), List.cons_append, ← h1]
      · rw [List.takeWhile_cons_of_pos (by simpa using ha)]
        intro x hx
        rcases List.mem_cons.1 hx with rfl | hx
        · exact ha
        · exact h3 x hx

section
variable {D : Dictionary} {At : Nat → Lang → Prop} {kid : Nat → UInt8 → Nat} {clean : UInt8 → Prop} {ord : Lang → List UInt8} {gd : Guide} {idx : Index}

theorem cut_tail (ord : Lang → List UInt8) (L : Lang) : ∃ Y, ord L = cutOf ord L ++ Y ∧ Y.headD 0 = 0 := by
  obtain ⟨Y, h1, h2, _⟩ := takeWhile_cut (ord L)
  exact ⟨Y, h1, h2⟩

theorem cut_heads (ho : OrdPerm At ord) {u L} (h : At u L) {l : UInt8} (hl : l ∈ cutOf ord L) : l ∈ heads L := by
  obtain ⟨Y, h1, _, h3⟩ := takeWhile_cut (ord L)
  have hm : l ∈ ord L := by rw [h1]; exact List.mem_append_left _ hl
  rcases mem_arcs.1 ((ho h).mem_iff.1 hm) with ⟨hz, _⟩ | hh
  · exact absurd hz (h3 l hl)
  · exact hh

theorem cut_nodup (V : View D At kid clean) (ho : OrdPerm At ord) {u L} (h : At u L) : (cutOf ord L).Nodup := by
  obtain ⟨Y, h1, _⟩ := cut_tail ord L
  have := ((ho h).nodup_iff).2 (arcs_nodup V h)
  rw [h1, List.nodup_append] at this
  exact this.1

theorem cut_length (V : View D At kid clean) (ho : OrdPerm At ord) {u L} (h : At u L) : (cutOf ord L).length ≤ 256 := by
  have := (cut_nodup V ho h).length_le_of_subset (l₂ := heads L) (fun l hl => cut_heads ho h hl)
  exact Nat.le_trans this (heads_length L)

theorem arcs_length (V : View D At kid clean) {u L} (h : At u L) : (arcs L).length ≤ 256 := by
  have := (arcs_nodup V h).length_le_of_subset (l₂ := (List.range 256).map UInt8.ofNat) (fun x _ =>
    List.mem_map.2 ⟨x.toNat, List.mem_range.2 x.toNat_lt, UInt8.ofNat_toNat⟩)
  simpa using this

/-- Without a terminal transition nothing is cut. -/
theorem cut_all (V : View D At kid clean) (ho : OrdPerm At ord) {u L} (h : At u L) (hn : ∀ e ∈ L, e.1 ≠ []) {l : UInt8} (hl : l ∈ heads L) : l ∈ cutOf ord L := by
  obtain ⟨Y, h1, h2⟩ := cut_tail ord L
  have hm : l ∈ ord L := (ho h).mem_iff.2 (mem_arcs.2 (.inr hl))
  rw [h1] at hm
  rcases List.mem_append.1 hm with hm | hm
  · exact hm
  · exfalso
    cases Y with
    | nil => simp at hm
    | cons y Y =>
      have hy : y = 0 := h2
      subst hy
      have : (0 : UInt8) ∈ ord L := by rw [h1]; simp
      rcases mem_arcs.1 ((ho h).mem_iff.1 this) with ⟨_, v, hv⟩ | hh
      · exact hn _ hv rfl
      · exact V.heads_ne_zero h hh rfl

theorem findable_stable (V : View D At kid clean) (ho : OrdPerm At ord) : ∀ (n m : Nat) {u L}, At u L → (∀ e ∈ L, e.1.length < n) → (∀ e ∈ L, e.1.length < m) →
    findable ord n L = findable ord m L
  | 0, _, u, L, h, hn, _ => by
    obtain ⟨e, he⟩ := List.exists_mem_of_ne_nil _ (V.ne h)
    exact absurd (hn e he) (by omega)
  | _, 0, u, L, h, _, hm => by
    obtain ⟨e, he⟩ := List.exists_mem_of_ne_nil _ (V.ne h)
    exact absurd (hm e he) (by omega)
  | n + 1, m + 1, u, L, h, hn, hm => by
    unfold findable
    congr 1
    rw [List.flatMap_def, List.flatMap_def]
    congr 1
    apply List.map_congr_left
    intro l hl
    have hk := V.step h (cut_heads ho h hl)
    rw [findable_stable V ho n m hk]
    · intro e he
      obtain ⟨e', he', h4, _⟩ := depth_lt he
      have := hn e' he'
      rw [h4] at this
      simp only [List.length_cons] at this; omega
    · intro e he
      obtain ⟨e', he', h4, _⟩ := depth_lt he
      have := hm e' he'
      rw [h4] at this
      simp only [List.length_cons] at this; omega

theorem mem_findable (V : View D At kid clean) (ho : OrdPerm At ord) : ∀ (n : Nat) {u L} (k : Key), At u L → (∀ e ∈ L, e.1.length < n) →
    (k ∈ findable ord n L ↔ (∃ v, (k, v) ∈ L) ∧ seen ord L k)
  | 0, u, L, k, h, hn => by
    obtain ⟨e, he⟩ := List.exists_mem_of_ne_nil _ (V.ne h)
    exact absurd (hn e he) (by omega)
  | n + 1, u, L, k, h, hn => by
    unfold findable
    rw [List.mem_append, List.mem_flatMap]
    cases k with
    | nil =>
      constructor
      · rintro (h1 | ⟨l, _, h1⟩)
        · refine ⟨?_, trivial⟩
          by_cases ha : L.any (fun e => e.1 == []) = true
          · obtain ⟨⟨k, v⟩, h2, h3⟩ := List.any_eq_true.1 ha
            simp only [beq_iff_eq] at h3
            exact ⟨v, h3 ▸ h2⟩
          · rw [if_neg ha] at h1; simp at h1
        · obtain ⟨k, _, h2⟩ := List.mem_map.1 h1
          cases h2
      · rintro ⟨⟨v, hv⟩, _⟩
        left
        rw [if_pos (List.any_eq_true.2 ⟨_, hv, by simp⟩)]; simp
    | cons b k =>
      have key : ∀ l, l ∈ cutOf ord L → (k ∈ findable ord n (residual L [l]) ↔ (∃ v, (k, v) ∈ residual L [l]) ∧ seen ord (residual L [l]) k) := by
        intro l hl
        refine mem_findable V ho n k (V.step h (cut_heads ho h hl)) ?_
        intro e he
        obtain ⟨e', he', h4, _⟩ := depth_lt he
        have := hn e' he'
        rw [h4] at this
        simp only [List.length_cons] at this; omega
      have hmem : ∀ v, (b :: k, v) ∈ L ↔ (k, v) ∈ residual L [b] := fun v => by rw [mem_residual]; rfl
      constructor
      · rintro (h1 | ⟨l, hl, h1⟩)
        · exfalso
          split at h1 <;> simp at h1
        · obtain ⟨k', h2, h3⟩ := List.mem_map.1 h1
          cases h3
          obtain ⟨⟨v, hv⟩, h4⟩ := (key b hl).1 h2
          exact ⟨⟨v, (hmem v).2 hv⟩, hl, h4⟩
      · rintro ⟨⟨v, hv⟩, hl, h4⟩
        exact .inr ⟨b, hl, List.mem_map.2 ⟨k, (key b hl).2 ⟨⟨v, (hmem v).1 hv⟩, h4⟩, rfl⟩⟩

theorem nodup_flatMap_cons {f : UInt8 → List Key} : ∀ {X : List UInt8}, X.Nodup → (∀ l ∈ X, (f l).Nodup) → (X.flatMap (fun l => (f l).map (fun k => l :: k))).Nodup
  | [], _, _ => by simp
  | a :: X, h, hf => by
    rw [List.flatMap_cons, List.nodup_append]
    obtain ⟨h1, h2⟩ := List.nodup_cons.1 h
    refine ⟨?_, nodup_flatMap_cons h2 (fun l hl => hf l (List.mem_cons_of_mem _ hl)), ?_⟩
    · unfold List.Nodup
      rw [List.pairwise_map]
      exact (hf a (by simp)).imp (fun {x y} hxy hc => hxy (List.cons.inj hc).2)
    · intro x hx y hy hxy
      obtain ⟨k, _, rfl⟩ := List.mem_map.1 hx
      obtain ⟨l, hl, hy⟩ := List.mem_flatMap.1 hy
      obtain ⟨k', _, rfl⟩ := List.mem_map.1 hy
      cases hxy
      exact h1 hl

theorem findable_nodup (V : View D At kid clean) (ho : OrdPerm At ord) : ∀ (n : Nat) {u L}, At u L → (findable ord n L).Nodup
  | 0, u, L, h => by simp [findable]
  | n + 1, u, L, h => by
    unfold findable
    rw [List.nodup_append]
    refine ⟨by split <;> simp, nodup_flatMap_cons (cut_nodup V ho h) (fun l hl => findable_nodup V ho n (V.step h (cut_heads ho h hl))), ?_⟩
    intro x hx y hy hxy
    obtain ⟨l, _, hy⟩ := List.mem_flatMap.1 hy
    obtain ⟨k, _, rfl⟩ := List.mem_map.1 hy
    subst hxy
    split at hx <;> simp at hx

theorem le_sum_map (f : UInt8 → Nat) : ∀ {X : List UInt8} {l : UInt8}, l ∈ X → f l ≤ (X.map f).sum
  | a :: X, l, h => by
    rw [List.map_cons, List.sum_cons]
    rcases List.mem_cons.1 h with rfl | h
    · omega
    · have := le_sum_map f h; omega

/-- How many keys an index finds. -/
def cnt (D : Dictionary) (ord : Lang → List UInt8) (L : Lang) : Nat := (findable ord (D.size + 1) L).length

theorem View.small (V : View D At kid clean) {u L} (h : At u L) : ∀ e ∈ L, e.1.length < D.size := fun e he => by
  have := V.depth h e he; omega

theorem cnt_eq (V : View D At kid clean) (ho : OrdPerm At ord) {u L} (h : At u L) :
    cnt D ord L = hereN L + ((cutOf ord L).map (fun l => cnt D ord (residual L [l]))).sum := by
  unfold cnt
  rw [findable, List.length_append, List.length_flatMap]
  congr 1
  · unfold hereN; split <;> rfl
  · congr 1
    apply List.map_congr_left
    intro l hl
    have hk := V.step h (cut_heads ho h hl)
    rw [List.length_map, findable_stable V ho D.size (D.size + 1) hk (V.small hk) (fun e he => Nat.lt_succ_of_lt (V.small hk e he))]

theorem cnt_le (V : View D At kid clean) (ho : OrdPerm At ord) {u L} (h : At u L) : cnt D ord L ≤ L.length := by
  have := (findable_nodup V ho (D.size + 1) h).length_le_of_subset (l₂ := L.map (·.1)) (fun k hk => by
    obtain ⟨⟨v, hv⟩, _⟩ := (mem_findable V ho (D.size + 1) k h (fun e he => Nat.lt_succ_of_lt (V.small h e he))).1 hk
    exact List.mem_map.2 ⟨_, hv, rfl⟩)
  rwa [List.length_map] at this

theorem cnt_pos (V : View D At kid clean) (ho : OrdPerm At ord) : ∀ (n : Nat) {u L}, At u L → (∀ e ∈ L, e.1.length < n) → 0 < cnt D ord L
  | 0, u, L, h, hn => by
    obtain ⟨e, he⟩ := List.exists_mem_of_ne_nil _ (V.ne h)
    exact absurd (hn e he) (by omega)
  | n + 1, u, L, h, hn => by
    rw [cnt_eq V ho h]
    rcases V.shape h with ⟨h1, h2⟩ | ⟨v, h1, h2⟩
    · obtain ⟨e, he⟩ := List.exists_mem_of_ne_nil _ (V.ne h)
      have hk := h1 e he
      obtain ⟨k, v⟩ := e
      cases k with
      | nil => exact absurd rfl hk
      | cons b k =>
        have hb : b ∈ heads L := mem_heads.2 (List.ne_nil_of_mem (a := (k, v)) (by rw [mem_residual]; exact he))
        have hc := cut_all V ho h h1 hb
        have hpos := cnt_pos V ho n (V.step h hb) (by
          intro e he
          obtain ⟨e', he', h4, _⟩ := depth_lt he
          have := hn e' he'
          rw [h4] at this
          simp only [List.length_cons] at this; omega)
        have := le_sum_map (fun l => cnt D ord (residual L [l])) hc
        omega
    · have : hereN L = 1 := by
        unfold hereN
        have hmem : (([] : Key), v) ∈ L := by rw [h1]; simp
        rw [List.any_eq_true.2 ⟨_, hmem, by simp⟩]; rfl
      omega

/-- The sum of the counts of transitions. -/
def cntOf (D : Dictionary) (ord : Lang → List UInt8) (L : Lang) (X : List UInt8) : Nat := (X.map (fun l => cnt D ord (residual L [l]))).sum

theorem cntOf_cons (L : Lang) (l : UInt8) (X : List UInt8) : cntOf D ord L (l :: X) = cnt D ord (residual L [l]) + cntOf D ord L X := by
  simp [cntOf]

theorem cntOf_append (L : Lang) (X Y : List UInt8) : cntOf D ord L (X ++ Y) = cntOf D ord L X + cntOf D ord L Y := by
  simp [cntOf]

/-! ## Counting -/

/-- The counts while `BuildIndex` runs; `S` are the units being worked on. -/
structure CutCnt (D : Dictionary) (At : Nat → Lang → Prop) (kid : Nat → UInt8 → Nat) (ord : Lang → List UInt8) (us : List Nat) (S : List Nat) : Prop where
  len : us.length = D.size
  done : ∀ {u : Nat} {L : Lang}, At u L → u ∉ S → us[u]? = some 0 ∨
    (us[u]? = some (cnt D ord L) ∧ ∀ l ∈ cutOf ord L, us[kid u l]? ≠ some 0 ∧ kid u l ∉ S)

theorem CutCnt.add {us S} {u c n : Nat} (w : CutCnt D At kid ord us (u :: S)) (_h : us[u]? = some c) : CutCnt D At kid ord (us.set u (c + n)) (u :: S) := by
  refine ⟨by rw [List.length_set]; exact w.len, ?_⟩
  intro v L hv hS
  have hne : u ≠ v := fun he => hS (by rw [he]; simp)
  rw [List.getElem?_set_ne hne]
  rcases w.done hv hS with e | ⟨e1, e2⟩
  · exact .inl e
  · refine .inr ⟨e1, fun l hl => ?_⟩
    obtain ⟨f1, f2⟩ := e2 l hl
    rw [List.mem_cons, not_or] at f2
    rw [List.getElem?_set_ne (Ne.symm f2.1), List.mem_cons, not_or]
    exact ⟨f1, f2⟩

/-- What a call of `buildIndices` does. -/
def CutCall (D : Dictionary) (At : Nat → Lang → Prop) (kid : Nat → UInt8 → Nat) (ord : Lang → List UInt8) (gd : Guide) (fuel : Nat) : Prop :=
  ∀ {us S u L}, CutCnt D At kid ord us S → At u L → us[u]? = some 0 → (∀ x ∈ S, Above At L x) → (∀ e ∈ L, e.1.length < fuel) →
    ∃ us', IndexBuilder.buildIndices D gd fuel us u = .ok (us', true) ∧ CutCnt D At kid ord us' S ∧ Later us us' S ∧ us'[u]? = some (cnt D ord L)

theorem cut_loop (V : View D At kid clean) (hg : GuideIs D At kid ord gd) (ho : OrdPerm At ord) {fuel : Nat} (IH : CutCall D At kid ord gd fuel) {u : Nat} {L : Lang} (h : At u L)
    {S : List Nat} (hS : ∀ x ∈ S, Above At L x) (hfu : ∀ e ∈ L, e.1.length < fuel + 1) {Y : List UInt8} (hY : Y.headD 0 = 0) (hord : ord L = cutOf ord L ++ Y) :
    ∀ (B : List UInt8) {A us c} (n : Nat), cutOf ord L = A ++ B → B.length < n → us[u]? = some c → c + cntOf D ord L B < 4294967296 → CutCnt D At kid ord us (u :: S) →
    ∃ us', IndexBuilder.loop D gd (fun us i => IndexBuilder.buildIndices D gd fuel us i) u n us ((B ++ Y).headD 0) = .ok (us', true) ∧
      CutCnt D At kid ord us' (u :: S) ∧ Later us us' S ∧ us'[u]? = some (c + cntOf D ord L B) ∧ ∀ l ∈ B, us'[kid u l]? ≠ some 0
  | [], A, us, c, n, _, hn, hc, _, w => by
    obtain ⟨n, rfl⟩ : ∃ m, n = m + 1 := ⟨n - 1, by omega⟩
    refine ⟨us, ?_, w, Later.refl _ _, by simpa [cntOf] using hc, by simp⟩
    rw [IndexBuilder.loop, List.nil_append, if_pos hY]
  | l :: B, A, us, c, n, hB, hn, hc, hov, w => by
    obtain ⟨n, rfl⟩ : ∃ m, n = m + 1 := ⟨n - 1, by omega⟩
    have hl : l ∈ heads L := cut_heads ho h (by rw [hB]; simp)
    have hl0 := V.heads_ne_zero h hl
    have hk := V.step h hl
    have habove : ∀ x ∈ u :: S, Above At (residual L [l]) x := by
      intro x hx
      rcases List.mem_cons.1 hx with rfl | hx
      · exact Above.self V h l
      · exact (hS x hx).down
    have hkS : kid u l ∉ u :: S := fun hc => (habove _ hc).ne V hk rfl
    rw [cntOf_cons] at hov
    have hpos : cnt D ord (residual L [l]) ≠ 0 := by
      have := cnt_pos V ho _ hk (V.small hk); omega
    -- the count of the child
    obtain ⟨us1, e1, w1, m1, c1⟩ : ∃ us1, (do
        let n ← rd us (kid u l)
        if n = 0 then IndexBuilder.buildIndices D gd fuel us (kid u l) else pure (us, true) : Go (List Nat × Bool)) = .ok (us1, true) ∧
        CutCnt D At kid ord us1 (u :: S) ∧ Later us us1 (u :: S) ∧ us1[kid u l]? = some (cnt D ord (residual L [l])) := by
      rcases w.done hk hkS with hz | ⟨hz, _⟩
      · obtain ⟨us1, a1, a2, a3, a4⟩ := IH w hk hz habove (by
          intro e he
          obtain ⟨e', he', h4, _⟩ := depth_lt he
          have := hfu e' he'
          rw [h4] at this
          simp only [List.length_cons] at this; omega)
        refine ⟨us1, ?_, a2, a3, a4⟩
        rw [rd_some hz]
        simp only [ok_bind, if_true]
        exact a1
      · refine ⟨us, ?_, w, Later.refl _ _, hz⟩
        rw [rd_some hz]
        simp only [ok_bind]
        rw [if_neg hpos]; rfl
    have hc1 : us1[u]? = some c := by rw [m1.same u (by simp)]; exact hc
    obtain ⟨us2, e2, w2, m2, c2, k2⟩ := cut_loop V hg ho IH h hS hfu hY hord B (A := A ++ [l]) (us := us1.set u (c + cnt D ord (residual L [l])))
      (c := c + cnt D ord (residual L [l])) n (by rw [hB]; simp) (by simp only [List.length_cons] at hn; omega)
      (by rw [List.getElem?_set_self (List.getElem?_eq_some_iff.1 hc1).1]) (by omega) (w1.add hc1)
    refine ⟨us2, ?_, w2, ?_, by rw [c2, cntOf_cons]; congr 1; omega, ?_⟩
    · rw [IndexBuilder.loop, List.cons_append, List.headD_cons, if_neg hl0, V.follow h hl]
      simp only [ok_bind]
      cases hr : rd us (kid u l) with
      | error e => rw [hr] at e1; cases e1
      | ok m =>
        rw [hr] at e1
        simp only [ok_bind] at e1 ⊢
        have tail : (do
            let __do_lift ← rd us1 (kid u l)
            let us ← IndexBuilder.addTo us1 u __do_lift
            let s ← gd.sibling (kid u l)
            IndexBuilder.loop D gd (fun us i => IndexBuilder.buildIndices D gd fuel us i) u n us s : Go (List Nat × Bool)) = .ok (us2, true) := by
          simp only [ok_bind, rd_some c1]
          rw [addTo_ok hc1 (by omega)]
          simp only [ok_bind]
          rw [hg.sibling (pre := A) (post := B ++ Y) h (by rw [hord, hB]; simp)]
          simp only [ok_bind]
          exact e2
        by_cases hm : m = 0
        · rw [if_pos hm] at e1 ⊢
          rw [e1]
          exact tail
        · rw [if_neg hm] at e1 ⊢
          rw [e1]
          exact tail
    · refine Later.trans ⟨fun x hx => m1.mono x (add_mono hc1 x hx), ?_⟩ m2
      intro x hx
      have hxu : u ≠ x := fun he => (hS x hx).ne V h he.symm
      rw [List.getElem?_set_ne hxu]
      exact m1.same x (List.mem_cons_of_mem _ hx)
    · intro l' hl'
      rcases List.mem_cons.1 hl' with rfl | hl'
      · intro hz
        have := add_mono hc1 _ (m2.mono _ hz)
        rw [c1] at this
        simp only [Option.some.injEq] at this
        exact hpos this
      · exact k2 l' hl'

theorem cut_call (V : View D At kid clean) (hg : GuideIs D At kid ord gd) (ho : OrdPerm At ord) : ∀ fuel, CutCall D At kid ord gd fuel := by
  intro fuel
  induction fuel with
  | zero =>
    intro us S u L _ h _ _ hfu
    obtain ⟨e, he⟩ := List.exists_mem_of_ne_nil _ (V.ne h)
    exact absurd (hfu e he) (by omega)
  | succ fuel IH =>
    intro us S u L w h hz hS hfu
    have hu : u < us.length := by rw [w.len]; exact V.lt h
    have huS : u ∉ S := fun hu => (hS u hu).ne V h rfl
    have hlen : cnt D ord L = hereN L + cntOf D ord L (cutOf ord L) := cnt_eq V ho h
    have hle := cnt_le V ho h
    have htot := V.total h
    have w0 : CutCnt D At kid ord us (u :: S) := by
      refine ⟨w.len, ?_⟩
      intro v M hv hvS
      rw [List.mem_cons, not_or] at hvS
      rcases w.done hv hvS.2 with e | ⟨e1, e2⟩
      · exact .inl e
      · refine .inr ⟨e1, fun l hl => ⟨(e2 l hl).1, ?_⟩⟩
        rw [List.mem_cons, not_or]
        exact ⟨fun he => (e2 l hl).1 (by rw [he]; exact hz), (e2 l hl).2⟩
    obtain ⟨us1, e1, w1, m1, c1⟩ : ∃ us1, (do
        if ← D.hasValue u then IndexBuilder.addTo us u 1 else pure us : Go (List Nat)) = .ok us1 ∧ CutCnt D At kid ord us1 (u :: S) ∧ Later us us1 S ∧
        us1[u]? = some (hereN L) := by
      rw [V.hasValue h]
      simp only [ok_bind]
      unfold hereN
      cases hany : L.any (fun e => e.1 == []) with
      | false => exact ⟨us, rfl, w0, Later.refl _ _, hz⟩
      | true =>
        refine ⟨us.set u (0 + 1), ?_, w0.add hz, ⟨add_mono hz, ?_⟩, ?_⟩
        · simp only [if_true]
          exact addTo_ok hz (by omega)
        · intro x hx
          rw [List.getElem?_set_ne (fun he => huS (by rw [he]; exact hx))]
        · rw [List.getElem?_set_self hu]; rfl
    obtain ⟨Y, hord, hY⟩ := cut_tail ord L
    obtain ⟨us2, e2, w2, m2, c2, k2⟩ := cut_loop V hg ho IH h hS hfu hY hord (cutOf ord L) (A := []) 257 rfl
      (by have := cut_length V ho h; omega) c1 (by omega) w1
    rw [← hlen] at c2
    refine ⟨us2, ?_, ?_, m1.trans m2, c2⟩
    · rw [IndexBuilder.buildIndices]
      cases hr : D.hasValue u with
      | error e => rw [hr] at e1; cases e1
      | ok m =>
        rw [hr] at e1
        simp only [ok_bind] at e1 ⊢
        have tail : (do
            let child ← gd.child u
            IndexBuilder.loop D gd (fun us i => IndexBuilder.buildIndices D gd fuel us i) u 257 us1 child : Go (List Nat × Bool)) = .ok (us2, true) := by
          rw [hg.child h, hord]
          exact e2
        by_cases hm : m = true
        · rw [if_pos hm] at e1 ⊢
          rw [e1]
          exact tail
        · rw [if_neg hm] at e1 ⊢
          rw [e1]
          exact tail
    · refine ⟨w2.len, ?_⟩
      intro v M hv hvS
      by_cases hvu : v = u
      · subst hvu
        rw [V.func hv h]
        refine .inr ⟨c2, fun l hl => ⟨k2 l hl, fun hc => ?_⟩⟩
        exact (hS _ hc).down.ne V (V.step h (cut_heads ho h hl)) rfl
      · rcases w2.done hv (by simp [hvu, hvS]) with e | ⟨f1, f2⟩
        · exact .inl e
        · exact .inr ⟨f1, fun l hl => ⟨(f2 l hl).1, fun hc => (f2 l hl).2 (List.mem_cons_of_mem _ hc)⟩⟩

/-- `idx` holds the number of keys to be found below every unit that the index sees, and 0 for the others. -/
structure CutIndex (D : Dictionary) (At : Nat → Lang → Prop) (kid : Nat → UInt8 → Nat) (ord : Lang → List UInt8) (idx : Index) : Prop where
  size : idx.units.length = D.size
  root : ∀ {L}, At 0 L → idx.childCount 0 = .ok (cnt D ord L)
  count : ∀ {u L}, At u L → idx.childCount u = .ok 0 ∨
    (idx.childCount u = .ok (cnt D ord L) ∧ ∀ l ∈ cutOf ord L, idx.childCount (kid u l) = .ok (cnt D ord (residual L [l])))

theorem buildCut_spec (V : View D At kid clean) {acc : Lang} (h0 : At 0 acc) (hg : GuideIs D (Reach kid acc) kid ord gd) (ho : OrdPerm (Reach kid acc) ord) :
    ∃ idx, buildIndex D gd = .ok (some idx) ∧ CutIndex D (Reach kid acc) kid ord idx := by
  have V' := V.reach h0
  have hstart : CutCnt D (Reach kid acc) kid ord (List.replicate D.size 0) [] := by
    refine ⟨by simp, ?_⟩
    intro u L h _
    left
    rw [List.getElem?_replicate, if_pos (V'.lt h)]
  have hpos : 0 < D.size := V'.lt Reach.root
  obtain ⟨us, e1, w, _, c⟩ := cut_call V' hg ho (D.size + 1) hstart Reach.root (by rw [List.getElem?_replicate, if_pos hpos]) (by simp)
    (fun e he => by have := V'.depth Reach.root e he; omega)
  refine ⟨⟨us⟩, ?_, w.len, ?_, ?_⟩
  · unfold buildIndex IndexBuilder.build
    rw [show gd.root = 0 from rfl, e1]; rfl
  · intro L h
    rw [V'.func h Reach.root]
    exact rd_some c
  · intro u L h
    rcases w.done h (by simp) with e | ⟨e1, e2⟩
    · exact .inl (rd_some e)
    · refine .inr ⟨rd_some e1, fun l hl => ?_⟩
      rcases w.done (V'.step h (cut_heads ho h hl)) (by simp) with e | ⟨e3, _⟩
      · exact absurd e (e2 l hl).1
      · exact rd_some e3

/-! ## Queries -/

theorem CutIndex.read (hi : CutIndex D At kid ord idx) {u L} (h : At u L) : ∃ c, idx.childCount u = .ok c := by
  rcases hi.count h with h | ⟨h, _⟩
  · exact ⟨_, h⟩
  · exact ⟨_, h⟩

theorem skip_ok (V : View D At kid clean) (hg : GuideIs D At kid ord gd) (ho : OrdPerm At ord) (hi : CutIndex D At kid ord idx) {u : Nat} {L : Lang} (h : At u L) (b : UInt8) :
    ∀ (B : List UInt8) {A : List UInt8} {r fuel : Nat}, ord L = A ++ B → B.length < fuel →
    ∃ r' l, Indexer.skip D gd idx u b fuel r (B.headD 0) = .ok (some (r', l))
  | [], A, r, fuel, _, hf => by
    obtain ⟨fuel, rfl⟩ : ∃ m, fuel = m + 1 := ⟨fuel - 1, by omega⟩
    refine ⟨r, 0, ?_⟩
    rw [Indexer.skip, if_neg]
    · rfl
    · exact fun hc => hc.2 rfl
  | l :: B, A, r, fuel, hL, hf => by
    obtain ⟨fuel, rfl⟩ : ∃ m, fuel = m + 1 := ⟨fuel - 1, by omega⟩
    rw [Indexer.skip, List.headD_cons]
    by_cases hc : l < b ∧ l ≠ 0
    · rw [if_pos hc]
      have hl : l ∈ heads L := by
        rcases mem_arcs.1 ((ho h).mem_iff.1 (show l ∈ ord L by rw [hL]; simp)) with ⟨hz, _⟩ | hh
        · exact absurd hz hc.2
        · exact hh
      obtain ⟨c, hcc⟩ := hi.read (V.step h hl)
      obtain ⟨r', m, hr⟩ := skip_ok V hg ho hi h b B (A := A ++ [l]) (r := u32 (r + c)) (fuel := fuel) (by rw [hL]; simp)
        (by simp only [List.length_cons] at hf; omega)
      refine ⟨r', m, ?_⟩
      rw [V.follow h hl]
      simp only [ok_bind]
      rw [hcc]
      simp only [ok_bind]
      rw [hg.sibling (pre := A) (post := B) h hL]
      simp only [ok_bind]
      exact hr
    · rw [if_neg hc]
      exact ⟨r, l, rfl⟩

/-- `StringToIndex` answers, with `NotFound` for what is not a key. -/
theorem bytesLoop_ok (V : View D At kid clean) (hg : GuideIs D At kid ord gd) (ho : OrdPerm At ord) (hi : CutIndex D At kid ord idx) : ∀ (k : Key) {u L r}, At u L →
    (∀ p b, p ++ [b] <+: k → residual L p ≠ [] → residual L (p ++ [b]) = [] → clean b) →
    ∃ n, Indexer.bytesLoop D gd idx k u r = .ok n ∧ ((∀ v, (k, v) ∉ L) → n = Indexer.notFound)
  | [], u, L, r, h, _ => by
    rw [Indexer.bytesLoop, V.hasValue h]
    simp only [ok_bind]
    cases hany : L.any (fun e => e.1 == []) with
    | true =>
      refine ⟨r, rfl, fun hn => ?_⟩
      obtain ⟨e, he, hk⟩ := List.any_eq_true.1 hany
      have : e.1 = [] := by simpa using hk
      exact absurd (show ([], e.2) ∈ L by rw [← this]; exact he) (hn e.2)
    | false => exact ⟨_, rfl, fun _ => rfl⟩
  | b :: k, u, L, r, h, hc => by
    rw [Indexer.bytesLoop, V.hasValue h]
    simp only [ok_bind]
    rw [hg.child h]
    simp only [ok_bind]
    obtain ⟨r', l, hs⟩ := skip_ok V hg ho hi h b (ord L) (A := []) (r := if L.any (fun e => e.1 == []) = true then u32 (r + 1) else r) (fuel := 257) rfl
      (by rw [(ho h).length_eq]; have := arcs_length V h; omega)
    rw [hs]
    simp only [ok_bind]
    by_cases hl : l = 0
    · rw [if_pos hl]; exact ⟨_, rfl, fun _ => rfl⟩
    · rw [if_neg hl]
      by_cases hb : b ∈ heads L
      · rw [V.follow h hb]
        simp only [ok_bind]
        obtain ⟨n, e1, e2⟩ := bytesLoop_ok V hg ho hi k (r := r') (V.step h hb) (by
          intro p x hp h1 h2
          refine hc (b :: p) x (by simpa using hp) ?_ ?_
          · rwa [show b :: p = [b] ++ p from rfl, residual_residual]
          · rwa [show b :: p ++ [x] = [b] ++ (p ++ [x]) from rfl, residual_residual])
        exact ⟨n, e1, fun hn => e2 (fun v hv => hn v (by rw [mem_residual] at hv; exact hv))⟩
      · have hcl : clean b := hc [] b (by simp) (by rw [residual_nil]; exact V.ne h)
          (Classical.byContradiction fun hn => hb (mem_heads.2 hn))
        rw [V.miss h hb hcl]
        exact ⟨_, rfl, fun _ => rfl⟩

/-! ## Selection -/

theorem pick_cut (V : View D At kid clean) (hg : GuideIs D At kid ord gd) (ho : OrdPerm At ord) {u : Nat} {L : Lang} (h : At u L)
    (hi : ∀ l ∈ cutOf ord L, idx.childCount (kid u l) = .ok (cnt D ord (residual L [l]))) {Y : List UInt8} (hY : Y.headD 0 = 0) (hord : ord L = cutOf ord L ++ Y) (i : Nat) :
    ∀ (B : List UInt8) {A : List UInt8} {cur fuel : Nat}, cutOf ord L = A ++ B → B.length < fuel → cur ≤ i → cur + cntOf D ord L B < 4294967296 →
    (∃ B1 l B2, B = B1 ++ l :: B2 ∧ cur + cntOf D ord L B1 ≤ i ∧ i < cur + cntOf D ord L B1 + cnt D ord (residual L [l]) ∧
      Indexer.pick D gd idx i u fuel cur ((B ++ Y).headD 0) = .ok (.into (cur + cntOf D ord L B1) (kid u l) l)) ∨
    (cur + cntOf D ord L B ≤ i ∧ ∃ c, Indexer.pick D gd idx i u fuel cur ((B ++ Y).headD 0) = .ok (.stop c))
  | [], A, cur, fuel, _, hf, hcur, _ => by
    obtain ⟨fuel, rfl⟩ : ∃ m, fuel = m + 1 := ⟨fuel - 1, by omega⟩
    exact .inr ⟨by simpa [cntOf] using hcur, cur, by rw [Indexer.pick, List.nil_append, if_pos hY]⟩
  | l :: B, A, cur, fuel, hL, hf, hcur, hov => by
    obtain ⟨fuel, rfl⟩ : ∃ m, fuel = m + 1 := ⟨fuel - 1, by omega⟩
    have hlc : l ∈ cutOf ord L := by rw [hL]; simp
    have hl : l ∈ heads L := cut_heads ho h hlc
    rw [cntOf_cons] at hov
    have hs : Indexer.pick D gd idx i u (fuel + 1) cur ((l :: B ++ Y).headD 0) = (do
        if i < cur + cnt D ord (residual L [l]) then return .into cur (kid u l) l
        Indexer.pick D gd idx i u fuel (cur + cnt D ord (residual L [l])) ((B ++ Y).headD 0)) := by
      rw [Indexer.pick, List.cons_append, List.headD_cons, if_neg (V.heads_ne_zero h hl), V.follow h hl]
      simp only [ok_bind]
      rw [hi l hlc]
      simp only [ok_bind]
      rw [u32_of_lt (by omega), hg.sibling (pre := A) (post := B ++ Y) h (by rw [hord, hL]; simp)]
      rfl
    by_cases hlt : i < cur + cnt D ord (residual L [l])
    · left
      refine ⟨[], l, B, rfl, by simpa [cntOf] using hcur, by simpa [cntOf] using hlt, ?_⟩
      rw [hs, if_pos hlt]
      simp [cntOf, pure_eq_ok]
    · rw [hs, if_neg hlt]
      rcases pick_cut V hg ho h hi hY hord i B (A := A ++ [l]) (cur := cur + cnt D ord (residual L [l])) (fuel := fuel) (by rw [hL]; simp)
        (by simp only [List.length_cons] at hf; omega) (by omega) (by omega) with ⟨B1, m, B2, e1, e2, e3, e4⟩ | ⟨e1, c, e2⟩
      · left
        refine ⟨l :: B1, m, B2, by rw [e1]; rfl, ?_, ?_, ?_⟩
        · rw [cntOf_cons]; omega
        · rw [cntOf_cons]; omega
        · rw [e4, cntOf_cons]
          congr 2
          omega
      · right
        rw [cntOf_cons]
        exact ⟨by omega, c, e2⟩

/-- The keys to be found behind transitions. -/
def findBehind (D : Dictionary) (ord : Lang → List UInt8) (L : Lang) (X : List UInt8) : List Key :=
  X.flatMap (fun l => (findable ord (D.size + 1) (residual L [l])).map (fun k => l :: k))

theorem findBehind_length (L : Lang) (X : List UInt8) : (findBehind D ord L X).length = cntOf D ord L X := by
  unfold findBehind cntOf cnt
  rw [List.length_flatMap]
  simp

theorem findBehind_split (L : Lang) (A B : List UInt8) (l : UInt8) : findBehind D ord L (A ++ l :: B) =
    findBehind D ord L A ++ ((findable ord (D.size + 1) (residual L [l])).map (fun k => l :: k) ++ findBehind D ord L B) := by
  unfold findBehind
  rw [List.flatMap_append, List.flatMap_cons]

theorem findable_eq (V : View D At kid clean) (ho : OrdPerm At ord) {u L} (h : At u L) : findable ord (D.size + 1) L =
    (if L.any (fun e => e.1 == []) then [[]] else []) ++ findBehind D ord L (cutOf ord L) := by
  conv => lhs; rw [findable]
  congr 1
  unfold findBehind
  rw [List.flatMap_def, List.flatMap_def]
  congr 1
  apply List.map_congr_left
  intro l hl
  have hk := V.step h (cut_heads ho h hl)
  rw [findable_stable V ho D.size (D.size + 1) hk (V.small hk) (fun e he => Nat.lt_succ_of_lt (V.small hk e he))]

/-- `IndexToBytes`. -/
theorem select_cut (V : View D At kid clean) (hg : GuideIs D At kid ord gd) (ho : OrdPerm At ord) (hi : CutIndex D At kid ord idx) (i : Nat) : ∀ (fuel : Nat) {u L cur buf}, At u L →
    idx.childCount u = .ok (cnt D ord L) → (∀ e ∈ L, e.1.length < fuel) → cur ≤ i → cur + cnt D ord L < 4294967296 →
    Indexer.selectLoop D gd idx i fuel u cur buf = .ok ((findable ord (D.size + 1) L)[i - cur]?.map (fun k => buf ++ k)) := by
  intro fuel
  induction fuel with
  | zero =>
    intro u L cur buf h _ hfu
    obtain ⟨e, he⟩ := List.exists_mem_of_ne_nil _ (V.ne h)
    exact absurd (hfu e he) (by omega)
  | succ fuel ih =>
    intro u L cur buf h hcu hfu hcur hov
    have hlen : cnt D ord L = hereN L + cntOf D ord L (cutOf ord L) := cnt_eq V ho h
    have hkids : ∀ l ∈ cutOf ord L, idx.childCount (kid u l) = .ok (cnt D ord (residual L [l])) := by
      rcases hi.count h with hz | ⟨_, hz⟩
      · rw [hcu] at hz
        have := cnt_pos V ho _ h (V.small h)
        simp only [Except.ok.injEq] at hz
        omega
      · exact hz
    obtain ⟨Y, hord, hY⟩ := cut_tail ord L
    -- the keys behind the transitions
    have main : ∀ {c : Nat}, c ≤ i → c + cntOf D ord L (cutOf ord L) < 4294967296 →
        (do
          match ← Indexer.pick D gd idx i u 257 c (← gd.child u) with
          | .nil => return none
          | .stop _ => return none
          | .into cur index label => Indexer.selectLoop D gd idx i fuel index cur (buf ++ [label]) : Go (Option (List UInt8))) =
        .ok ((findBehind D ord L (cutOf ord L))[i - c]?.map (fun k => buf ++ k)) := by
      intro c hc hov
      rw [hg.child h, hord]
      simp only [ok_bind]
      rcases pick_cut V hg ho h hkids hY hord i (cutOf ord L) (A := []) (cur := c) (fuel := 257) rfl (by have := cut_length V ho h; omega) hc hov with
        ⟨B1, l, B2, e1, e2, e3, e4⟩ | ⟨e1, x, e2⟩
      · rw [e4]
        simp only [ok_bind]
        have hlc : l ∈ cutOf ord L := by rw [e1]; simp
        have hl : l ∈ heads L := cut_heads ho h hlc
        have hu1 : cntOf D ord L (cutOf ord L) = cntOf D ord L B1 + (cnt D ord (residual L [l]) + cntOf D ord L B2) := by
          rw [e1, cntOf_append, cntOf_cons]
        rw [ih (V.step h hl) (hkids l hlc) (by
          intro e he
          obtain ⟨e', he', h4, _⟩ := depth_lt he
          have := hfu e' he'
          rw [h4] at this
          simp only [List.length_cons] at this; omega) e2 (by omega)]
        have hl1 := findBehind_length (D := D) (ord := ord) L B1
        have hl2 : (findable ord (D.size + 1) (residual L [l])).length = cnt D ord (residual L [l]) := rfl
        rw [e1, findBehind_split, List.getElem?_append_right (by omega), List.getElem?_append_left (by rw [List.length_map]; omega),
          List.getElem?_map, hl1, Nat.sub_sub]
        cases (findable ord (D.size + 1) (residual L [l]))[i - (c + cntOf D ord L B1)]? with
        | none => rfl
        | some e => simp
      · rw [e2]
        rw [List.getElem?_eq_none (by rw [findBehind_length]; omega)]
        rfl
    rw [Indexer.selectLoop, if_pos hcur, V.hasValue h, findable_eq V ho h]
    simp only [ok_bind]
    cases hany : L.any (fun e => e.1 == []) with
    | false =>
      have hz : hereN L = 0 := by unfold hereN; rw [hany]; rfl
      rw [if_neg (by simp), if_neg (by simp)]
      have := main (c := cur) hcur (by omega)
      simp only [Bool.false_eq_true, if_false, List.nil_append]
      exact this
    | true =>
      have hone : hereN L = 1 := by unfold hereN; rw [hany]; rfl
      by_cases hci : cur = i
      · rw [if_pos ⟨rfl, hci⟩, hci]
        simp [pure_eq_ok]
      · rw [if_neg (by simp [hci]), if_pos rfl, u32_of_lt (by omega)]
        have := main (c := cur + 1) (by omega) (by omega)
        rw [if_pos rfl, List.singleton_append, show i - cur = (i - (cur + 1)) + 1 by omega, List.getElem?_cons_succ]
        exact this

/-! ## Ranked guides -/

variable {sorter : Sorter}

/-- A transition comes before the terminal one if a key behind it has a greater value than the key that ends here. -/
theorem cut_rord (hs : StableSort sorter) (V : View D At kid clean) {u L} (h : At u L) {l : UInt8} :
    l ∈ cutOf (rord D sorter ltCmp) L ↔ l ∈ heads L ∧ ∀ v, ([], v) ∈ L → ∃ f ∈ L, (∃ k, f.1 = l :: k) ∧ v < f.2 := by
  have hperm := rord_perm (cmp := ltCmp) hs.perm V h
  have hsort := rord_sorted hs strictTotal_lt V h
  have ho : (rord D sorter ltCmp L).Perm (arcs L) := hperm
  have hmem : l ∈ cutOf (rord D sorter ltCmp) L → l ∈ heads L := by
    obtain ⟨Y, h1, _, h3⟩ := takeWhile_cut (rord D sorter ltCmp L)
    intro hl
    have hm : l ∈ rord D sorter ltCmp L := by rw [h1]; exact List.mem_append_left _ hl
    rcases mem_arcs.1 (ho.mem_iff.1 hm) with ⟨hz, _⟩ | hh
    · exact absurd hz (h3 l hl)
    · exact hh
  obtain ⟨Y, hord, hY⟩ := cut_tail (rord D sorter ltCmp) L
  have hsp : (cutOf (rord D sorter ltCmp) L ++ Y).Pairwise (fun a b => Upto ltCmp (mkLink D sorter ltCmp L b).value (mkLink D sorter ltCmp L a).value ∧
      ((mkLink D sorter ltCmp L b).value = (mkLink D sorter ltCmp L a).value → a ≤ b)) := by
    rw [← hord]; exact hsort
  -- the value of the terminal transition
  have hzero : ∀ v, (([] : Key), v) ∈ L → (mkLink D sorter ltCmp L 0).value = (v : Int) := by
    intro v hv
    obtain ⟨⟨e, he1, he2⟩, _⟩ := mkLink_spec hs strictTotal_lt V h (mem_arcs.2 (.inl ⟨rfl, v, hv⟩))
    rw [underT_zero, V.here_eq h hv, List.mem_singleton] at he1
    subst he1
    exact he2.symm
  constructor
  · intro hl
    refine ⟨hmem hl, fun v hv => ?_⟩
    obtain ⟨⟨f, hf1, hf2⟩, _⟩ := mkLink_spec hs strictTotal_lt V h (mem_arcs.2 (.inr (hmem hl)))
    obtain ⟨hf3, k, hk⟩ := mem_underT (V.heads_ne_zero h (hmem hl)) hf1
    refine ⟨f, hf3, ⟨k, hk⟩, ?_⟩
    -- 0 comes later
    have h0 : (0 : UInt8) ∈ Y := by
      have : (0 : UInt8) ∈ rord D sorter ltCmp L := ho.mem_iff.2 (mem_arcs.2 (.inl ⟨rfl, v, hv⟩))
      rw [hord] at this
      rcases List.mem_append.1 this with hc | hc
      · obtain ⟨_, _, _, h3⟩ := takeWhile_cut (rord D sorter ltCmp L)
        exact absurd rfl (h3 0 hc)
      · exact hc
    have hlt := (List.pairwise_append.1 hsp).2.2 l hl 0 h0
    have hle := upto_lt.1 hlt.1
    have hne : (mkLink D sorter ltCmp L 0).value ≠ (mkLink D sorter ltCmp L l).value := by
      intro hc
      have h1 := hlt.2 hc
      exact V.heads_ne_zero h (hmem hl) (UInt8.le_antisymm h1 UInt8.zero_le)
    have hfv : (f.2 : Int) = (mkLink D sorter ltCmp L l).value := hf2
    rw [hzero v hv, ← hfv] at hle hne
    omega
  · rintro ⟨hl, hv⟩
    by_cases hz : ∃ v, (([] : Key), v) ∈ L
    · obtain ⟨v, hz⟩ := hz
      obtain ⟨f, hf, ⟨k, hk⟩, hlt⟩ := hv v hz
      have hm : l ∈ rord D sorter ltCmp L := ho.mem_iff.2 (mem_arcs.2 (.inr hl))
      rw [hord] at hm
      rcases List.mem_append.1 hm with hm | hm
      · exact hm
      · exfalso
        have h0 : Y ≠ [] := List.ne_nil_of_mem hm
        obtain ⟨y, Y', rfl⟩ := List.exists_cons_of_ne_nil h0
        have hy : y = 0 := hY
        subst hy
        rcases List.mem_cons.1 hm with hc | hm
        · exact V.heads_ne_zero h hl hc
        · have h2 := (List.pairwise_cons.1 (List.pairwise_append.1 hsp).2.1).1 l hm
          have hle := upto_lt.1 h2.1
          obtain ⟨_, hmax⟩ := mkLink_spec hs strictTotal_lt V h (mem_arcs.2 (.inr hl))
          have hfu : f ∈ underT L [l] := by
            rw [underT_one L (V.heads_ne_zero h hl)]
            refine List.mem_map.2 ⟨(k, f.2), ?_, ?_⟩
            · rw [mem_residual, List.singleton_append, ← hk]; exact hf
            · unfold pre; rw [List.singleton_append, ← hk]
          have h3 := hmax f hfu
          have h4 : (f.2 : Int) ≤ (mkLink D sorter ltCmp L l).value := upto_lt.1 h3
          rw [hzero v hz] at hle
          omega
    · obtain ⟨Y2, h1, h2, _⟩ := takeWhile_cut (rord D sorter ltCmp L)
      have hm : l ∈ rord D sorter ltCmp L := ho.mem_iff.2 (mem_arcs.2 (.inr hl))
      rw [hord] at hm
      rcases List.mem_append.1 hm with hm | hm
      · exact hm
      · exfalso
        obtain ⟨y, Y', rfl⟩ := List.exists_cons_of_ne_nil (List.ne_nil_of_mem hm)
        have hy : y = 0 := hY
        subst hy
        have : (0 : UInt8) ∈ rord D sorter ltCmp L := by rw [hord]; simp
        rcases mem_arcs.1 (ho.mem_iff.1 this) with ⟨_, hc⟩ | hh
        · exact hz hc
        · exact V.heads_ne_zero h hh rfl

/-- Every key that ends within `k` has a smaller value than a key behind the next byte of `k`. -/
def Listed (L : Lang) (k : Key) : Prop := ∀ e ∈ L, ∀ b t, k = e.1 ++ b :: t → ∃ f ∈ L, e.1 ++ [b] <+: f.1 ∧ e.2 < f.2

theorem seen_rord (hs : StableSort sorter) (V : View D At kid clean) : ∀ (k : Key) {u L}, At u L → (∃ v, (k, v) ∈ L) →
    (seen (rord D sorter ltCmp) L k ↔ Listed L k)
  | [], u, L, h, _ => by
    refine ⟨fun _ e _ b t hk => ?_, fun _ => trivial⟩
    have := congrArg List.length hk
    simp at this
  | b :: k, u, L, h, ⟨v, hv⟩ => by
    have hr : (k, v) ∈ residual L [b] := by rw [mem_residual]; exact hv
    have hb : b ∈ heads L := mem_heads.2 (List.ne_nil_of_mem hr)
    unfold seen
    rw [cut_rord hs V h, seen_rord hs V k (V.step h hb) ⟨v, hr⟩]
    constructor
    · rintro ⟨⟨_, h1⟩, h2⟩ e he c t hk
      obtain ⟨p, w⟩ := e
      cases p with
      | nil =>
        simp only [List.nil_append, List.cons.injEq] at hk
        obtain ⟨rfl, _⟩ := hk
        obtain ⟨f, hf, ⟨k', hk'⟩, hlt⟩ := h1 w he
        exact ⟨f, hf, by rw [hk']; simp, hlt⟩
      | cons a p =>
        simp only [List.cons_append, List.cons.injEq] at hk
        obtain ⟨rfl, hk⟩ := hk
        obtain ⟨f, hf, hpre, hlt⟩ := h2 (p, w) (by rw [mem_residual]; exact he) c t hk
        rw [mem_residual] at hf
        exact ⟨_, hf, by simpa using hpre, hlt⟩
    · intro hL
      refine ⟨⟨hb, fun w hw => ?_⟩, ?_⟩
      · obtain ⟨f, hf, hpre, hlt⟩ := hL _ hw b k rfl
        obtain ⟨t, ht⟩ := hpre
        exact ⟨f, hf, ⟨t, by rw [← ht]; rfl⟩, hlt⟩
      · intro e he c t hk
        rw [mem_residual] at he
        obtain ⟨f, hf, hpre, hlt⟩ := hL _ he c t (by rw [hk]; rfl)
        obtain ⟨s, hs⟩ := hpre
        refine ⟨(e.1 ++ [c] ++ s, f.2), ?_, by simp, hlt⟩
        rw [mem_residual]
        have : [b] ++ (e.1 ++ [c] ++ s) = f.1 := by rw [← hs]; simp
        rw [this]; exact hf

/-- The order in which an index over a ranked guide lists keys: a key before those that start with it, and otherwise by the greatest values behind the first
different bytes, equal ones in byte order. -/
def ListedBefore (L : Lang) (k k' : Key) : Prop := k <+: k' ∨
  ∃ p b b' t t', k = p ++ b :: t ∧ k' = p ++ b' :: t' ∧ b ≠ b' ∧
    ∃ f ∈ L, p ++ [b] <+: f.1 ∧ ∀ g ∈ L, p ++ [b'] <+: g.1 → g.2 < f.2 ∨ (g.2 = f.2 ∧ b < b')

theorem ListedBefore.cons {L : Lang} {l : UInt8} {k k' : Key} (h : ListedBefore (residual L [l]) k k') : ListedBefore L (l :: k) (l :: k') := by
  rcases h with h | ⟨p, b, b', t, t', h1, h2, h3, f, hf, hpre, h4⟩
  · exact .inl (by simpa using h)
  · rw [mem_residual] at hf
    refine .inr ⟨l :: p, b, b', t, t', by rw [h1]; rfl, by rw [h2]; rfl, h3, _, hf, by simpa using hpre, ?_⟩
    intro g hg hp
    obtain ⟨s, hs⟩ := hp
    refine h4 (p ++ [b'] ++ s, g.2) ?_ (by simp)
    rw [mem_residual]
    have : [l] ++ (p ++ [b'] ++ s) = g.1 := by rw [← hs]; simp
    rw [this]; exact hg

theorem pairwise_flatMap_cons {R : Key → Key → Prop} {f : UInt8 → List Key} : ∀ {X : List UInt8}, (∀ l ∈ X, ((f l).map (fun k => l :: k)).Pairwise R) →
    X.Pairwise (fun l l' => ∀ k k', R (l :: k) (l' :: k')) → (X.flatMap (fun l => (f l).map (fun k => l :: k))).Pairwise R
  | [], _, _ => by simp
  | a :: X, h, hp => by
    rw [List.flatMap_cons, List.pairwise_append]
    obtain ⟨h1, h2⟩ := List.pairwise_cons.1 hp
    refine ⟨h a (by simp), pairwise_flatMap_cons (fun l hl => h l (List.mem_cons_of_mem _ hl)) h2, ?_⟩
    intro x hx y hy
    obtain ⟨k, _, rfl⟩ := List.mem_map.1 hx
    obtain ⟨l, hl, hy⟩ := List.mem_flatMap.1 hy
    obtain ⟨k', _, rfl⟩ := List.mem_map.1 hy
    exact h1 l hl k k'

theorem findable_before (hs : StableSort sorter) (V : View D At kid clean) : ∀ (n : Nat) {u L}, At u L →
    (findable (rord D sorter ltCmp) n L).Pairwise (ListedBefore L)
  | 0, u, L, _ => by simp [findable]
  | n + 1, u, L, h => by
    have ho : OrdPerm At (rord D sorter ltCmp) := fun h => rord_perm (cmp := ltCmp) hs.perm V h
    unfold findable
    rw [List.pairwise_append]
    refine ⟨by split <;> simp, ?_, ?_⟩
    · refine pairwise_flatMap_cons ?_ ?_
      · intro l hl
        rw [List.pairwise_map]
        exact (findable_before hs V n (V.step h (cut_heads ho h hl))).imp (fun h => h.cons)
      · have hsort := rord_sorted hs strictTotal_lt V h
        obtain ⟨Y, hord, _⟩ := cut_tail (rord D sorter ltCmp) L
        have hsp : (cutOf (rord D sorter ltCmp) L ++ Y).Pairwise (fun a b => Upto ltCmp (mkLink D sorter ltCmp L b).value (mkLink D sorter ltCmp L a).value ∧
            ((mkLink D sorter ltCmp L b).value = (mkLink D sorter ltCmp L a).value → a ≤ b)) := by
          rw [← hord]; exact hsort
        have hnd := cut_nodup V ho h
        refine (hnd.and (List.pairwise_append.1 hsp).1).imp_of_mem ?_
        intro b b' hb hb' ⟨hne, hle, htie⟩ k k'
        have hbh := cut_heads ho h hb
        have hbh' := cut_heads ho h hb'
        obtain ⟨⟨f, hf1, hf2⟩, _⟩ := mkLink_spec hs strictTotal_lt V h (mem_arcs.2 (.inr hbh))
        obtain ⟨_, hmax⟩ := mkLink_spec hs strictTotal_lt V h (mem_arcs.2 (.inr hbh'))
        obtain ⟨hf3, t, ht⟩ := mem_underT (V.heads_ne_zero h hbh) hf1
        refine .inr ⟨[], b, b', k, k', rfl, rfl, hne, f, hf3, by rw [ht]; simp, ?_⟩
        intro g hg hp
        obtain ⟨s, hsg⟩ := hp
        have hgu : g ∈ underT L [b'] := by
          rw [underT_one L (V.heads_ne_zero h hbh')]
          refine List.mem_map.2 ⟨(s, g.2), ?_, ?_⟩
          · rw [mem_residual]
            have : [b'] ++ s = g.1 := by rw [← hsg]; simp
            rw [this]; exact hg
          · unfold pre
            have : [b'] ++ s = g.1 := by rw [← hsg]; simp
            show ([b'] ++ s, g.2) = g
            rw [this]
        have h3 : (g.2 : Int) ≤ (mkLink D sorter ltCmp L b').value := upto_lt.1 (hmax g hgu)
        have h4 := upto_lt.1 hle
        have h5 : (f.2 : Int) = (mkLink D sorter ltCmp L b).value := hf2
        by_cases hlt : g.2 < f.2
        · exact .inl hlt
        · refine .inr ⟨by omega, ?_⟩
          have := htie (by omega)
          exact UInt8.lt_of_le_of_ne this hne
    · intro x hx y _
      left
      split at hx
      · rw [List.mem_singleton] at hx
        subst hx
        simp
      · simp at hx

end
end Dawg.Guided
