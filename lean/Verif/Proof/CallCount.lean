import Verif.Proof.Calls
import Verif.Proof.Guide.Cut
/-! # How many calls the constructions of guides and indices make -/
namespace Dawg.Guided
attribute [-simp] List.length_flatten
open Dawg.Abs Dawg.Spec Dawg.Dict

theorem countP_le {p q : Nat → Bool} : ∀ (l : List Nat), (∀ x ∈ l, p x = true → q x = true) → l.countP p ≤ l.countP q
  | [], _ => by simp
  | a :: l, h => by
    have ih := countP_le l (fun x hx => h x (List.mem_cons_of_mem _ hx))
    rw [List.countP_cons, List.countP_cons]
    have := h a (by simp)
    cases hp : p a <;> cases hq : q a <;> simp_all <;> omega

theorem countP_lt {p q : Nat → Bool} : ∀ {l : List Nat} {x : Nat}, (∀ x ∈ l, p x = true → q x = true) → x ∈ l → q x = true → p x = false → l.countP p + 1 ≤ l.countP q
  | a :: l, x, h, hx, hq, hp => by
    have ih := countP_le l (fun x hx => h x (List.mem_cons_of_mem _ hx))
    rw [List.countP_cons, List.countP_cons]
    rcases List.mem_cons.1 hx with rfl | hx
    · rw [hq, hp]; simp; omega
    · have := countP_lt (l := l) (fun x hx => h x (List.mem_cons_of_mem _ hx)) hx hq hp
      have := h a (by simp)
      cases hp' : p a <;> cases hq' : q a <;> simp_all <;> omega

/-! ## Guides -/

/-- The unit is not marked. -/
def isFree (t : List UInt8) (i : Nat) : Bool := match GuideBuilder.isFixed t i with | .ok false => true | _ => false

/-- How many units are not marked. -/
def free (t : List UInt8) : Nat := (List.range (8 * t.length)).countP (isFree t)

theorem isFree_iff {t : List UInt8} {i : Nat} (h : i / 8 < t.length) : isFree t i = true ↔ ¬ Fixed t i := by
  unfold isFree Fixed
  rw [isFixed_eq h]
  cases (t[i / 8]).toNat.testBit (i % 8) <;> simp

theorem free_le (t : List UInt8) : free t ≤ 8 * t.length := by
  have := List.countP_le_length (p := isFree t) (l := List.range (8 * t.length))
  rwa [List.length_range] at this

theorem isFixed_lt {t : List UInt8} {i : Nat} {b : Bool} (h : GuideBuilder.isFixed t i = .ok b) : i / 8 < t.length := by
  unfold GuideBuilder.isFixed at h
  rw [bind_eq_ok] at h
  obtain ⟨x, h1, _⟩ := h
  exact (List.getElem?_eq_some_iff.1 (rd_eq_ok.1 h1)).1

theorem free_mark {t t' : List UInt8} {i : Nat} (h : GuideBuilder.isFixed t i = .ok false) (h' : GuideBuilder.setIsFixed t i = .ok t') :
    t'.length = t.length ∧ free t' + 1 ≤ free t := by
  have hi := isFixed_lt h
  obtain ⟨t1, e1, e2, e3⟩ := setIsFixed_spec hi
  rw [e1] at h'
  cases h'
  refine ⟨e2, ?_⟩
  unfold free
  rw [e2]
  refine countP_lt (x := i) ?_ ?_ ?_ ?_
  · intro x hx hx'
    have hxl : x / 8 < t.length := by have := List.mem_range.1 hx; omega
    rw [isFree_iff (by rw [e2]; exact hxl)] at hx'
    rw [isFree_iff hxl]
    exact fun hc => hx' ((e3 x hxl).2 (.inl hc))
  · rw [List.mem_range]; omega
  · unfold isFree; rw [h]
  · rw [← Bool.not_eq_true, isFree_iff (by rw [e2]; exact hi)]
    exact fun hc => hc ((e3 i hi).2 (.inr rfl))

/-- Transitions of which no more than `m` lie side by side. -/
structure Bushy (d : Dawg) (m : Nat) (P : Nat → Prop) : Prop where
  /-- without the terminal one -/
  plain : ∀ {i c c' : Nat} {l : UInt8} {ks : List Nat}, P i → d.child i = .ok c → d.label c = .ok l → (if l = 0 then d.sibling c else pure c) = .ok c' → ¬ (l = 0 ∧ c' = 0) →
    d.chain (d.size + 1) c' = .ok ks → ks.length ≤ m ∧ ∀ k ∈ ks, P k
  all : ∀ {i : Nat} {ks : List Nat}, P i → DictBuilder.dawgKids d i = .ok ks → ks.length ≤ m ∧ ∀ k ∈ ks, ∀ l, d.label k = .ok l → l ≠ 0 → P k

section
variable {d : Dawg} {D : Dictionary} {m : Nat} {P : Nat → Prop}

theorem kidsLoopN_count {rec : GuideBuilder → Nat → Nat → Go ((GuideBuilder × Bool) × Nat)} {u : Nat}
    (IH : ∀ gb i x gb' ok n, P i → rec gb i x = .ok ((gb', ok), n) → gb'.isFixedTable.length = gb.isFixedTable.length ∧ n + m * free gb'.isFixedTable ≤ 1 + m * free gb.isFixedTable) :
    ∀ (ks : List Nat) (gb gb' : GuideBuilder) (ok : Bool) (n : Nat), (∀ k ∈ ks, P k) → GuideBuilder.kidsLoopN d D rec u ks gb = .ok ((gb', ok), n) →
      gb'.isFixedTable.length = gb.isFixedTable.length ∧ n + m * free gb'.isFixedTable ≤ ks.length + m * free gb.isFixedTable
  | [], gb, gb', ok, n, _, e => by
    rw [GuideBuilder.kidsLoopN] at e
    cases e
    exact ⟨rfl, by omega⟩
  | c :: ks, gb, gb', ok, n, hP, e => by
    rw [GuideBuilder.kidsLoopN, bind_eq_ok] at e
    obtain ⟨l, _, e⟩ := e
    rw [bind_eq_ok] at e
    obtain ⟨x, _, e⟩ := e
    cases x with
    | none => cases e; exact ⟨rfl, by simp only [List.length_cons]; omega⟩
    | some x =>
      simp only at e
      rw [bind_eq_ok] at e
      obtain ⟨⟨⟨gb1, ok1⟩, n1⟩, e1, e⟩ := e
      obtain ⟨i1, i2⟩ := IH _ _ _ _ _ _ (hP c (by simp)) e1
      cases ok1 with
      | false => cases e; exact ⟨i1, by simp only [List.length_cons]; omega⟩
      | true =>
        simp only [Bool.not_true, Bool.false_eq_true, if_false] at e
        rw [bind_eq_ok] at e
        obtain ⟨s, _, e⟩ := e
        rw [bind_eq_ok] at e
        obtain ⟨sl, _, e⟩ := e
        have tail : ∀ gb2 : GuideBuilder, gb2.isFixedTable = gb1.isFixedTable → (do
            let (r, m) ← GuideBuilder.kidsLoopN d D rec u ks gb2
            pure (r, n1 + m) : Go ((GuideBuilder × Bool) × Nat)) = .ok ((gb', ok), n) →
            gb'.isFixedTable.length = gb.isFixedTable.length ∧ n + m * free gb'.isFixedTable ≤ (c :: ks).length + m * free gb.isFixedTable := by
          intro gb2 h2 e
          rw [bind_eq_ok] at e
          obtain ⟨⟨⟨gb3, ok3⟩, n3⟩, e3, e⟩ := e
          cases e
          obtain ⟨j1, j2⟩ := kidsLoopN_count IH ks _ _ _ _ (fun k hk => hP k (List.mem_cons_of_mem _ hk)) e3
          rw [h2] at j1 j2
          exact ⟨j1.trans i1, by simp only [List.length_cons]; omega⟩
        by_cases hs : s ≠ 0
        · rw [if_pos hs, bind_eq_ok] at e
          obtain ⟨us, _, e⟩ := e
          exact tail ⟨us, gb1.isFixedTable⟩ rfl e
        · rw [if_neg hs] at e
          simp only [pure_bind] at e
          exact tail _ rfl e

theorem guideN_count (hb : Bushy d m P) : ∀ (k : Nat) (gb : GuideBuilder) (i u : Nat) (gb' : GuideBuilder) (ok : Bool) (n : Nat), P i →
    GuideBuilder.buildIndicesN d D k gb i u = .ok ((gb', ok), n) →
    gb'.isFixedTable.length = gb.isFixedTable.length ∧ n + m * free gb'.isFixedTable ≤ 1 + m * free gb.isFixedTable
  | 0, _, _, _, _, _, _, _, e => by cases e
  | k + 1, gb, i, u, gb', ok, n, hP, e => by
    rw [GuideBuilder.buildIndicesN, bind_eq_ok] at e
    obtain ⟨b, hbx, e⟩ := e
    cases b with
    | true => cases e; exact ⟨rfl, by omega⟩
    | false =>
      simp only [Bool.false_eq_true, if_false] at e
      rw [bind_eq_ok] at e
      obtain ⟨t, ht, e⟩ := e
      obtain ⟨f1, f2⟩ := free_mark hbx ht
      have f3 : m * free t + m ≤ m * free gb.isFixedTable := by
        have := Nat.mul_le_mul_left m f2
        rwa [Nat.mul_add, Nat.mul_one] at this
      rw [bind_eq_ok] at e
      obtain ⟨c, hc, e⟩ := e
      rw [bind_eq_ok] at e
      obtain ⟨l, hl, e⟩ := e
      obtain ⟨c', hc', e⟩ : ∃ c', (if l = 0 then d.sibling c else pure c) = .ok c' ∧ (do
          if l = 0 ∧ c' = 0 then return (({ gb with isFixedTable := t }, true), 1)
          let l' ← d.label c'
          let us ← GuideBuilder.setChild gb.units u l'
          let kids ← d.chain (d.size + 1) c'
          let (r, n) ← GuideBuilder.kidsLoopN d D (fun gb i x => GuideBuilder.buildIndicesN d D k gb i x) u kids { units := us, isFixedTable := t }
          return (r, n + 1) : Go ((GuideBuilder × Bool) × Nat)) = .ok ((gb', ok), n) := by
        by_cases h0 : l = 0
        · rw [if_pos h0] at e ⊢
          rw [bind_eq_ok] at e
          obtain ⟨c', h1, h2⟩ := e
          exact ⟨c', h1, h2⟩
        · rw [if_neg h0] at e ⊢
          simp only [pure_bind] at e
          exact ⟨c, rfl, e⟩
      by_cases hz : l = 0 ∧ c' = 0
      · rw [if_pos hz] at e
        cases e
        exact ⟨f1, by simp only; omega⟩
      · rw [if_neg hz, bind_eq_ok] at e
        obtain ⟨l', _, e⟩ := e
        rw [bind_eq_ok] at e
        obtain ⟨us, _, e⟩ := e
        rw [bind_eq_ok] at e
        obtain ⟨ks, hks, e⟩ := e
        rw [bind_eq_ok] at e
        obtain ⟨⟨⟨gb1, ok1⟩, n1⟩, e1, e⟩ := e
        cases e
        obtain ⟨q1, q2⟩ := hb.plain hP hc hl hc' hz hks
        obtain ⟨j1, j2⟩ := kidsLoopN_count (fun gb i x gb' ok n hPi e => guideN_count hb k gb i x gb' ok n hPi e) ks _ _ _ _ q2 e1
        simp only at j1 j2
        exact ⟨j1.trans f1, by omega⟩

theorem linksN_count {rec : RankedBuilder → Nat → Nat → Go ((RankedBuilder × Option Int) × Nat)} {u : Nat}
    (IH : ∀ rb i x rb' ok n, P i → rec rb i x = .ok ((rb', ok), n) → rb'.isFixedTable.length = rb.isFixedTable.length ∧ n + m * free rb'.isFixedTable ≤ 1 + m * free rb.isFixedTable) :
    ∀ (ks : List Nat) (rb rb' : RankedBuilder) (ls : Option (List Link)) (n : Nat), (∀ k ∈ ks, ∀ l, d.label k = .ok l → l ≠ 0 → P k) →
      RankedBuilder.enumerateLinksN d D rec u ks rb = .ok ((rb', ls), n) →
      rb'.isFixedTable.length = rb.isFixedTable.length ∧ n + m * free rb'.isFixedTable ≤ ks.length + m * free rb.isFixedTable
  | [], rb, rb', ls, n, _, e => by
    rw [RankedBuilder.enumerateLinksN] at e
    cases e
    exact ⟨rfl, by omega⟩
  | c :: ks, rb, rb', ls, n, hP, e => by
    rw [RankedBuilder.enumerateLinksN, bind_eq_ok] at e
    obtain ⟨l, hl, e⟩ := e
    have tail : ∀ (rb1 : RankedBuilder) (v : Int) (n1 : Nat), rb1.isFixedTable.length = rb.isFixedTable.length → n1 + m * free rb1.isFixedTable ≤ 1 + m * free rb.isFixedTable → (do
        let ((rb, ks'), m) ← RankedBuilder.enumerateLinksN d D rec u ks rb1
        pure ((rb, ks'.map ({ label := l, value := v } :: ·)), n1 + m) : Go ((RankedBuilder × Option (List Link)) × Nat)) = .ok ((rb', ls), n) →
        rb'.isFixedTable.length = rb.isFixedTable.length ∧ n + m * free rb'.isFixedTable ≤ (c :: ks).length + m * free rb.isFixedTable := by
      intro rb1 v n1 i1 i2 e
      rw [bind_eq_ok] at e
      obtain ⟨⟨⟨rb3, ls3⟩, n3⟩, e3, e⟩ := e
      cases e
      obtain ⟨j1, j2⟩ := linksN_count IH ks _ _ _ _ (fun k hk => hP k (List.mem_cons_of_mem _ hk)) e3
      exact ⟨j1.trans i1, by simp only [List.length_cons]; omega⟩
    by_cases h0 : l = 0
    · rw [if_pos h0, bind_eq_ok] at e
      obtain ⟨b, _, e⟩ := e
      cases b with
      | false =>
        cases e
        exact ⟨rfl, by simp only [List.length_cons]; omega⟩
      | true =>
        simp only [Bool.not_true, Bool.false_eq_true, if_false] at e
        rw [bind_eq_ok] at e
        obtain ⟨v', _, e⟩ := e
        simp only [pure_bind] at e
        exact tail rb _ 0 rfl (by omega) e
    · rw [if_neg h0, bind_eq_ok] at e
      obtain ⟨x, _, e⟩ := e
      cases x with
      | none =>
        cases e
        exact ⟨rfl, by simp only [List.length_cons]; omega⟩
      | some x =>
        simp only at e
        rw [bind_eq_ok] at e
        obtain ⟨⟨⟨rb1, v⟩, n1⟩, e1, e⟩ := e
        obtain ⟨i1, i2⟩ := IH _ _ _ _ _ _ (hP c (by simp) l hl h0) e1
        cases v with
        | none =>
          cases e
          exact ⟨i1, by simp only [List.length_cons]; omega⟩
        | some v => exact tail _ _ _ i1 i2 e

theorem rankedN_count {sorter : Sorter} {cmp : Int → Int → Bool} (hb : Bushy d m P) : ∀ (k : Nat) (rb : RankedBuilder) (i u : Nat) (rb' : RankedBuilder) (ok : Option Int) (n : Nat), P i →
    RankedBuilder.buildIndicesN sorter d D cmp k rb i u = .ok ((rb', ok), n) →
    rb'.isFixedTable.length = rb.isFixedTable.length ∧ n + m * free rb'.isFixedTable ≤ 1 + m * free rb.isFixedTable
  | 0, _, _, _, _, _, _, _, e => by cases e
  | k + 1, rb, i, u, rb', ok, n, hP, e => by
    rw [RankedBuilder.buildIndicesN, bind_eq_ok] at e
    obtain ⟨b, hbx, e⟩ := e
    cases b with
    | true =>
      simp only [if_true] at e
      rw [bind_eq_ok] at e
      obtain ⟨v, _, e⟩ := e
      cases e; exact ⟨rfl, by omega⟩
    | false =>
      simp only [Bool.false_eq_true, if_false] at e
      rw [bind_eq_ok] at e
      obtain ⟨t, ht, e⟩ := e
      obtain ⟨f1, f2⟩ := free_mark hbx ht
      have f3 : m * free t + m ≤ m * free rb.isFixedTable := by
        have := Nat.mul_le_mul_left m f2
        rwa [Nat.mul_add, Nat.mul_one] at this
      rw [bind_eq_ok] at e
      obtain ⟨ks, hks, e⟩ := e
      rw [bind_eq_ok] at e
      obtain ⟨⟨⟨rb1, ls⟩, n1⟩, e1, e⟩ := e
      obtain ⟨q1, q2⟩ := hb.all hP hks
      obtain ⟨j1, j2⟩ := linksN_count (fun rb i x rb' ok n hPi e => rankedN_count hb k rb i x rb' ok n hPi e) ks _ _ _ _ q2 e1
      simp only at j1 j2
      cases ls with
      | none =>
        cases e
        exact ⟨j1.trans f1, by simp only; omega⟩
      | some ls =>
        simp only at e
        rw [bind_eq_ok] at e
        obtain ⟨us, _, e⟩ := e
        rw [bind_eq_ok] at e
        obtain ⟨x, _, e⟩ := e
        cases e
        exact ⟨j1.trans f1, by simp only; omega⟩

/-- The transitions of a Dawg lie in groups of at most 256. -/
theorem bushy {At : Nat → Lang → Prop} {kid : Nat → UInt8 → Nat} {clean : UInt8 → Prop} {DAt : Nat → Lang → Prop} (V : View D At kid clean) (W : DView d DAt) :
    Bushy d 256 (fun i => ∃ u L, At u L ∧ DAt i L) := by
  have mem : ∀ {u L ks ls}, At u L → (∀ l ∈ ls, l = 0 ∨ l ∈ heads L) → DKids d DAt L ks ls → ks.length = ls.length ∧
      ∀ k ∈ ks, ∃ l ∈ ls, d.label k = .ok l ∧ (l ≠ 0 → ∃ u L, At u L ∧ DAt k L) := by
    intro u L ks ls h hls hk
    induction hk with
    | nil => exact ⟨rfl, by simp⟩
    | @cons k ks l ls hk0 hlab hsib hnext hrest ih =>
      obtain ⟨a1, a2⟩ := ih (fun x hx => hls x (List.mem_cons_of_mem _ hx))
      refine ⟨by rw [List.length_cons, List.length_cons, a1], ?_⟩
      intro k' hk'
      rcases List.mem_cons.1 hk' with rfl | hk'
      · refine ⟨l, by simp, hlab, fun hl0 => ?_⟩
        rcases hls l (by simp) with hz | hh
        · exact absurd hz hl0
        · exact ⟨_, _, V.step h hh, hnext hl0⟩
      · obtain ⟨l', b1, b2⟩ := a2 k' hk'
        exact ⟨l', List.mem_cons_of_mem _ b1, b2⟩
  have harc : ∀ {L : Lang}, ∀ l ∈ arcs L, l = 0 ∨ l ∈ heads L := by
    intro L l hl
    rcases mem_arcs.1 hl with ⟨hz, _⟩ | hh
    · exact .inl hz
    · exact .inr hh
  constructor
  · rintro i c c' l ks ⟨u, L, h, hi⟩ hc hl hc' hz hks
    obtain ⟨ks0, k1, k2, k3⟩ := W.kids hi
    rw [hc] at k1
    cases k1
    -- the transitions without the terminal one
    have fin : ∀ ks', DKids d DAt L ks' (heads L) → ks'.length < d.size → ks' ≠ [] → c' = ks'.headD 0 → ks.length ≤ 256 ∧ ∀ k ∈ ks, ∃ u L, At u L ∧ DAt k L := by
      intro ks' hk' hlen hne he
      rw [he, hk'.chain hne (by omega)] at hks
      cases hks
      obtain ⟨a1, a2⟩ := mem h (fun l hl => .inr hl) hk'
      refine ⟨by rw [a1]; exact heads_length L, fun k hk => ?_⟩
      obtain ⟨l', b1, _, b3⟩ := a2 k hk
      exact b3 (V.heads_ne_zero h b1)
    by_cases hany : L.any (fun e => e.1 == []) = true
    · have harcs : arcs L = 0 :: heads L := by unfold arcs; rw [if_pos hany]; rfl
      rw [harcs] at k2
      cases k2 with
      | @cons k ks' _ _ hk0 hlab hsib hnext hrest =>
        rw [List.headD_cons] at hl hc'
        rw [hlab] at hl
        cases hl
        rw [if_pos rfl, hsib] at hc'
        cases hc'
        refine fin ks' hrest (by simp only [List.length_cons] at k3; omega) ?_ rfl
        rintro rfl
        exact hz ⟨rfl, rfl⟩
    · have harcs : arcs L = heads L := by unfold arcs; rw [if_neg hany]; rfl
      rw [harcs] at k2
      have hne' : ks0 ≠ [] := by
        rintro rfl
        have hz : heads L = [] := by generalize heads L = A at k2; cases k2; rfl
        rcases V.shape h with ⟨_, h2⟩ | ⟨v, h2, _⟩
        · rw [hz] at h2; exact V.ne h h2
        · exact hany (by rw [h2]; simp)
      have hlab : d.label (ks0.headD 0) = .ok ((heads L).headD 0) ∧ (heads L).headD 0 ≠ 0 := by
        have hnz : ∀ l ∈ heads L, l ≠ 0 := fun l hl => V.heads_ne_zero h hl
        generalize heads L = A at k2 hnz
        cases k2 with
        | nil => exact absurd rfl hne'
        | cons _ hl' _ _ _ => exact ⟨hl', hnz _ (by simp)⟩
      rw [hlab.1] at hl
      cases hl
      rw [if_neg hlab.2] at hc'
      cases hc'
      exact fin ks0 k2 k3 hne' rfl
  · rintro i ks ⟨u, L, h, hi⟩ hks
    obtain ⟨ks0, k1, k2, k3⟩ := W.kids hi
    have hks0 : ks = ks0 := by
      unfold DictBuilder.dawgKids at hks
      rw [k1] at hks
      simp only [ok_bind] at hks
      by_cases hne : ks0 = []
      · subst hne
        rw [List.headD_nil, if_pos rfl] at hks
        cases hks; rfl
      · have h0 : ks0.headD 0 ≠ 0 := by
          generalize arcs L = A at k2
          cases k2 with
          | nil => exact absurd rfl hne
          | cons hk _ _ _ _ => exact hk
        rw [if_neg h0, k2.chain hne (by omega)] at hks
        cases hks; rfl
    subst hks0
    obtain ⟨a1, a2⟩ := mem h harc k2
    refine ⟨by rw [a1]; exact arcs_length V h, fun k hk l hl hl0 => ?_⟩
    obtain ⟨l', _, b2, b3⟩ := a2 k hk
    rw [hl] at b2
    cases b2
    exact b3 hl0

end

/-! ## Indices -/

/-- How many counts are zero, without the one of `u`. -/
def zerosBut (u : Nat) (us : List Nat) : Nat := (List.range us.length).countP (fun i => i != u && us[i]? == some 0)

/-- How many counts are zero. -/
def zeros (us : List Nat) : Nat := (List.range us.length).countP (fun i => us[i]? == some 0)

theorem countP_split {p : Nat → Bool} {u : Nat} : ∀ {l : List Nat}, l.Nodup → u ∈ l → l.countP p = l.countP (fun i => i != u && p i) + if p u then 1 else 0
  | a :: l, hn, hu => by
    obtain ⟨h1, h2⟩ := List.nodup_cons.1 hn
    rw [List.countP_cons, List.countP_cons]
    by_cases ha : a = u
    · subst ha
      have : l.countP (fun i => i != a && p i) = l.countP p := by
        apply List.countP_congr
        intro x hx
        have : x ≠ a := fun he => h1 (he ▸ hx)
        simp [this]
      rw [this]; simp
    · have hu' : u ∈ l := by
        rcases List.mem_cons.1 hu with h | h
        · exact absurd h.symm ha
        · exact h
      rw [countP_split h2 hu']
      have : (a != u && p a) = p a := by simp [ha]
      rw [this]; omega

theorem zeros_split {us : List Nat} {u c : Nat} (h : us[u]? = some c) : zeros us = zerosBut u us + if c = 0 then 1 else 0 := by
  unfold zeros zerosBut
  rw [countP_split (u := u) List.nodup_range (List.mem_range.2 (List.getElem?_eq_some_iff.1 h).1), h]
  simp

theorem zerosBut_set (us : List Nat) (u v : Nat) : zerosBut u (us.set u v) = zerosBut u us := by
  unfold zerosBut
  rw [List.length_set]
  apply List.countP_congr
  intro x _
  by_cases hx : x = u
  · simp [hx]
  · rw [List.getElem?_set_ne (Ne.symm hx)]

theorem zeros_le (us : List Nat) : zeros us ≤ us.length := by
  have := List.countP_le_length (p := fun i => us[i]? == some 0) (l := List.range us.length)
  rwa [List.length_range] at this

/-- What the two kinds of indices have in common: `f` counts the keys that are found, `X` are the transitions that are followed, `Inv` holds while `BuildIndex` runs. -/
structure Counting (D : Dictionary) (At : Nat → Lang → Prop) (kid : Nat → UInt8 → Nat) (ord : Lang → List UInt8) (gd : Guide) (Inv : List Nat → List Nat → Prop) (f : Lang → Nat)
    (X : Lang → List UInt8) : Prop where
  call : ∀ {fuel us S u L}, Inv us S → At u L → us[u]? = some 0 → (∀ x ∈ S, Above At L x) → (∀ e ∈ L, e.1.length < fuel) →
    ∃ us', IndexBuilder.buildIndices D gd fuel us u = .ok (us', true) ∧ Inv us' S ∧ Later us us' S ∧ us'[u]? = some (f L)
  done : ∀ {us S u L}, Inv us S → At u L → u ∉ S → us[u]? = some 0 ∨ us[u]? = some (f L)
  add : ∀ {us S} {u c n : Nat}, Inv us (u :: S) → us[u]? = some c → Inv (us.set u (c + n)) (u :: S)
  push : ∀ {us S} {u : Nat}, Inv us S → us[u]? = some 0 → Inv us (u :: S)
  pos : ∀ {u L}, At u L → f L ≠ 0
  sum : ∀ {u L}, At u L → hereN L + ((X L).map (fun l => f (residual L [l]))).sum < 4294967296
  tail : ∀ {u L}, At u L → ∃ Y, Y.headD 0 = 0 ∧ ord L = X L ++ Y
  sub : ∀ {u L l}, At u L → l ∈ X L → l ∈ heads L

section
variable {D : Dictionary} {At : Nat → Lang → Prop} {kid : Nat → UInt8 → Nat} {clean : UInt8 → Prop} {ord : Lang → List UInt8} {gd : Guide} {Inv : List Nat → List Nat → Prop}
  {f : Lang → Nat} {X : Lang → List UInt8}

/-- The number of calls. -/
def ICount (D : Dictionary) (At : Nat → Lang → Prop) (gd : Guide) (Inv : List Nat → List Nat → Prop) (fuel : Nat) : Prop :=
  ∀ {us S u L us' b n}, Inv us S → At u L → us[u]? = some 0 → (∀ x ∈ S, Above At L x) → (∀ e ∈ L, e.1.length < fuel) →
    IndexBuilder.buildIndicesN D gd fuel us u = .ok ((us', b), n) → n + zeros us' ≤ zeros us

theorem indexLoop_count (V : View D At kid clean) (hg : GuideIs D At kid ord gd) (hX : Counting D At kid ord gd Inv f X) {fuel : Nat} (IH : ICount D At gd Inv fuel)
    {u : Nat} {L : Lang} (h : At u L) {S : List Nat} (hS : ∀ x ∈ S, Above At L x) (hfu : ∀ e ∈ L, e.1.length < fuel + 1) {Y : List UInt8} (hY : Y.headD 0 = 0)
    (hord : ord L = X L ++ Y) :
    ∀ (B : List UInt8) {A us c us' b m} (n : Nat), X L = A ++ B → us[u]? = some c → c + (B.map (fun l => f (residual L [l]))).sum < 4294967296 → Inv us (u :: S) →
    IndexBuilder.loopN D gd (fun us i => IndexBuilder.buildIndicesN D gd fuel us i) u n us ((B ++ Y).headD 0) = .ok ((us', b), m) → m + zerosBut u us' ≤ zerosBut u us
  | _, _, _, _, _, _, _, 0, _, _, _, _, e => by cases e
  | [], A, us, c, us', b, m, n + 1, _, hc, _, w, e => by
    rw [IndexBuilder.loopN, List.nil_append, if_pos hY] at e
    cases e
    omega
  | l :: B, A, us, c, us', b, m, n + 1, hB, hc, hov, w, e => by
    have hl : l ∈ heads L := hX.sub h (by rw [hB]; simp)
    have hl0 := V.heads_ne_zero h hl
    have hk := V.step h hl
    have habove : ∀ x ∈ u :: S, Above At (residual L [l]) x := by
      intro x hx
      rcases List.mem_cons.1 hx with rfl | hx
      · exact Above.self V h l
      · exact (hS x hx).down
    have hkS : kid u l ∉ u :: S := fun hc => (habove _ hc).ne V hk rfl
    have hdep : ∀ e ∈ residual L [l], e.1.length < fuel := by
      intro e he
      obtain ⟨e', he', h4, _⟩ := depth_lt he
      have := hfu e' he'
      rw [h4] at this
      simp only [List.length_cons] at this; omega
    rw [List.map_cons, List.sum_cons] at hov
    rw [IndexBuilder.loopN, List.cons_append, List.headD_cons, if_neg hl0, V.follow h hl] at e
    simp only [ok_bind] at e
    have tail : ∀ (us1 : List Nat) (n1 : Nat), Inv us1 (u :: S) → us1[u]? = some c → us1[kid u l]? = some (f (residual L [l])) → n1 + zerosBut u us1 ≤ zerosBut u us → (do
        let z ← rd us1 (kid u l)
        let us ← IndexBuilder.addTo us1 u z
        let s ← gd.sibling (kid u l)
        let (r, m) ← IndexBuilder.loopN D gd (fun us i => IndexBuilder.buildIndicesN D gd fuel us i) u n us s
        pure (r, n1 + m) : Go ((List Nat × Bool) × Nat)) = .ok ((us', b), m) → m + zerosBut u us' ≤ zerosBut u us := by
      intro us1 n1 w1 hc1 hk1 hz1 e
      rw [rd_some hk1] at e
      simp only [ok_bind] at e
      rw [addTo_ok hc1 (by omega)] at e
      simp only [ok_bind] at e
      rw [hg.sibling (pre := A) (post := B ++ Y) h (by rw [hord, hB]; simp)] at e
      simp only [ok_bind] at e
      rw [bind_eq_ok] at e
      obtain ⟨⟨⟨us2, b2⟩, n2⟩, e2, e⟩ := e
      cases e
      have := indexLoop_count V hg hX IH h hS hfu hY hord B (A := A ++ [l]) n (by rw [hB]; simp)
        (by rw [List.getElem?_set_self (List.getElem?_eq_some_iff.1 hc1).1]) (by omega) (hX.add w1 hc1) e2
      rw [zerosBut_set] at this
      omega
    rcases hX.done w hk hkS with hz | hz
    · rw [rd_some hz] at e
      simp only [ok_bind, if_true] at e
      rw [bind_eq_ok] at e
      obtain ⟨⟨⟨us1, b1⟩, n1⟩, e1, e⟩ := e
      obtain ⟨us1', a1, a2, a3, a4⟩ := hX.call (fuel := fuel) w hk hz habove hdep
      have hsame : us1 = us1' ∧ b1 = true := by
        rw [← indexN_fst, e1] at a1
        cases a1
        exact ⟨rfl, rfl⟩
      obtain ⟨rfl, rfl⟩ := hsame
      have hcnt := IH w hk hz habove hdep e1
      have hc1 : us1[u]? = some c := by rw [a3.same u (by simp)]; exact hc
      rw [zeros_split hc, zeros_split hc1] at hcnt
      exact tail us1 n1 a2 hc1 a4 (by omega) e
    · rw [rd_some hz] at e
      simp only [ok_bind] at e
      rw [if_neg (hX.pos hk)] at e
      simp only [pure_bind] at e
      exact tail us 0 w hc hz (by omega) e

theorem index_count (V : View D At kid clean) (hg : GuideIs D At kid ord gd) (hX : Counting D At kid ord gd Inv f X) : ∀ fuel, ICount D At gd Inv fuel := by
  intro fuel
  induction fuel with
  | zero =>
    intro us S u L us' b n _ _ _ _ _ e
    cases e
  | succ fuel IH =>
    intro us S u L us' b n w h hz hS hfu e
    obtain ⟨us0, a1, a2, a3, a4⟩ := hX.call (fuel := fuel + 1) w h hz hS hfu
    have hsame : us' = us0 := by
      rw [← indexN_fst, e] at a1
      cases a1
      rfl
    subst hsame
    have hend := zeros_split a4
    rw [if_neg (hX.pos h)] at hend
    have hstart := zeros_split hz
    rw [if_pos rfl] at hstart
    obtain ⟨Y, hY, hord⟩ := hX.tail h
    have hsum := hX.sum h
    have tail : ∀ us1, Inv us1 (u :: S) → us1[u]? = some (hereN L) → zerosBut u us1 = zerosBut u us → (do
        let child ← gd.child u
        let (r, n) ← IndexBuilder.loopN D gd (fun us i => IndexBuilder.buildIndicesN D gd fuel us i) u 257 us1 child
        pure (r, n + 1) : Go ((List Nat × Bool) × Nat)) = .ok ((us', b), n) → n + zeros us' ≤ zeros us := by
      intro us1 w1 c1 z1 e
      rw [hg.child h, hord] at e
      simp only [ok_bind] at e
      rw [bind_eq_ok] at e
      obtain ⟨⟨⟨us2, b2⟩, n2⟩, e2, e⟩ := e
      cases e
      have := indexLoop_count V hg hX IH h hS hfu hY hord (X L) (A := []) 257 rfl c1 hsum w1 e2
      omega
    rw [IndexBuilder.buildIndicesN, V.hasValue h] at e
    simp only [ok_bind] at e
    have w0 := hX.push w hz
    unfold hereN at tail
    cases hany : L.any (fun e => e.1 == []) with
    | false =>
      rw [hany] at e tail
      simp only [Bool.false_eq_true, if_false, pure_bind] at e tail
      exact tail us w0 hz rfl e
    | true =>
      rw [hany] at e tail
      simp only [if_true] at e tail
      rw [addTo_ok hz (by omega)] at e
      simp only [ok_bind] at e
      exact tail _ (hX.add w0 hz) (by rw [List.getElem?_set_self (List.getElem?_eq_some_iff.1 hz).1]) (zerosBut_set _ _ _) e

theorem counting_plain (V : View D At kid clean) (hg : GuideIs D At kid heads gd) :
    Counting D At kid heads gd (Cnt D At kid) List.length heads where
  call := fun w h hz hS hfu => index_call V hg cutOk_heads _ w h hz hS hfu
  done := fun w h hS => by
    rcases w.done h hS with e | e
    · exact .inl e
    · exact .inr e.1
  add := fun w h => w.add h
  push := by
    intro us S u w hz
    refine ⟨w.len, ?_⟩
    intro v M hv hvS
    rw [List.mem_cons, not_or] at hvS
    rcases w.done hv hvS.2 with e | ⟨e1, e2⟩
    · exact .inl e
    · refine .inr ⟨e1, fun l hl => ⟨(e2 l hl).1, ?_⟩⟩
      rw [List.mem_cons, not_or]
      exact ⟨fun he => (e2 l hl).1 (by rw [he]; exact hz), (e2 l hl).2⟩
  pos := fun h => by
    have := List.length_pos_iff.2 (V.ne h); omega
  sum := by
    intro u L h
    have h1 := V.length_eq h
    have h2 := V.total h
    have h3 : ∀ ls, (ls.map (fun l => (residual L [l]).length)).sum = (under L ls).length := by
      intro ls
      induction ls with
      | nil => rfl
      | cons a ls ih => rw [List.map_cons, List.sum_cons, ih, under_cons_length]
    rw [h3]
    omega
  tail := fun {_ L} _ => ⟨[], rfl, by simp⟩
  sub := fun _ hl => hl

theorem counting_cut (V : View D At kid clean) (hg : GuideIs D At kid ord gd) (ho : OrdPerm At ord) :
    Counting D At kid ord gd (CutCnt D At kid ord) (cnt D ord) (cutOf ord) where
  call := fun w h hz hS hfu => cut_call V hg ho _ w h hz hS hfu
  done := fun w h hS => by
    rcases w.done h hS with e | e
    · exact .inl e
    · exact .inr e.1
  add := fun w h => w.add h
  push := by
    intro us S u w hz
    refine ⟨w.len, ?_⟩
    intro v M hv hvS
    rw [List.mem_cons, not_or] at hvS
    rcases w.done hv hvS.2 with e | ⟨e1, e2⟩
    · exact .inl e
    · refine .inr ⟨e1, fun l hl => ⟨(e2 l hl).1, ?_⟩⟩
      rw [List.mem_cons, not_or]
      exact ⟨fun he => (e2 l hl).1 (by rw [he]; exact hz), (e2 l hl).2⟩
  pos := fun h => by
    have := cnt_pos V ho _ h (V.small h); omega
  sum := by
    intro u L h
    have h1 := cnt_eq V ho h
    have h2 := V.total h
    have h3 := cnt_le V ho h
    omega
  tail := fun {_ L} _ => by
    obtain ⟨Y, h1, h2⟩ := cut_tail ord L
    exact ⟨Y, h2, h1⟩
  sub := fun h hl => cut_heads ho h hl

end
end Dawg.Guided
