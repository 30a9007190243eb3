import Verif.Proof.Guide.CutRank
/-! # StringToIndex for stored keys, seen or not -/
namespace Dawg.Guided
attribute [-simp] List.length_flatten
open Dawg.Abs Dawg.Spec Dawg.Dict

section
variable {D : Dictionary} {At : Nat → Lang → Prop} {kid : Nat → UInt8 → Nat} {clean : UInt8 → Prop} {ord : Lang → List UInt8} {gd : Guide} {idx : Index}

/-- The transitions that are skipped, whatever their counts `c`: those below `b` as far as the list has no other. -/
theorem skip_any (V : View D At kid clean) (hg : GuideIs D At kid ord gd) (ho : OrdPerm At ord) {u : Nat} {L : Lang} (h : At u L) {c : UInt8 → Nat}
    (hi : ∀ l ∈ cutOf ord L, idx.childCount (kid u l) = .ok (c l)) {Y : List UInt8} (hY : Y.headD 0 = 0) (hord : ord L = cutOf ord L ++ Y) (b : UInt8) :
    ∀ (A : List UInt8) {A0 : List UInt8} {r fuel : Nat}, cutOf ord L = A0 ++ A → A.length < fuel → r + (A.map c).sum < 4294967296 →
    ∃ A1 A2, A = A1 ++ A2 ∧ (∀ x ∈ A1, x < b) ∧ (∀ x A3, A2 = x :: A3 → ¬ x < b) ∧
      Indexer.skip D gd idx u b fuel r ((A ++ Y).headD 0) = .ok (some (r + (A1.map c).sum, A2.headD 0))
  | [], A0, r, fuel, hL, hf, _ => by
    obtain ⟨fuel, rfl⟩ : ∃ m, fuel = m + 1 := ⟨fuel - 1, by omega⟩
    refine ⟨[], [], rfl, by simp, by simp, ?_⟩
    rw [Indexer.skip, List.nil_append, hY, if_neg (fun hc => hc.2 rfl)]
    rfl
  | l :: A, A0, r, fuel, hL, hf, hov => by
    obtain ⟨fuel, rfl⟩ : ∃ m, fuel = m + 1 := ⟨fuel - 1, by omega⟩
    have hlc : l ∈ cutOf ord L := by rw [hL]; simp
    have hl : l ∈ heads L := cut_heads ho h hlc
    have hl0 := V.heads_ne_zero h hl
    rw [List.map_cons, List.sum_cons] at hov
    by_cases hlb : l < b
    · obtain ⟨A1, A2, e1, e2, e3, e5⟩ := skip_any V hg ho h hi hY hord b A (A0 := A0 ++ [l]) (r := r + c l) (fuel := fuel) (by rw [hL]; simp)
        (by simp only [List.length_cons] at hf; omega) (by omega)
      refine ⟨l :: A1, A2, by rw [e1]; rfl, ?_, e3, ?_⟩
      · intro x hx
        rcases List.mem_cons.1 hx with rfl | hx
        · exact hlb
        · exact e2 x hx
      · rw [Indexer.skip, List.cons_append, List.headD_cons, if_pos ⟨hlb, hl0⟩, V.follow h hl]
        simp only [ok_bind]
        rw [hi l hlc]
        simp only [ok_bind]
        rw [u32_of_lt (by omega), hg.sibling (pre := A0) (post := A ++ Y) h (by rw [hord, hL]; simp)]
        simp only [ok_bind]
        rw [e5, List.map_cons, List.sum_cons, Nat.add_assoc]
    · refine ⟨[], l :: A, rfl, by simp, fun x A3 hx => by cases hx; exact hlb, ?_⟩
      rw [Indexer.skip, List.cons_append, List.headD_cons, if_neg (fun hc => hlb hc.1)]
      rfl

/-- How many words of `L` are smaller than `k`. -/
def below (L : Lang) (k : Key) : Nat := L.countP (fun e => decide (e.1 < k))

theorem length_residual_one (L : Lang) (l : UInt8) : (residual L [l]).length = L.countP (fun e => [l].isPrefixOf e.1) := by
  unfold residual
  rw [List.length_map, List.countP_eq_length_filter]

/-- The rest of `x` behind the byte `l` is smaller than `k`. -/
def restBelow (l : UInt8) (k x : Key) : Bool := [l].isPrefixOf x && decide (x.drop 1 < k)

theorem below_residual_one (L : Lang) (l : UInt8) (k : Key) : below (residual L [l]) k = L.countP (fun e => restBelow l k e.1) := by
  unfold below residual
  rw [List.countP_map, List.countP_filter]
  apply List.countP_congr
  intro e _
  simp [restBelow, and_comm]

theorem sum_zero_of {A : List UInt8} {f : UInt8 → Nat} (h : ∀ l ∈ A, f l = 0) : (A.map f).sum = 0 := by
  induction A with
  | nil => rfl
  | cons a A ih => rw [List.map_cons, List.sum_cons, h a (by simp), ih (fun l hl => h l (by simp [hl]))]

theorem sum_map_add {A : List UInt8} {f g : UInt8 → Nat} : (A.map (fun l => f l + g l)).sum = (A.map f).sum + (A.map g).sum := by
  induction A with
  | nil => rfl
  | cons a A ih => simp only [List.map_cons, List.sum_cons, ih]; omega

theorem sum_map_le {A : List UInt8} {f g : UInt8 → Nat} (h : ∀ l ∈ A, f l ≤ g l) : (A.map f).sum ≤ (A.map g).sum := by
  induction A with
  | nil => exact Nat.le_refl _
  | cons a A ih =>
    have := h a (by simp)
    have := ih (fun l hl => h l (by simp [hl]))
    simp only [List.map_cons, List.sum_cons]; omega

theorem sum_le_of_subset {f : UInt8 → Nat} : ∀ {A B : List UInt8}, A.Nodup → (∀ l ∈ A, l ∈ B) → (A.map f).sum ≤ (B.map f).sum
  | [], B, _, _ => by simp
  | a :: A, B, h, hs => by
    obtain ⟨X, Y, rfl⟩ := List.append_of_mem (hs a (by simp))
    obtain ⟨h1, h2⟩ := List.nodup_cons.1 h
    have := sum_le_of_subset (f := f) (A := A) (B := X ++ Y) h2 (fun l hl => by
      have h3 := hs l (by simp [hl])
      rw [List.mem_append, List.mem_cons] at h3
      rw [List.mem_append]
      rcases h3 with h3 | rfl | h3
      · exact .inl h3
      · exact absurd hl h1
      · exact .inr h3)
    simp only [List.map_append, List.map_cons, List.sum_append, List.sum_cons] at this ⊢
    omega

/-- What is passed on the way is smaller. -/
theorem below_cons (L : Lang) {b : UInt8} (k : Key) {A : List UInt8} (hA : ∀ l ∈ A, l < b) (hnd : A.Nodup) :
    L.countP (fun e => e.1 == []) + (A.map (fun l => L.countP (fun e => [l].isPrefixOf e.1))).sum + L.countP (fun e => restBelow b k e.1) ≤ below L (b :: k) := by
  induction L with
  | nil => simp [below, sum_zero_of]
  | cons e L ih =>
    unfold below at ih ⊢
    simp only [List.countP_cons, sum_map_add]
    suffices (if (e.1 == []) = true then 1 else 0) + (A.map (fun l => if [l].isPrefixOf e.1 = true then 1 else 0)).sum + (if restBelow b k e.1 = true then 1 else 0) ≤
        (if decide (e.1 < b :: k) = true then 1 else 0) by omega
    cases he : e.1 with
    | nil =>
      rw [sum_zero_of (by intro l _; simp)]
      simp [restBelow]
    | cons a t =>
      have h0 : ((a :: t) == ([] : Key)) = false := rfl
      rw [h0, if_neg (by simp)]
      by_cases hab : a = b
      · subst hab
        rw [sum_zero_of (by
          intro l hl
          rw [if_neg]
          simp only [List.isPrefixOf, Bool.and_true, beq_iff_eq]
          rintro rfl
          exact UInt8.lt_irrefl _ (hA _ hl))]
        by_cases ht : t < k
        · rw [if_pos (by simpa [restBelow] using ht), if_pos (by simpa using ht)]; omega
        · rw [if_neg (by simpa [restBelow] using ht)]; omega
      · have hz : ¬ (restBelow b k (a :: t) = true) := by
          simp only [restBelow, List.isPrefixOf, Bool.and_true, Bool.and_eq_true, beq_iff_eq]
          exact fun h => hab h.1.symm
        rw [if_neg hz]
        by_cases ha : a ∈ A
        · have hlt : (a :: t) < (b :: k) := List.Lex.rel (hA a ha)
          rw [if_pos (c := decide ((a :: t) < b :: k) = true) (by simpa using hlt)]
          obtain ⟨X, Y, rfl⟩ := List.append_of_mem ha
          rw [List.map_append, List.map_cons, List.sum_append, List.sum_cons]
          have hX : a ∉ X ∧ a ∉ Y := by
            rw [List.nodup_append] at hnd
            exact ⟨fun hx => hnd.2.2 a hx a (by simp) rfl, (List.nodup_cons.1 hnd.2.1).1⟩
          have hn : ∀ Z : List UInt8, a ∉ Z → (Z.map (fun l => if [l].isPrefixOf (a :: t) = true then 1 else 0)).sum = 0 := by
            intro Z hZ
            apply sum_zero_of
            intro l hl
            rw [if_neg]
            simp only [List.isPrefixOf, Bool.and_true, beq_iff_eq]
            rintro rfl
            exact hZ hl
          rw [hn X hX.1, hn Y hX.2]
          simp
        · rw [sum_zero_of (by
            intro l hl
            rw [if_neg]
            simp only [List.isPrefixOf, Bool.and_true, beq_iff_eq]
            rintro rfl
            exact ha hl)]
          omega

theorem hereN_le (L : Lang) : hereN L ≤ L.countP (fun e => e.1 == []) := by
  unfold hereN
  split
  · next h =>
    obtain ⟨e, he, hk⟩ := List.any_eq_true.1 h
    exact List.countP_pos_iff.2 ⟨e, he, hk⟩
  · omega

/-- A byte of `k` that nothing in the list of the guide reaches: all labels that come before the terminal one are smaller. -/
def Lost (ord : Lang → List UInt8) (L : Lang) (k : Key) : Prop := ∃ p b, p ++ [b] <+: k ∧ ∀ l ∈ cutOf ord (residual L p), l < b

theorem lost_cons {L : Lang} {b : UInt8} {k : Key} : Lost ord L (b :: k) ↔ (∀ l ∈ cutOf ord L, l < b) ∨ Lost ord (residual L [b]) k := by
  constructor
  · rintro ⟨p, c, hp, h⟩
    cases p with
    | nil =>
      rw [residual_nil] at h
      have : c = b := (List.cons_prefix_cons.1 hp).1
      subst this
      exact .inl h
    | cons a p =>
      obtain ⟨rfl, hp'⟩ := List.cons_prefix_cons.1 hp
      refine .inr ⟨p, c, hp', ?_⟩
      rwa [← residual_residual]
  · rintro (h | ⟨p, c, hp, h⟩)
    · exact ⟨[], b, by simp, by rwa [residual_nil]⟩
    · exact ⟨b :: p, c, by simpa using hp, by rwa [show b :: p = [b] ++ p from rfl, residual_residual]⟩

/-- `StringToIndex` of a key of the language: a number that is not greater than that of the smaller words, or `NotFound`. -/
theorem found_cut (V : View D At kid clean) (hg : GuideIs D At kid ord gd) (ho : OrdPerm At ord) (hi : CutIndex D At kid ord idx) : ∀ (k : Key) {u L r}, At u L →
    (∃ v, (k, v) ∈ L) → r + L.length < 4294967296 →
    (Indexer.bytesLoop D gd idx k u r = .ok Indexer.notFound ∧ Lost ord L k) ∨
    (∃ n, Indexer.bytesLoop D gd idx k u r = .ok (r + n) ∧ n ≤ below L k ∧ ¬ Lost ord L k)
  | [], u, L, r, h, ⟨v, hv⟩, _ => by
    have hany : (L.any (fun e => e.1 == [])) = true := List.any_eq_true.2 ⟨_, hv, by simp⟩
    refine .inr ⟨0, ?_, Nat.zero_le _, ?_⟩
    · rw [Indexer.bytesLoop, V.hasValue h, hany]
      rfl
    · rintro ⟨p, b, hp, _⟩
      have := hp.length_le
      simp at this
  | b :: k, u, L, r, h, ⟨v, hv⟩, hov => by
    have hbh : b ∈ heads L := by
      rw [mem_heads]
      intro hc
      have : (k, v) ∈ residual L [b] := by rw [mem_residual]; exact hv
      rw [hc] at this; cases this
    obtain ⟨Y, hord, hY⟩ := cut_tail ord L
    let c : UInt8 → Nat := fun l => match idx.childCount (kid u l) with | .ok n => n | .error _ => 0
    have hc : ∀ l ∈ cutOf ord L, idx.childCount (kid u l) = .ok (c l) ∧ c l ≤ (residual L [l]).length := by
      intro l hl
      have hk := V.step h (cut_heads ho h hl)
      rcases hi.count hk with hz | ⟨hz, _⟩
      · have : c l = 0 := by simp only [c, hz]
        rw [this]
        exact ⟨hz, Nat.zero_le _⟩
      · have : c l = cnt D ord (residual L [l]) := by simp only [c, hz]
        rw [this]
        exact ⟨hz, cnt_le V ho hk⟩
    have hnd := cut_nodup V ho h
    have hsum : ∀ A : List UInt8, A.Nodup → (∀ l ∈ A, l < b) → (∀ l ∈ A, l ∈ cutOf ord L) → ∀ k', hereN L + (A.map c).sum + below (residual L [b]) k' ≤ below L (b :: k') := by
      intro A h1 h2 h3 k'
      have h4 := below_cons L k' h2 h1
      have h5 := hereN_le L
      have h6 : (A.map c).sum ≤ (A.map (fun l => L.countP (fun e => [l].isPrefixOf e.1))).sum := sum_map_le (fun l hl => by
        rw [← length_residual_one]; exact (hc l (h3 l hl)).2)
      rw [below_residual_one]
      omega
    have hlen := cut_length V ho h
    have htot : hereN L + ((cutOf ord L).map c).sum ≤ L.length := by
      have h6 : ((cutOf ord L).map c).sum ≤ ((heads L).map (fun l => (residual L [l]).length)).sum := by
        refine Nat.le_trans (sum_map_le fun l hl => (hc l hl).2) ?_
        exact sum_le_of_subset hnd (fun l hl => cut_heads ho h hl)
      have h7 := V.length_eq h
      have h8 : (under L (heads L)).length = ((heads L).map (fun l => (residual L [l]).length)).sum := by
        unfold under
        rw [List.length_flatMap]
        simp
      omega
    obtain ⟨A1, A2, e1, e2, e3, e4⟩ := skip_any V hg ho h (fun l hl => (hc l hl).1) hY hord b (cutOf ord L) (A0 := []) (r := r + hereN L) (fuel := 257) rfl (by omega) (by omega)
    rw [Indexer.bytesLoop, V.hasValue h]
    simp only [ok_bind]
    have hr : (if L.any (fun e => e.1 == []) = true then u32 (r + 1) else r) = r + hereN L := by
      have hle : r + hereN L < 4294967296 := by omega
      unfold hereN at hle ⊢
      by_cases hany : L.any (fun e => e.1 == []) = true
      · rw [if_pos hany] at hle
        rw [if_pos hany, if_pos hany, u32_of_lt hle]
      · rw [if_neg hany, if_neg hany, Nat.add_zero]
    rw [hr, hg.child h, hord]
    simp only [ok_bind]
    rw [e4]
    simp only [ok_bind]
    cases A2 with
    | nil =>
      rw [List.headD_nil, if_pos rfl]
      rw [List.append_nil] at e1
      exact .inl ⟨rfl, lost_cons.2 (.inl (by rw [e1]; exact e2))⟩
    | cons x A3 =>
      have hx : x ∈ cutOf ord L := by rw [e1]; simp
      rw [List.headD_cons, if_neg (V.heads_ne_zero h (cut_heads ho h hx)), V.follow h hbh]
      simp only [ok_bind]
      have hnot : ¬ ∀ l ∈ cutOf ord L, l < b := fun hall => e3 x A3 rfl (hall x hx)
      have hA1 : A1.Nodup := by rw [e1, List.nodup_append] at hnd; exact hnd.1
      have hsub : ∀ l ∈ A1, l ∈ cutOf ord L := fun l hl => by rw [e1]; simp [hl]
      have hbound : hereN L + (A1.map c).sum + (residual L [b]).length ≤ L.length := by
        have h4 := V.length_eq h
        have h8 : (under L (heads L)).length = ((heads L).map (fun l => (residual L [l]).length)).sum := by
          unfold under
          rw [List.length_flatMap]
          simp
        have h9 : (A1.map c).sum ≤ (A1.map (fun l => (residual L [l]).length)).sum := sum_map_le fun l hl => (hc l (hsub l hl)).2
        have h10 := sum_le_of_subset (A := b :: A1) (B := heads L) (f := fun l => (residual L [l]).length)
          (List.nodup_cons.2 ⟨fun hb => UInt8.lt_irrefl _ (e2 b hb), hA1⟩) (fun l hl => by
            rcases List.mem_cons.1 hl with rfl | hl
            · exact hbh
            · exact cut_heads ho h (hsub l hl))
        rw [List.map_cons, List.sum_cons] at h10
        omega
      rcases found_cut V hg ho hi k (r := r + hereN L + (A1.map c).sum) (V.step h hbh) ⟨v, by rw [mem_residual]; exact hv⟩ (by omega) with ⟨f1, f2⟩ | ⟨n, f1, f2, f3⟩
      · exact .inl ⟨f1, lost_cons.2 (.inr f2)⟩
      · refine .inr ⟨hereN L + (A1.map c).sum + n, by rw [f1]; congr 1; omega, ?_, fun hl => ?_⟩
        · have := hsum A1 hA1 e2 hsub k
          omega
        · rcases lost_cons.1 hl with hl | hl
          · exact hnot hl
          · exact f3 hl

end
end Dawg.Guided
