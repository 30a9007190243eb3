import Verif.Proof.Guide.Cut
/-! # StringToIndex for the keys that an index over a ranked guide sees -/
namespace Dawg.Guided
attribute [-simp] List.length_flatten
open Dawg.Abs Dawg.Spec Dawg.Dict

section
variable {D : Dictionary} {At : Nat → Lang → Prop} {kid : Nat → UInt8 → Nat} {clean : UInt8 → Prop} {ord : Lang → List UInt8} {gd : Guide} {idx : Index}

/-- The transitions that are skipped: those below `b` as far as the list has no other. -/
theorem skip_cut (V : View D At kid clean) (hg : GuideIs D At kid ord gd) (ho : OrdPerm At ord) {u : Nat} {L : Lang} (h : At u L)
    (hi : ∀ l ∈ cutOf ord L, idx.childCount (kid u l) = .ok (cnt D ord (residual L [l]))) {Y : List UInt8} (hord : ord L = cutOf ord L ++ Y) (b : UInt8) {B : List UInt8} :
    ∀ (A : List UInt8) {A0 : List UInt8} {r fuel : Nat}, cutOf ord L = A0 ++ A ++ b :: B → A.length < fuel → r + cntOf D ord L A < 4294967296 →
    ∃ A1 A2 l, A = A1 ++ A2 ∧ (∀ x ∈ A1, x < b) ∧ (A2 = [] ∨ ∃ x A3, A2 = x :: A3 ∧ ¬ x < b) ∧ l ≠ 0 ∧
      Indexer.skip D gd idx u b fuel r ((A ++ b :: B ++ Y).headD 0) = .ok (some (r + cntOf D ord L A1, l))
  | [], A0, r, fuel, hL, hf, _ => by
    obtain ⟨fuel, rfl⟩ : ∃ m, fuel = m + 1 := ⟨fuel - 1, by omega⟩
    refine ⟨[], [], b, rfl, by simp, .inl rfl, V.heads_ne_zero h (cut_heads ho h (by rw [hL]; simp)), ?_⟩
    rw [Indexer.skip, if_neg]
    · rfl
    · exact fun hc => absurd hc.1 (UInt8.lt_irrefl _)
  | l :: A, A0, r, fuel, hL, hf, hov => by
    obtain ⟨fuel, rfl⟩ : ∃ m, fuel = m + 1 := ⟨fuel - 1, by omega⟩
    have hlc : l ∈ cutOf ord L := by rw [hL]; simp
    have hl : l ∈ heads L := cut_heads ho h hlc
    have hl0 := V.heads_ne_zero h hl
    rw [cntOf_cons] at hov
    by_cases hlb : l < b
    · obtain ⟨A1, A2, m, e1, e2, e3, e4, e5⟩ := skip_cut V hg ho h hi hord b (B := B) A (A0 := A0 ++ [l]) (r := r + cnt D ord (residual L [l])) (fuel := fuel) (by rw [hL]; simp)
        (by simp only [List.length_cons] at hf; omega) (by omega)
      refine ⟨l :: A1, A2, m, by rw [e1]; rfl, ?_, e3, e4, ?_⟩
      · intro x hx
        rcases List.mem_cons.1 hx with rfl | hx
        · exact hlb
        · exact e2 x hx
      · rw [Indexer.skip, List.cons_append, List.cons_append, List.headD_cons, if_pos ⟨hlb, hl0⟩, V.follow h hl]
        simp only [ok_bind]
        rw [hi l hlc]
        simp only [ok_bind]
        rw [u32_of_lt (by omega), hg.sibling (pre := A0) (post := A ++ b :: B ++ Y) h (by rw [hord, hL]; simp)]
        simp only [ok_bind]
        rw [e5, cntOf_cons, Nat.add_assoc]
    · refine ⟨[], l :: A, l, rfl, by simp, .inr ⟨l, A, rfl, hlb⟩, hl0, ?_⟩
      rw [Indexer.skip, List.cons_append, List.cons_append, List.headD_cons, if_neg (fun hc => hlb hc.1)]
      rfl

theorem cntOf_pos (V : View D At kid clean) (ho : OrdPerm At ord) {u L} (h : At u L) {X : List UInt8} (hX : ∀ l ∈ X, l ∈ cutOf ord L) (hne : X ≠ []) : 0 < cntOf D ord L X := by
  cases X with
  | nil => exact absurd rfl hne
  | cons l X =>
    rw [cntOf_cons]
    have hk := V.step h (cut_heads ho h (hX l (by simp)))
    have := cnt_pos V ho _ hk (V.small hk)
    omega

theorem mem_findBehind {L : Lang} {X : List UInt8} {k : Key} : k ∈ findBehind D ord L X ↔ ∃ l ∈ X, ∃ t ∈ findable ord (D.size + 1) (residual L [l]), k = l :: t := by
  unfold findBehind
  rw [List.mem_flatMap]
  constructor
  · rintro ⟨l, hl, hk⟩
    obtain ⟨t, ht, rfl⟩ := List.mem_map.1 hk
    exact ⟨l, hl, t, ht, rfl⟩
  · rintro ⟨l, hl, t, ht, rfl⟩
    exact ⟨l, hl, List.mem_map_of_mem ht⟩

/-- The list `Y` of the keys up to `x` lets `x` count for `k`: those of them that start with some common prefix of `x` and `k` are smaller than `k`. -/
def counts (k : Key) (Y : List Key) (x : Key) : Bool :=
  (List.range (k.length + 1)).any (fun n => (k.take n).isPrefixOf x && Y.all (fun y => !(k.take n).isPrefixOf y || decide (y < k)))

theorem counts_iff {k : Key} {Y : List Key} {x : Key} : counts k Y x = true ↔ ∃ p, p <+: k ∧ p <+: x ∧ ∀ y ∈ Y, p <+: y → y < k := by
  unfold counts
  rw [List.any_eq_true]
  constructor
  · rintro ⟨n, _, h⟩
    rw [Bool.and_eq_true, List.all_eq_true] at h
    refine ⟨k.take n, List.take_prefix n k, List.isPrefixOf_iff_prefix.1 h.1, fun y hy hp => ?_⟩
    have := h.2 y hy
    rw [List.isPrefixOf_iff_prefix.2 hp] at this
    simpa using this
  · rintro ⟨p, h1, h2, h3⟩
    have hp : k.take p.length = p := (List.prefix_iff_eq_take.1 h1).symm
    refine ⟨p.length, List.mem_range.2 (Nat.lt_succ_of_le h1.length_le), ?_⟩
    rw [hp, Bool.and_eq_true, List.all_eq_true]
    refine ⟨List.isPrefixOf_iff_prefix.2 h2, fun y hy => ?_⟩
    by_cases hy' : p <+: y
    · have := h3 y hy hy'
      simp [this]
    · have : p.isPrefixOf y = false := by
        cases hb : p.isPrefixOf y with
        | false => rfl
        | true => exact absurd (List.isPrefixOf_iff_prefix.1 hb) hy'
      rw [this]
      rfl

/-- How many of the keys `X` that come after `pre` count for `k`. -/
def passed (k : Key) : List Key → List Key → Nat
  | _, [] => 0
  | pre, x :: X => (if counts k (pre ++ [x]) x then 1 else 0) + passed k (pre ++ [x]) X

theorem passed_append (k : Key) : ∀ (X : List Key) (pre X' : List Key), passed k pre (X ++ X') = passed k pre X + passed k (pre ++ X) X'
  | [], pre, X' => by simp [passed]
  | x :: X, pre, X' => by
    rw [List.cons_append, passed, passed, passed_append k X, List.append_assoc, List.singleton_append, Nat.add_assoc]

theorem passed_all {k : Key} : ∀ (X : List Key) {pre : List Key}, (∀ y ∈ pre, y < k) → (∀ x ∈ X, x < k) → passed k pre X = X.length
  | [], _, _, _ => rfl
  | x :: X, pre, h1, h2 => by
    have h3 : ∀ y ∈ pre ++ [x], y < k := by
      intro y hy
      rcases List.mem_append.1 hy with hy | hy
      · exact h1 y hy
      · rw [List.mem_singleton.1 hy]
        exact h2 x (by simp)
    rw [passed, if_pos (counts_iff.2 ⟨[], List.nil_prefix, List.nil_prefix, fun y hy _ => h3 y hy⟩), passed_all X h3 (fun y hy => h2 y (by simp [hy])), List.length_cons]
    omega

/-- Once a key that is not smaller was met, nothing that starts with another byte counts. -/
theorem passed_none {b : UInt8} {k : Key} : ∀ (X : List Key) {pre : List Key}, (∀ x ∈ X, ¬ [b] <+: x) → ((∃ y ∈ pre, ¬ y < b :: k) ∨ ∃ y X', X = y :: X' ∧ ¬ y < b :: k) →
    passed (b :: k) pre X = 0
  | [], _, _, _ => rfl
  | x :: X, pre, h1, h2 => by
    have h3 : ∃ y ∈ pre ++ [x], ¬ y < b :: k := by
      rcases h2 with ⟨y, hy, h⟩ | ⟨y, X', e, h⟩
      · exact ⟨y, by simp [hy], h⟩
      · cases e
        exact ⟨x, by simp, h⟩
    have hc : ¬ counts (b :: k) (pre ++ [x]) x = true := by
      rw [counts_iff]
      rintro ⟨p, p1, p2, p3⟩
      cases p with
      | nil =>
        obtain ⟨y, hy, h⟩ := h3
        exact h (p3 y hy List.nil_prefix)
      | cons c p =>
        have : c = b := (List.cons_prefix_cons.1 p1).1
        subst this
        exact h1 x (by simp) (List.IsPrefix.trans (by simp) p2)
    rw [passed, if_neg hc, passed_none X (fun y hy => h1 y (by simp [hy])) (.inl h3)]

theorem passed_map {b : UInt8} {k : Key} {pre : List Key} (hpre : ∀ y ∈ pre, ¬ [b] <+: y) : ∀ (X pre' : List Key),
    passed (b :: k) (pre ++ pre'.map (fun t => b :: t)) (X.map (fun t => b :: t)) = passed k pre' X
  | [], _ => rfl
  | x :: X, pre' => by
    have hc : counts (b :: k) (pre ++ pre'.map (fun t => b :: t) ++ [b :: x]) (b :: x) = counts k (pre' ++ [x]) x := by
      rw [Bool.eq_iff_iff, counts_iff, counts_iff]
      constructor
      · rintro ⟨p, p1, p2, p3⟩
        cases p with
        | nil =>
          refine ⟨[], List.nil_prefix, List.nil_prefix, fun y hy _ => ?_⟩
          have := p3 (b :: y) (by
            rcases List.mem_append.1 hy with hy | hy
            · simp [hy]
            · simp [List.mem_singleton.1 hy]) List.nil_prefix
          simpa using this
        | cons c p =>
          refine ⟨p, (List.cons_prefix_cons.1 p1).2, (List.cons_prefix_cons.1 p2).2, fun y hy hp => ?_⟩
          have hcb : c = b := (List.cons_prefix_cons.1 p1).1
          have := p3 (b :: y) (by
            rcases List.mem_append.1 hy with hy | hy
            · simp [hy]
            · simp [List.mem_singleton.1 hy]) (by rw [hcb]; exact List.cons_prefix_cons.2 ⟨rfl, hp⟩)
          simpa using this
      · rintro ⟨p, p1, p2, p3⟩
        refine ⟨b :: p, List.cons_prefix_cons.2 ⟨rfl, p1⟩, List.cons_prefix_cons.2 ⟨rfl, p2⟩, fun y hy hp => ?_⟩
        have hb : [b] <+: y := List.IsPrefix.trans (by simp) hp
        have : ∃ t ∈ pre' ++ [x], y = b :: t := by
          rcases List.mem_append.1 hy with hy | hy
          · rcases List.mem_append.1 hy with hy | hy
            · exact absurd hb (hpre y hy)
            · obtain ⟨t, ht, rfl⟩ := List.mem_map.1 hy
              exact ⟨t, by simp [ht], rfl⟩
          · exact ⟨x, by simp, List.mem_singleton.1 hy⟩
        obtain ⟨t, ht, rfl⟩ := this
        simpa using p3 t ht (List.cons_prefix_cons.1 hp).2
    rw [List.map_cons, passed, passed, hc]
    have := passed_map (k := k) hpre X (pre' ++ [x])
    rw [List.map_append, List.map_singleton, ← List.append_assoc] at this
    rw [this]

/-- `StringToIndex` of a key that is seen: at most its place in the list, and its place exactly if all keys before it are smaller. -/
theorem rank_cut (V : View D At kid clean) (hg : GuideIs D At kid ord gd) (ho : OrdPerm At ord) (hi : CutIndex D At kid ord idx) : ∀ (k : Key) {u L r}, At u L →
    idx.childCount u = .ok (cnt D ord L) → (∃ v, (k, v) ∈ L) → seen ord L k → r + cnt D ord L < 4294967296 →
    ∃ n X Z, Indexer.bytesLoop D gd idx k u r = .ok (r + n) ∧ findable ord (D.size + 1) L = X ++ k :: Z ∧ n ≤ X.length ∧ (n = X.length ↔ ∀ x ∈ X, x < k) ∧ n = passed k [] X
  | [], u, L, r, h, _, ⟨v, hv⟩, _, _ => by
    have hany : (L.any (fun e => e.1 == [])) = true := List.any_eq_true.2 ⟨_, hv, by simp⟩
    refine ⟨0, [], findBehind D ord L (cutOf ord L), ?_, ?_, by simp, by simp, rfl⟩
    · rw [Indexer.bytesLoop, V.hasValue h, hany]
      rfl
    · rw [findable_eq V ho h, hany]
      rfl
  | b :: k, u, L, r, h, hcu, ⟨v, hv⟩, ⟨hb, hk⟩, hov => by
    have hlen : cnt D ord L = hereN L + cntOf D ord L (cutOf ord L) := cnt_eq V ho h
    have hkids : ∀ l ∈ cutOf ord L, idx.childCount (kid u l) = .ok (cnt D ord (residual L [l])) := by
      rcases hi.count h with hz | ⟨_, hz⟩
      · rw [hcu] at hz
        have := cnt_pos V ho _ h (V.small h)
        simp only [Except.ok.injEq] at hz
        omega
      · exact hz
    obtain ⟨Y, hord, hY⟩ := cut_tail ord L
    obtain ⟨A, B, hcut⟩ := List.append_of_mem hb
    have hbh := cut_heads ho h hb
    have hu1 : cntOf D ord L (cutOf ord L) = cntOf D ord L A + (cnt D ord (residual L [b]) + cntOf D ord L B) := by
      rw [hcut, cntOf_append, cntOf_cons]
    have hl0 := cut_length V ho h
    have hAl : A.length < 257 := by
      rw [hcut] at hl0
      simp only [List.length_append, List.length_cons] at hl0
      omega
    obtain ⟨A1, A2, l, e1, e2, e3, e4, e5⟩ := skip_cut V hg ho h hkids hord b A (A0 := []) (r := r + hereN L) (fuel := 257) (by rw [hcut]; rfl) hAl (by omega)
    have hA : cntOf D ord L A = cntOf D ord L A1 + cntOf D ord L A2 := by rw [e1, cntOf_append]
    obtain ⟨n, X, Z, f1, f2, f3, f4, f5⟩ := rank_cut V hg ho hi k (r := r + hereN L + cntOf D ord L A1) (V.step h hbh) (hkids b hb)
      ⟨v, by rw [mem_residual]; exact hv⟩ hk (by omega)
    have hX : (findBehind D ord L A).length = cntOf D ord L A := findBehind_length L A
    have hH : ((if L.any (fun e => e.1 == []) then [[]] else []) : List Key).length = hereN L := by
      unfold hereN
      split <;> rfl
    refine ⟨hereN L + cntOf D ord L A1 + n, (if L.any (fun e => e.1 == []) then [[]] else []) ++ (findBehind D ord L A ++ X.map (fun t => b :: t)),
      Z.map (fun t => b :: t) ++ findBehind D ord L B, ?_, ?_, ?_, ?_, ?_⟩
    · rw [Indexer.bytesLoop, V.hasValue h]
      simp only [ok_bind]
      have hr : (if L.any (fun e => e.1 == []) = true then u32 (r + 1) else r) = r + hereN L := by
        have hle : r + hereN L < 4294967296 := by omega
        unfold hereN at hle ⊢
        by_cases hany : L.any (fun e => e.1 == []) = true
        · rw [if_pos hany] at hle
          rw [if_pos hany, if_pos hany, u32_of_lt hle]
        · rw [if_neg hany, if_neg hany, Nat.add_zero]
      rw [hr, hg.child h, hord, hcut]
      simp only [ok_bind]
      rw [e5]
      simp only [ok_bind, if_neg e4]
      rw [V.follow h hbh]
      simp only [ok_bind]
      rw [f1]
      congr 1
      omega
    · rw [findable_eq V ho h, hcut, findBehind_split, f2]
      simp
    · simp only [List.length_append, List.length_map]
      rw [hH, hX]
      omega
    · simp only [List.length_append, List.length_map]
      rw [hH, hX]
      constructor
      · intro heq
        have hA2 : A2 = [] := by
          by_cases hn : A2 = []
          · exact hn
          · have := cntOf_pos V ho h (X := A2) (fun l hl => by rw [hcut, e1]; simp [hl]) hn
            omega
        have hn : n = X.length := by omega
        subst hA2
        rw [List.append_nil] at e1
        subst e1
        intro x hx
        rcases List.mem_append.1 hx with hx | hx
        · have : x = [] := by
            split at hx
            · exact List.mem_singleton.1 hx
            · simp at hx
          rw [this]
          simp
        · rcases List.mem_append.1 hx with hx | hx
          · obtain ⟨l, hl, t, _, rfl⟩ := mem_findBehind.1 hx
            exact List.Lex.rel (e2 l hl)
          · obtain ⟨t, ht, rfl⟩ := List.mem_map.1 hx
            simpa using f4.1 hn t ht
      · intro hall
        have hn : n = X.length := f4.2 (fun x hx => by
          have := hall (b :: x) (by simp [hx])
          simpa using this)
        have hA2 : A2 = [] := by
          rcases e3 with e3 | ⟨x, A3, hx3, hxb⟩
          · exact e3
          · exfalso
            have hx : x ∈ A2 := by rw [hx3]; simp
            have hxc : x ∈ cutOf ord L := by rw [hcut, e1]; simp [hx]
            have hkx := V.step h (cut_heads ho h hxc)
            have hpos := cnt_pos V ho _ hkx (V.small hkx)
            obtain ⟨t, ht⟩ := List.exists_mem_of_length_pos (show 0 < (findable ord (D.size + 1) (residual L [x])).length from hpos)
            have := hall (x :: t) (by
              refine List.mem_append_right _ (List.mem_append_left _ (mem_findBehind.2 ⟨x, by rw [e1]; simp [hx], t, ht, rfl⟩)))
            have hne : x ≠ b := by
              rintro rfl
              have := cut_nodup V ho h
              rw [hcut, e1, List.nodup_append] at this
              exact this.2.2 x (by simp [hx]) x (by simp) rfl
            rcases List.cons_lt_cons_iff.1 this with h1 | ⟨h1, _⟩
            · exact hxb h1
            · exact hne h1
        subst hA2
        rw [List.append_nil] at e1
        subst e1
        omega
    · have hbA : ∀ x ∈ A, x ≠ b := by
        rintro x hx rfl
        have := cut_nodup V ho h
        rw [hcut, List.nodup_append] at this
        exact this.2.2 x hx x (by simp) rfl
      have hH1 : ∀ y ∈ ((if L.any (fun e => e.1 == []) then [[]] else []) : List Key), y = [] := by
        intro y hy
        split at hy
        · exact List.mem_singleton.1 hy
        · simp at hy
      have hnb : ∀ {S : List UInt8}, (∀ x ∈ S, x ∈ A) → ∀ y ∈ findBehind D ord L S, ¬ [b] <+: y := by
        intro S hS y hy hp
        obtain ⟨l, hl, t, _, rfl⟩ := mem_findBehind.1 hy
        exact hbA l (hS l hl) (List.cons_prefix_cons.1 hp).1.symm
      have hsplit : findBehind D ord L A = findBehind D ord L A1 ++ findBehind D ord L A2 := by
        rw [e1]
        unfold findBehind
        rw [List.flatMap_append]
      have hlt1 : ∀ y ∈ (if L.any (fun e => e.1 == []) then [[]] else []) ++ findBehind D ord L A1, y < b :: k := by
        intro y hy
        rcases List.mem_append.1 hy with hy | hy
        · rw [hH1 y hy]
          simp
        · obtain ⟨l, hl, t, _, rfl⟩ := mem_findBehind.1 hy
          exact List.Lex.rel (e2 l hl)
      have hm := passed_map (b := b) (k := k) (pre := (if L.any (fun e => e.1 == []) then [[]] else []) ++ findBehind D ord L A) (fun y hy hp => by
        rcases List.mem_append.1 hy with hy | hy
        · rw [hH1 y hy] at hp
          simp at hp
        · exact hnb (fun x hx => hx) y hy hp) X []
      rw [List.map_nil, List.append_nil] at hm
      rw [← List.append_assoc, passed_append, List.nil_append, hm, hsplit, ← List.append_assoc, passed_append, passed_all _ (by simp) hlt1, List.nil_append]
      have h2 : passed (b :: k) ((if L.any (fun e => e.1 == []) then [[]] else []) ++ findBehind D ord L A1) (findBehind D ord L A2) = 0 := by
        rcases e3 with e3 | ⟨x, A3, hx3, hxb⟩
        · rw [e3]
          rfl
        · refine passed_none _ (hnb (fun x hx => by rw [e1]; simp [hx])) (.inr ?_)
          have hxA : x ∈ A := by rw [e1, hx3]; simp
          have hxc : x ∈ cutOf ord L := by rw [hcut]; simp [hxA]
          have hkx := V.step h (cut_heads ho h hxc)
          have hpos := cnt_pos V ho _ hkx (V.small hkx)
          have hpos : 0 < (findable ord (D.size + 1) (residual L [x])).length := hpos
          obtain ⟨t, T, hT⟩ := List.exists_cons_of_length_pos hpos
          refine ⟨x :: t, T.map (fun k => x :: k) ++ findBehind D ord L A3, ?_, ?_⟩
          · rw [hx3]
            unfold findBehind
            rw [List.flatMap_cons, hT]
            rfl
          · intro hlt
            rcases List.cons_lt_cons_iff.1 hlt with h1 | ⟨h1, _⟩
            · exact hxb h1
            · exact hbA x hxA h1
      rw [h2, List.length_append, hH, findBehind_length, ← f5]
      rfl

end
end Dawg.Guided
