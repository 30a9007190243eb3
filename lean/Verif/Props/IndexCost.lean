import Verif.Props.Index
import Verif.Props.Size
/-! # C98: what StringToIndex and IndexToString read -/
namespace Dawg.Props
open Dawg Dawg.Spec Dawg.Client Dawg.Abs Dawg.Dict Dawg.Guided
attribute [-simp] List.length_flatten

/-- The dictionary, the guide and the index have the same units at these indices. -/
def AgreeAt (I : List Nat) (D : Dictionary) (gd : Guide) (x : Index) (D' : Dictionary) (gd' : Guide) (x' : Index) : Prop :=
  ∀ i ∈ I, D'.units[i]? = D.units[i]? ∧ gd'.units[i]? = gd.units[i]? ∧ x'.units[i]? = x.units[i]?

theorem rd_same {α : Type} {xs ys : List α} {i : Nat} (h : ys[i]? = xs[i]?) : rd ys i = rd xs i := by
  unfold rd
  rw [h]

section
variable {I J : List Nat} {D D' : Dictionary} {gd gd' : Guide} {x x' : Index}

theorem AgreeAt.mono (h : AgreeAt I D gd x D' gd' x') (hs : ∀ i ∈ J, i ∈ I) : AgreeAt J D gd x D' gd' x' := fun i hi => h i (hs i hi)

theorem AgreeAt.hasValue (h : AgreeAt I D gd x D' gd' x') {i : Nat} (hi : i ∈ I) : D'.hasValue i = D.hasValue i := by
  unfold Dictionary.hasValue
  rw [rd_same (h i hi).1]

theorem AgreeAt.child (h : AgreeAt I D gd x D' gd' x') {i : Nat} (hi : i ∈ I) : gd'.child i = gd.child i := by
  unfold Guide.child
  rw [rd_same (h i hi).2.1]

theorem AgreeAt.sibling (h : AgreeAt I D gd x D' gd' x') {i : Nat} (hi : i ∈ I) : gd'.sibling i = gd.sibling i := by
  unfold Guide.sibling
  rw [rd_same (h i hi).2.1]

theorem AgreeAt.childCount (h : AgreeAt I D gd x D' gd' x') {i : Nat} (hi : i ∈ I) : x'.childCount i = x.childCount i := by
  unfold Index.childCount
  rw [rd_same (h i hi).2.2]
end

/-- `Follow` reads the unit it starts from and one further unit, the one it leads to. -/
theorem follow_reads (D : Dictionary) (l : UInt8) (i : Nat) : ∃ j, (∀ k, D.follow l i = .ok (some k) → k = j) ∧
    ∀ (D' : Dictionary), D'.units[i]? = D.units[i]? → D'.units[j]? = D.units[j]? → D'.follow l i = D.follow l i := by
  cases hu : rd D.units i with
  | error e =>
    refine ⟨i, fun k hk => ?_, fun D' h _ => ?_⟩
    · unfold Dictionary.follow at hk
      rw [hu] at hk
      cases hk
    · unfold Dictionary.follow
      rw [rd_same h, hu]
      rfl
  | ok u =>
    refine ⟨i ^^^ dictOffset u ^^^ l.toNat, fun k hk => ?_, fun D' h h2 => ?_⟩
    · unfold Dictionary.follow at hk
      rw [hu, ok_bind] at hk
      obtain ⟨w, _, hw⟩ := bind_eq_ok.1 hk
      simp only [pure_eq_ok, Except.ok.injEq] at hw
      split at hw
      · cases hw
      · simpa using hw.symm
    · unfold Dictionary.follow
      rw [rd_same h, hu, ok_bind, ok_bind]
      simp only
      rw [rd_same h2]

theorem skip_reads (D : Dictionary) (gd : Guide) (x : Index) (i : Nat) (b : UInt8) : ∀ (n result : Nat) (l : UInt8), ∃ J : List Nat, J.length ≤ n ∧
    ∀ D' gd' x', AgreeAt (i :: J) D gd x D' gd' x' → Indexer.skip D' gd' x' i b n result l = Indexer.skip D gd x i b n result l
  | 0, _, _ => ⟨[], by simp, fun _ _ _ _ => rfl⟩
  | n + 1, result, l => by
    by_cases hl : l < b ∧ l ≠ 0
    · obtain ⟨j, hj, hf⟩ := follow_reads D l i
      cases hr : D.follow l i with
      | error e =>
        refine ⟨[j], by simp, fun D' gd' x' h => ?_⟩
        rw [Indexer.skip, Indexer.skip, if_pos hl, if_pos hl, hf D' (h i (by simp)).1 (h j (by simp)).1, hr]
        rfl
      | ok r =>
        cases r with
        | none =>
          refine ⟨[j], by simp, fun D' gd' x' h => ?_⟩
          rw [Indexer.skip, Indexer.skip, if_pos hl, if_pos hl, hf D' (h i (by simp)).1 (h j (by simp)).1, hr]
          rfl
        | some k =>
          have := hj k hr
          subst this
          cases hc : x.childCount k with
          | error e =>
            refine ⟨[k], by simp, fun D' gd' x' h => ?_⟩
            rw [Indexer.skip, Indexer.skip, if_pos hl, if_pos hl, hf D' (h i (by simp)).1 (h k (by simp)).1, hr]
            simp only [ok_bind, h.childCount (i := k) (by simp), hc]
            rfl
          | ok c =>
            cases hs : gd.sibling k with
            | error e =>
              refine ⟨[k], by simp, fun D' gd' x' h => ?_⟩
              rw [Indexer.skip, Indexer.skip, if_pos hl, if_pos hl, hf D' (h i (by simp)).1 (h k (by simp)).1, hr]
              simp only [ok_bind, h.childCount (i := k) (by simp), hc, h.sibling (i := k) (by simp), hs]
              rfl
            | ok s =>
              obtain ⟨J, h1, h2⟩ := skip_reads D gd x i b n (u32 (result + c)) s
              refine ⟨k :: J, by simp; omega, fun D' gd' x' h => ?_⟩
              rw [Indexer.skip, Indexer.skip, if_pos hl, if_pos hl, hf D' (h i (by simp)).1 (h k (by simp)).1, hr]
              simp only [ok_bind, h.childCount (i := k) (by simp), hc, h.sibling (i := k) (by simp), hs]
              exact h2 D' gd' x' (h.mono (by simp; exact fun a ha => .inr (.inr ha)))
    · refine ⟨[], by simp, fun D' gd' x' h => ?_⟩
      rw [Indexer.skip, Indexer.skip, if_neg hl, if_neg hl]

theorem bytesLoop_reads (D : Dictionary) (gd : Guide) (x : Index) : ∀ (q : Key) (i result : Nat), ∃ J : List Nat, J.length ≤ 258 * q.length ∧
    ∀ D' gd' x', AgreeAt (i :: J) D gd x D' gd' x' → Indexer.bytesLoop D' gd' x' q i result = Indexer.bytesLoop D gd x q i result
  | [], i, result => ⟨[], by simp, fun D' gd' x' h => by
      simp only [Indexer.bytesLoop, h.hasValue (i := i) (by simp)]⟩
  | b :: q, i, result => by
    cases hv : D.hasValue i with
    | error e =>
      refine ⟨[], by simp, fun D' gd' x' h => ?_⟩
      simp only [Indexer.bytesLoop, h.hasValue (i := i) (by simp), hv]
      rfl
    | ok v =>
      cases hc : gd.child i with
      | error e =>
        refine ⟨[], by simp, fun D' gd' x' h => ?_⟩
        simp only [Indexer.bytesLoop, h.hasValue (i := i) (by simp), hv, h.child (i := i) (by simp), hc, ok_bind]
        rfl
      | ok c =>
        obtain ⟨J, h1, h2⟩ := skip_reads D gd x i b 257 (if v = true then u32 (result + 1) else result) c
        obtain ⟨j, hj, hf⟩ := follow_reads D b i
        cases hr : D.follow b i with
        | error e =>
          refine ⟨j :: J, by simp; omega, fun D' gd' x' h => ?_⟩
          have h3 := h2 D' gd' x' (h.mono (by simp; exact fun a ha => .inr (.inr ha)))
          simp only [Indexer.bytesLoop, h.hasValue (i := i) (by simp), hv, h.child (i := i) (by simp), hc, ok_bind, h3, hf D' (h i (by simp)).1 (h j (by simp)).1, hr]
          rfl
        | ok r =>
          cases r with
          | none =>
            refine ⟨j :: J, by simp; omega, fun D' gd' x' h => ?_⟩
            have h3 := h2 D' gd' x' (h.mono (by simp; exact fun a ha => .inr (.inr ha)))
            simp only [Indexer.bytesLoop, h.hasValue (i := i) (by simp), hv, h.child (i := i) (by simp), hc, ok_bind, h3, hf D' (h i (by simp)).1 (h j (by simp)).1, hr]
          | some k =>
            have := hj k hr
            subst this
            cases hs : Indexer.skip D gd x i b 257 (if v = true then u32 (result + 1) else result) c with
            | error e =>
              refine ⟨k :: J, by simp; omega, fun D' gd' x' h => ?_⟩
              have h3 := h2 D' gd' x' (h.mono (by simp; exact fun a ha => .inr (.inr ha)))
              simp only [Indexer.bytesLoop, h.hasValue (i := i) (by simp), hv, h.child (i := i) (by simp), hc, ok_bind, h3, hs]
              rfl
            | ok o =>
              cases o with
              | none =>
                refine ⟨k :: J, by simp; omega, fun D' gd' x' h => ?_⟩
                have h3 := h2 D' gd' x' (h.mono (by simp; exact fun a ha => .inr (.inr ha)))
                simp only [Indexer.bytesLoop, h.hasValue (i := i) (by simp), hv, h.child (i := i) (by simp), hc, ok_bind, h3, hs]
              | some o =>
                obtain ⟨res, l⟩ := o
                obtain ⟨K, h4, h5⟩ := bytesLoop_reads D gd x q k res
                refine ⟨k :: (J ++ K), by simp; omega, fun D' gd' x' h => ?_⟩
                have h3 := h2 D' gd' x' (h.mono (by simp; exact fun a ha => .inr (.inr (.inl ha))))
                have h6 := h5 D' gd' x' (h.mono (by simp; exact fun a ha => .inr (.inr (.inr ha))))
                simp only [Indexer.bytesLoop, h.hasValue (i := i) (by simp), hv, h.child (i := i) (by simp), hc, ok_bind, h3, hs, hf D' (h i (by simp)).1 (h k (by simp)).1, hr, h6]

theorem pick_reads (D : Dictionary) (gd : Guide) (x : Index) (a i : Nat) : ∀ (n cur : Nat) (l : UInt8), ∃ J : List Nat, J.length ≤ n ∧
    (∀ c k m, Indexer.pick D gd x a i n cur l = .ok (.into c k m) → k ∈ J) ∧
    ∀ D' gd' x', AgreeAt (i :: J) D gd x D' gd' x' → Indexer.pick D' gd' x' a i n cur l = Indexer.pick D gd x a i n cur l
  | 0, _, _ => ⟨[], by simp, fun _ _ _ h => by (rw [Indexer.pick] at h; cases h), fun _ _ _ _ => rfl⟩
  | n + 1, cur, l => by
    by_cases hl : l = 0
    · refine ⟨[], by simp, fun c k m h => ?_, fun D' gd' x' h => ?_⟩
      · rw [Indexer.pick, if_pos hl] at h
        cases h
      · rw [Indexer.pick, Indexer.pick, if_pos hl, if_pos hl]
    · obtain ⟨j, hj, hf⟩ := follow_reads D l i
      cases hr : D.follow l i with
      | error e =>
        refine ⟨[j], by simp, fun c k m h => ?_, fun D' gd' x' h => ?_⟩
        · rw [Indexer.pick, if_neg hl, hr] at h
          cases h
        · rw [Indexer.pick, Indexer.pick, if_neg hl, if_neg hl, hf D' (h i (by simp)).1 (h j (by simp)).1, hr]
          rfl
      | ok r =>
        cases r with
        | none =>
          refine ⟨[j], by simp, fun c k m h => ?_, fun D' gd' x' h => ?_⟩
          · rw [Indexer.pick, if_neg hl, hr] at h
            cases h
          · rw [Indexer.pick, Indexer.pick, if_neg hl, if_neg hl, hf D' (h i (by simp)).1 (h j (by simp)).1, hr]
            rfl
        | some k =>
          have := hj k hr
          subst this
          cases hc : x.childCount k with
          | error e =>
            refine ⟨[k], by simp, fun c m l' h => ?_, fun D' gd' x' h => ?_⟩
            · rw [Indexer.pick, if_neg hl, hr] at h
              simp only [ok_bind, hc] at h
              cases h
            · rw [Indexer.pick, Indexer.pick, if_neg hl, if_neg hl, hf D' (h i (by simp)).1 (h k (by simp)).1, hr]
              simp only [ok_bind, h.childCount (i := k) (by simp), hc]
              rfl
          | ok c =>
            by_cases hi : a < u32 (cur + c)
            · refine ⟨[k], by simp, fun c' m l' h => ?_, fun D' gd' x' h => ?_⟩
              · rw [Indexer.pick, if_neg hl, hr] at h
                simp only [ok_bind, hc, if_pos hi] at h
                cases h
                simp
              · rw [Indexer.pick, Indexer.pick, if_neg hl, if_neg hl, hf D' (h i (by simp)).1 (h k (by simp)).1, hr]
                simp only [ok_bind, h.childCount (i := k) (by simp), hc, if_pos hi]
            · cases hs : gd.sibling k with
              | error e =>
                refine ⟨[k], by simp, fun c' m l' h => ?_, fun D' gd' x' h => ?_⟩
                · rw [Indexer.pick, if_neg hl, hr] at h
                  simp only [ok_bind, hc, if_neg hi, hs] at h
                  cases h
                · rw [Indexer.pick, Indexer.pick, if_neg hl, if_neg hl, hf D' (h i (by simp)).1 (h k (by simp)).1, hr]
                  simp only [ok_bind, h.childCount (i := k) (by simp), hc, if_neg hi, h.sibling (i := k) (by simp), hs]
                  rfl
              | ok s =>
                obtain ⟨J, h1, h2, h3⟩ := pick_reads D gd x a i n (u32 (cur + c)) s
                refine ⟨k :: J, by simp; omega, fun c' m l' h => ?_, fun D' gd' x' h => ?_⟩
                · rw [Indexer.pick, if_neg hl, hr] at h
                  simp only [ok_bind, hc, if_neg hi, hs] at h
                  exact List.mem_cons_of_mem _ (h2 _ _ _ h)
                · rw [Indexer.pick, Indexer.pick, if_neg hl, if_neg hl, hf D' (h i (by simp)).1 (h k (by simp)).1, hr]
                  simp only [ok_bind, h.childCount (i := k) (by simp), hc, if_neg hi, h.sibling (i := k) (by simp), hs]
                  exact h3 D' gd' x' (h.mono (by simp; exact fun a ha => .inr (.inr ha)))

theorem selectLoop_reads (D : Dictionary) (gd : Guide) (x : Index) (a : Nat) (k : Key) : ∀ (n i cur : Nat) (buf : Key), Indexer.selectLoop D gd x a n i cur buf = .ok (some k) →
    ∃ J : List Nat, buf.length ≤ k.length ∧ J.length ≤ 257 * (k.length - buf.length) ∧
    ∀ m D' gd' x', k.length < m + buf.length → AgreeAt (i :: J) D gd x D' gd' x' → Indexer.selectLoop D' gd' x' a m i cur buf = .ok (some k)
  | 0, _, _, _, h => by cases h
  | n + 1, i, cur, buf, h => by
    rw [Indexer.selectLoop] at h
    by_cases hc : cur ≤ a
    · rw [if_pos hc, bind_eq_ok] at h
      obtain ⟨v, h1, h⟩ := h
      by_cases hv : v = true ∧ cur = a
      · rw [if_pos hv] at h
        simp only [pure_eq_ok, Except.ok.injEq, Option.some.injEq] at h
        subst h
        refine ⟨[], Nat.le_refl _, by simp, fun m D' gd' x' hm hA => ?_⟩
        obtain ⟨m, rfl⟩ : ∃ m', m = m' + 1 := ⟨m - 1, by omega⟩
        rw [Indexer.selectLoop, if_pos hc, hA.hasValue (i := i) (by simp), h1, ok_bind, if_pos hv]
        rfl
      · rw [if_neg hv] at h
        simp only [bind_eq_ok] at h
        obtain ⟨c, h2, p, h3, h⟩ := h
        obtain ⟨J, j1, j2, j3⟩ := pick_reads D gd x a i 257 (if v = true then u32 (cur + 1) else cur) c
        cases p with
        | nil => cases h
        | stop c' => cases h
        | into cur' j l =>
          simp only at h
          obtain ⟨K, k1, k2, k3⟩ := selectLoop_reads D gd x a k n j cur' (buf ++ [l]) h
          simp only [List.length_append, List.length_singleton] at k1 k2 k3
          refine ⟨J ++ K, by omega, by simp; omega, fun m D' gd' x' hm hA => ?_⟩
          obtain ⟨m, rfl⟩ : ∃ m', m = m' + 1 := ⟨m - 1, by omega⟩
          rw [Indexer.selectLoop, if_pos hc, hA.hasValue (i := i) (by simp), h1, ok_bind, if_neg hv]
          have e1 := j3 D' gd' x' (hA.mono (by simp; exact fun a ha => .inr (.inl ha)))
          simp only [hA.child (i := i) (by simp), h2, ok_bind, e1, h3]
          refine k3 m D' gd' x' (by omega) (hA.mono ?_)
          intro y hy
          rcases List.mem_cons.1 hy with rfl | hy
          · exact List.mem_cons_of_mem _ (List.mem_append_left _ (j2 _ _ _ h3))
          · exact List.mem_cons_of_mem _ (List.mem_append_right _ hy)
    · rw [if_neg hc] at h
      cases h

/-- **C98**, `StringToIndex`: the number of a string of `n` bytes depends on at most 258 n + 1 units of the dictionary, of the guide and of the index, however many keys there are, for guides of both
kinds, and even if the three are corrupt or do not belong together. -/
theorem C98_string_to_index (D : Dictionary) (gd : Guide) (x : Index) (q : Key) : ∃ I : List Nat, I.length ≤ 258 * q.length + 1 ∧
    ∀ D' gd' x', AgreeAt I D gd x D' gd' x' → Indexer.bytesToIndex D' gd' x' q = Indexer.bytesToIndex D gd x q := by
  obtain ⟨J, h1, h2⟩ := bytesLoop_reads D gd x q 0 0
  exact ⟨0 :: J, by simp; omega, h2⟩

/-- In the dictionary of "a", "ab" and "b" the number of "ab" is 1, whatever the other units are. -/
example : ∃ d D gd idx I, Made keysG d D ∧ buildGuide d D = .ok (some gd) ∧ buildIndex D gd = .ok (some idx) ∧ List.length I ≤ 517 ∧
    ∀ D' gd' x', AgreeAt I D gd idx D' gd' x' → Indexer.bytesToIndex D' gd' x' [97, 98] = .ok 1 := by
  obtain ⟨d, D, h⟩ := madeG
  obtain ⟨gd, h1, _⟩ := C26_guide h
  obtain ⟨idx, h2, _⟩ := C30_counts_partial h (by decide) h1
  obtain ⟨I, h3, h4⟩ := C98_string_to_index D gd idx [97, 98]
  refine ⟨d, D, gd, idx, I, h, h1, h2, h3, fun D' gd' x' hA => ?_⟩
  rw [h4 D' gd' x' hA, (C31_rank_partial h h1 h2 [97, 98]).1 ⟨([97, 98], 3), by decide, rfl⟩]
  decide +kernel

/-- **C98**, `IndexToString`: a key of `n` bytes is found by its number from at most 257 n + 1 units, under the same conditions; and the outer loop runs at most `n + 1` times. -/
theorem C98_index_to_string (D : Dictionary) (gd : Guide) (x : Index) (a : Nat) (k : Key) (h : Indexer.indexToBytes D gd x a = .ok (some k)) :
    (∀ m, k.length < m → Indexer.selectLoop D gd x a m D.root 0 [] = .ok (some k)) ∧ ∃ I : List Nat, I.length ≤ 257 * k.length + 1 ∧
    ∀ D' gd' x', k.length ≤ D'.size → AgreeAt I D gd x D' gd' x' → Indexer.indexToBytes D' gd' x' a = .ok (some k) := by
  obtain ⟨J, h1, h2, h3⟩ := selectLoop_reads D gd x a k _ _ _ _ h
  simp only [List.length_nil, Nat.sub_zero] at h2
  refine ⟨fun m hm => h3 m D gd x (by simpa using hm) (fun _ _ => ⟨rfl, rfl, rfl⟩), 0 :: J, by simp; omega, fun D' gd' x' hs hA => ?_⟩
  exact h3 _ D' gd' x' (by simp; omega) hA

example : ∃ d D gd idx I, Made keysG d D ∧ buildGuide d D = .ok (some gd) ∧ buildIndex D gd = .ok (some idx) ∧ List.length I ≤ 515 ∧
    ∀ D' gd' x', 2 ≤ D'.size → AgreeAt I D gd idx D' gd' x' → Indexer.indexToBytes D' gd' x' 1 = .ok (some [97, 98]) := by
  obtain ⟨d, D, h⟩ := madeG
  obtain ⟨gd, h1, _⟩ := C26_guide h
  obtain ⟨idx, h2, _⟩ := C30_counts_partial h (by decide) h1
  obtain ⟨_, I, h4, h5⟩ := C98_index_to_string D gd idx 1 [97, 98] ((C32_select h h1 h2).1 1)
  exact ⟨d, D, gd, idx, I, h, h1, h2, h4, h5⟩

end Dawg.Props
