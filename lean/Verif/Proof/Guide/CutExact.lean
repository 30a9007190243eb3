import Verif.Proof.Guide.CutFound
/-! # The exact numbers of stored keys over a guide in which the terminal transition comes before others -/
namespace Dawg.Guided
attribute [-simp] List.length_flatten
open Dawg.Abs Dawg.Spec Dawg.Dict

section
variable {D : Dictionary} {At : Nat → Lang → Prop} {kid : Nat → UInt8 → Nat} {clean : UInt8 → Prop} {ord : Lang → List UInt8} {gd : Guide} {idx : Index}

/-! ## Which units are counted -/

theorem addTo_other {us us' : List Nat} {i n j : Nat} (h : IndexBuilder.addTo us i n = .ok us') (hj : j ≠ i) : us'[j]? = us[j]? := by
  unfold IndexBuilder.addTo at h
  obtain ⟨m, _, h⟩ := bind_eq_ok.1 h
  obtain ⟨_, rfl⟩ := wr_eq_ok.1 h
  rw [List.getElem?_set_ne (Ne.symm hj)]

/-- Counting changes only units in a set that is closed under the transitions that the index sees. -/
theorem touch_loop (V : View D At kid clean) (hg : GuideIs D At kid ord gd) (ho : OrdPerm At ord) {P : Nat → Prop} {fuel : Nat}
    (IH : ∀ {us u L us' ok}, At u L → P u → IndexBuilder.buildIndices D gd fuel us u = .ok (us', ok) → ∀ i, ¬ P i → us'[i]? = us[i]?)
    {u : Nat} {L : Lang} (h : At u L) (hu : P u) (hP : ∀ l ∈ cutOf ord L, P (kid u l)) {Y : List UInt8} (hY : Y.headD 0 = 0) (hord : ord L = cutOf ord L ++ Y) :
    ∀ (B : List UInt8) {A us us' ok} (n : Nat), cutOf ord L = A ++ B →
    IndexBuilder.loop D gd (fun us i => IndexBuilder.buildIndices D gd fuel us i) u n us ((B ++ Y).headD 0) = .ok (us', ok) → ∀ i, ¬ P i → us'[i]? = us[i]?
  | _, A, us, us', ok, 0, _, hr => by cases hr
  | [], A, us, us', ok, n + 1, _, hr => by
    rw [IndexBuilder.loop, List.nil_append, if_pos hY] at hr
    cases hr
    exact fun _ _ => rfl
  | l :: B, A, us, us', ok, n + 1, hB, hr => by
    intro i hi
    have hlc : l ∈ cutOf ord L := by rw [hB]; simp
    have hl : l ∈ heads L := cut_heads ho h hlc
    have hl0 := V.heads_ne_zero h hl
    rw [IndexBuilder.loop, List.cons_append, List.headD_cons, if_neg hl0, V.follow h hl] at hr
    simp only [ok_bind] at hr
    have tail : ∀ {us1 : List Nat} {ok1 : Bool}, us1[i]? = us[i]? → (do
        if !ok1 then return (us1, false)
        let us ← IndexBuilder.addTo us1 u (← rd us1 (kid u l))
        let s ← gd.sibling (kid u l)
        IndexBuilder.loop D gd (fun us i => IndexBuilder.buildIndices D gd fuel us i) u n us s : Go (List Nat × Bool)) = .ok (us', ok) → us'[i]? = us[i]? := by
      intro us1 ok1 h1 h2
      cases ok1 with
      | false => cases h2; exact h1
      | true =>
        simp only [Bool.not_true, Bool.false_eq_true, if_false] at h2
        obtain ⟨m, _, h2⟩ := bind_eq_ok.1 h2
        obtain ⟨us2, h3, h2⟩ := bind_eq_ok.1 h2
        rw [hg.sibling (pre := A) (post := B ++ Y) h (by rw [hord, hB]; simp)] at h2
        simp only [ok_bind] at h2
        rw [touch_loop V hg ho IH h hu hP hY hord B (A := A ++ [l]) n (by rw [hB]; simp) h2 i hi, addTo_other (j := i) h3 (fun hc => hi (hc ▸ hu)), h1]
    obtain ⟨m, _, hr⟩ := bind_eq_ok.1 hr
    by_cases hm : m = 0
    · rw [if_pos hm] at hr
      obtain ⟨⟨us1, ok1⟩, h1, hr⟩ := bind_eq_ok.1 hr
      exact tail (IH (V.step h hl) (hP l hlc) h1 i hi) hr
    · rw [if_neg hm] at hr
      exact tail (us1 := us) (ok1 := true) rfl hr

theorem touch_call (V : View D At kid clean) (hg : GuideIs D At kid ord gd) (ho : OrdPerm At ord) {P : Nat → Prop} (hP : ∀ {u L}, At u L → P u → ∀ l ∈ cutOf ord L, P (kid u l)) :
    ∀ (fuel : Nat) {us u L us' ok}, At u L → P u → IndexBuilder.buildIndices D gd fuel us u = .ok (us', ok) → ∀ i, ¬ P i → us'[i]? = us[i]?
  | 0, us, u, L, us', ok, _, _, hr => by cases hr
  | fuel + 1, us, u, L, us', ok, h, hu, hr => by
    intro i hi
    obtain ⟨Y, hord, hY⟩ := cut_tail ord L
    rw [IndexBuilder.buildIndices, V.hasValue h] at hr
    simp only [ok_bind] at hr
    have tail : ∀ {us1 : List Nat}, us1[i]? = us[i]? → (do
        let child ← gd.child u
        IndexBuilder.loop D gd (fun us i => IndexBuilder.buildIndices D gd fuel us i) u 257 us1 child : Go (List Nat × Bool)) = .ok (us', ok) → us'[i]? = us[i]? := by
      intro us1 h1 h2
      rw [hg.child h, hord] at h2
      simp only [ok_bind] at h2
      rw [touch_loop V hg ho (fun h1 h2 h3 => touch_call V hg ho hP fuel h1 h2 h3) h hu (hP h hu) hY hord (cutOf ord L) (A := []) 257 rfl h2 i hi, h1]
    by_cases hany : L.any (fun e => e.1 == []) = true
    · rw [if_pos hany] at hr
      obtain ⟨us1, h1, hr⟩ := bind_eq_ok.1 hr
      exact tail (addTo_other h1 (fun hc => hi (hc ▸ hu))) hr
    · rw [if_neg hany] at hr
      exact tail rfl hr

/-- The units that an index sees. -/
inductive CutReach (kid : Nat → UInt8 → Nat) (ord : Lang → List UInt8) (acc : Lang) : Nat → Lang → Prop
  | root : CutReach kid ord acc 0 acc
  | step {u L l} : CutReach kid ord acc u L → l ∈ cutOf ord L → CutReach kid ord acc (kid u l) (residual L [l])

theorem CutReach.reach {acc : Lang} (ho : OrdPerm (Reach kid acc) ord) {u L} (h : CutReach kid ord acc u L) : Reach kid acc u L := by
  induction h with
  | root => exact .root
  | step _ hl ih => exact .step ih (cut_heads ho ih hl)

theorem CutReach.path {acc : Lang} {u L} (h : CutReach kid ord acc u L) : ∃ p, L = residual acc p ∧ seen ord acc p := by
  suffices ∃ p, L = residual acc p ∧ ∀ q, seen ord L q → seen ord acc (p ++ q) by
    obtain ⟨p, h1, h2⟩ := this
    exact ⟨p, h1, by simpa using h2 [] trivial⟩
  induction h with
  | root => exact ⟨[], by rw [residual_nil], fun q hq => hq⟩
  | @step u L l _ hl ih =>
    obtain ⟨p, h1, h2⟩ := ih
    refine ⟨p ++ [l], by rw [residual_residual, h1], fun q hq => ?_⟩
    rw [List.append_assoc]
    exact h2 _ ⟨hl, hq⟩

theorem CutReach.of_path {acc : Lang} : ∀ (p : Key) {u L}, CutReach kid ord acc u L → seen ord L p → ∃ u', CutReach kid ord acc u' (residual L p)
  | [], u, L, h, _ => ⟨u, by rw [residual_nil]; exact h⟩
  | l :: p, u, L, h, ⟨h1, h2⟩ => by
    rw [show l :: p = [l] ++ p from rfl, residual_residual]
    exact CutReach.of_path p (.step h h1) h2

/-- The count of a unit is that of its language if the index sees it, and 0 otherwise. -/
theorem count_exact (V : View D At kid clean) {acc : Lang} (h0 : At 0 acc) (hg : GuideIs D (Reach kid acc) kid ord gd) (ho : OrdPerm (Reach kid acc) ord)
    (hx : buildIndex D gd = .ok (some idx)) (hi : CutIndex D (Reach kid acc) kid ord idx) {u L} (h : Reach kid acc u L) :
    ((∃ M, CutReach kid ord acc u M) → idx.childCount u = .ok (cnt D ord L)) ∧ ((¬ ∃ M, CutReach kid ord acc u M) → idx.childCount u = .ok 0) := by
  have V' := V.reach h0
  constructor
  · rintro ⟨M, hM⟩
    rw [V'.func h (hM.reach ho)]
    clear h
    induction hM with
    | root => exact hi.root Reach.root
    | @step u L l hc hl ih =>
      rcases hi.count (hc.reach ho) with hz | ⟨_, hz⟩
      · rw [ih] at hz
        have := cnt_pos V' ho _ (hc.reach ho) (V'.small (hc.reach ho))
        simp only [Except.ok.injEq] at hz
        omega
      · exact hz l hl
  · intro hn
    unfold buildIndex IndexBuilder.build at hx
    obtain ⟨⟨us, ok⟩, h1, h2⟩ := bind_eq_ok.1 hx
    have hidx : idx.units = us := by
      cases ok with
      | false => cases h2
      | true => cases h2; rfl
    have h3 := touch_call V' hg ho (P := fun i => ∃ M, CutReach kid ord acc i M) (by
      rintro u L hu ⟨M, hM⟩ l hl
      rw [V'.func hu (hM.reach ho)] at hl
      exact ⟨_, .step hM hl⟩) _ (show Reach kid acc gd.root acc from Reach.root) ⟨acc, .root⟩ h1 u hn
    unfold Index.childCount
    rw [hidx]
    apply rd_some
    rw [h3, List.getElem?_replicate, if_pos (V'.lt h)]

/-! ## Which keys are counted -/

/-- `l` is in the list of the guide, with smaller bytes than `b` only up to it. -/
def Lead (ord : Lang → List UInt8) (L : Lang) (b l : UInt8) : Prop := ∃ A1 A2, cutOf ord L = A1 ++ A2 ∧ l ∈ A1 ∧ ∀ x ∈ A1, x < b

/-- The keys that are counted for `k`. -/
def Pass (ord : Lang → List UInt8) (Vis : Lang → Prop) : Lang → Key → Key → Prop
  | _, [], _ => False
  | L, b :: k, y => (y = [] ∧ ∃ v, ([], v) ∈ L) ∨
      (∃ l s, y = l :: s ∧ Vis L ∧ Lead ord L b l ∧ (∃ v, (s, v) ∈ residual L [l]) ∧ seen ord (residual L [l]) s) ∨ (∃ s, y = b :: s ∧ Pass ord Vis (residual L [b]) k s)

theorem lead_iff {L : Lang} {b l : UInt8} {A1 A2 : List UInt8} (h1 : cutOf ord L = A1 ++ A2) (h2 : ∀ x ∈ A1, x < b) (h3 : ∀ x A3, A2 = x :: A3 → ¬ x < b) :
    Lead ord L b l ↔ l ∈ A1 := by
  constructor
  · rintro ⟨B1, B2, e1, e2, e3⟩
    rw [h1] at e1
    rcases List.append_eq_append_iff.1 e1 with ⟨C, c1, c2⟩ | ⟨C, c1, c2⟩
    · cases C with
      | nil => rw [c1] at e2; simpa using e2
      | cons x C =>
        exfalso
        exact h3 x (C ++ B2) (by rw [c2]; rfl) (e3 x (by rw [c1]; simp))
    · rw [c1]; simp [e2]
  · exact fun hl => ⟨A1, A2, h1, hl, h2⟩

/-- `StringToIndex` of a key of the language counts the keys that are passed. -/
theorem number_cut (V : View D At kid clean) (hg : GuideIs D At kid ord gd) (ho : OrdPerm At ord) {Vis : Lang → Prop}
    (hi : ∀ {u L}, At u L → ∀ l ∈ cutOf ord L, (Vis L → idx.childCount (kid u l) = .ok (cnt D ord (residual L [l]))) ∧ (¬ Vis L → idx.childCount (kid u l) = .ok 0)) :
    ∀ (k : Key) {u L r}, At u L → (∃ v, (k, v) ∈ L) → r + L.length < 4294967296 → ¬ Lost ord L k →
    ∃ X : List Key, Indexer.bytesLoop D gd idx k u r = .ok (r + X.length) ∧ X.Nodup ∧ ∀ y, y ∈ X ↔ Pass ord Vis L k y
  | [], u, L, r, h, ⟨v, hv⟩, _, _ => by
    have hany : (L.any (fun e => e.1 == [])) = true := List.any_eq_true.2 ⟨_, hv, by simp⟩
    refine ⟨[], ?_, by simp, by simp [Pass]⟩
    rw [Indexer.bytesLoop, V.hasValue h, hany]
    rfl
  | b :: k, u, L, r, h, ⟨v, hv⟩, hov, hlost => by
    classical
    have hbh : b ∈ heads L := by
      rw [mem_heads]
      intro hc
      have : (k, v) ∈ residual L [b] := by rw [mem_residual]; exact hv
      rw [hc] at this; cases this
    obtain ⟨Y, hord, hY⟩ := cut_tail ord L
    have hc : ∀ l ∈ cutOf ord L, idx.childCount (kid u l) = .ok (if Vis L then cnt D ord (residual L [l]) else 0) := by
      intro l hl
      by_cases hV : Vis L
      · rw [if_pos hV]; exact (hi h l hl).1 hV
      · rw [if_neg hV]; exact (hi h l hl).2 hV
    have hcl : ∀ l ∈ cutOf ord L, (if Vis L then cnt D ord (residual L [l]) else 0) ≤ (residual L [l]).length := by
      intro l hl
      by_cases hV : Vis L
      · rw [if_pos hV]; exact cnt_le V ho (V.step h (cut_heads ho h hl))
      · rw [if_neg hV]; exact Nat.zero_le _
    generalize hcc : (fun l => if Vis L then cnt D ord (residual L [l]) else 0) = c at *
    have hc' : ∀ l ∈ cutOf ord L, idx.childCount (kid u l) = .ok (c l) := by intro l hl; rw [hc l hl, ← hcc]
    have hcl' : ∀ l ∈ cutOf ord L, c l ≤ (residual L [l]).length := by intro l hl; rw [← hcc]; exact hcl l hl
    have hnd := cut_nodup V ho h
    have hlen := cut_length V ho h
    have h7 := V.length_eq h
    have h8 : (under L (heads L)).length = ((heads L).map (fun l => (residual L [l]).length)).sum := by
      unfold under
      rw [List.length_flatMap]
      simp
    have htot : hereN L + ((cutOf ord L).map c).sum ≤ L.length := by
      have h6 : ((cutOf ord L).map c).sum ≤ ((heads L).map (fun l => (residual L [l]).length)).sum := by
        refine Nat.le_trans (sum_map_le fun l hl => hcl' l hl) ?_
        exact sum_le_of_subset hnd (fun l hl => cut_heads ho h hl)
      omega
    obtain ⟨A1, A2, e1, e2, e3, e4⟩ := skip_any V hg ho h hc' hY hord b (cutOf ord L) (A0 := []) (r := r + hereN L) (fuel := 257) rfl (by omega) (by omega)
    rw [Indexer.bytesLoop, V.hasValue h]
    simp only [ok_bind]
    have hr : (if L.any (fun e => e.1 == []) = true then u32 (r + 1) else r) = r + hereN L := by
      have hle : r + hereN L < 4294967296 := by omega
      unfold hereN at hle ⊢
      by_cases hany : L.any (fun e => e.1 == []) = true
      · rw [if_pos hany] at hle
        rw [if_pos hany, if_pos hany, u32_of_lt hle]
      · rw [if_neg hany, if_neg hany, Nat.add_zero]
    rw [hr, hg.child h, hord]
    simp only [ok_bind]
    rw [e4]
    simp only [ok_bind]
    cases A2 with
    | nil =>
      rw [List.append_nil] at e1
      exact absurd (lost_cons.2 (.inl (by rw [e1]; exact e2))) hlost
    | cons x A3 =>
      have hx : x ∈ cutOf ord L := by rw [e1]; simp
      rw [List.headD_cons, if_neg (V.heads_ne_zero h (cut_heads ho h hx)), V.follow h hbh]
      simp only [ok_bind]
      have hA1 : A1.Nodup := by rw [e1, List.nodup_append] at hnd; exact hnd.1
      have hsub : ∀ l ∈ A1, l ∈ cutOf ord L := fun l hl => by rw [e1]; simp [hl]
      have hbA : b ∉ A1 := fun hb => UInt8.lt_irrefl _ (e2 b hb)
      have hbound : hereN L + (A1.map c).sum + (residual L [b]).length ≤ L.length := by
        have h9 : (A1.map c).sum ≤ (A1.map (fun l => (residual L [l]).length)).sum := sum_map_le fun l hl => hcl' l (hsub l hl)
        have h10 := sum_le_of_subset (A := b :: A1) (B := heads L) (f := fun l => (residual L [l]).length)
          (List.nodup_cons.2 ⟨hbA, hA1⟩) (fun l hl => by
            rcases List.mem_cons.1 hl with rfl | hl
            · exact hbh
            · exact cut_heads ho h (hsub l hl))
        rw [List.map_cons, List.sum_cons] at h10
        omega
      obtain ⟨X, f1, f2, f3⟩ := number_cut V hg ho hi k (r := r + hereN L + (A1.map c).sum) (V.step h hbh) ⟨v, by rw [mem_residual]; exact hv⟩ (by omega)
        (fun hl => hlost (lost_cons.2 (.inr hl)))
      -- the keys behind the labels that are skipped
      have hmid : ∃ Z : List Key, Z.Nodup ∧ Z.length = (A1.map c).sum ∧
          ∀ y, y ∈ Z ↔ ∃ l s, y = l :: s ∧ Vis L ∧ Lead ord L b l ∧ (∃ v, (s, v) ∈ residual L [l]) ∧ seen ord (residual L [l]) s := by
        by_cases hV : Vis L
        · refine ⟨findBehind D ord L A1, ?_, ?_, fun y => ?_⟩
          · exact nodup_flatMap_cons hA1 (fun l hl => findable_nodup V ho _ (V.step h (cut_heads ho h (hsub l hl))))
          · rw [findBehind_length, cntOf, ← hcc]
            simp only [if_pos hV]
          · rw [mem_findBehind]
            constructor
            · rintro ⟨l, hl, s, hs, rfl⟩
              have hk := V.step h (cut_heads ho h (hsub l hl))
              have := (mem_findable V ho (D.size + 1) s hk (fun e he => Nat.lt_succ_of_lt (V.small hk e he))).1 hs
              exact ⟨l, s, rfl, hV, (lead_iff e1 e2 e3).2 hl, this⟩
            · rintro ⟨l, s, rfl, _, hl, hs⟩
              have hl := (lead_iff e1 e2 e3).1 hl
              have hk := V.step h (cut_heads ho h (hsub l hl))
              exact ⟨l, hl, s, (mem_findable V ho (D.size + 1) s hk (fun e he => Nat.lt_succ_of_lt (V.small hk e he))).2 hs, rfl⟩
        · refine ⟨[], by simp, ?_, fun y => ?_⟩
          · rw [← hcc, sum_zero_of (fun l _ => by rw [if_neg hV])]
            rfl
          · constructor
            · intro hy; cases hy
            · rintro ⟨_, _, _, hc, _⟩; exact absurd hc hV
      obtain ⟨Z, z1, z2, z3⟩ := hmid
      have hhere : ∀ y, y ∈ ((if L.any (fun e => e.1 == []) then [[]] else []) : List Key) ↔ y = [] ∧ ∃ v, ([], v) ∈ L := by
        intro y
        by_cases hany : L.any (fun e => e.1 == []) = true
        · rw [if_pos hany, List.mem_singleton]
          obtain ⟨e, he, hk⟩ := List.any_eq_true.1 hany
          have hk : e.1 = [] := by simpa using hk
          exact ⟨fun hy => ⟨hy, e.2, by rw [← hk]; exact he⟩, fun hy => hy.1⟩
        · rw [if_neg hany]
          constructor
          · intro hy; cases hy
          · rintro ⟨_, v, hv⟩
            exact absurd (List.any_eq_true.2 ⟨_, hv, by simp⟩) hany
      have hH : ((if L.any (fun e => e.1 == []) then [[]] else []) : List Key).length = hereN L := by
        unfold hereN
        split <;> rfl
      refine ⟨((if L.any (fun e => e.1 == []) then [[]] else []) : List Key) ++ (Z ++ X.map (fun t => b :: t)), ?_, ?_, fun y => ?_⟩
      · rw [f1]
        congr 1
        simp only [List.length_append, List.length_map]
        rw [hH, z2]
        omega
      · rw [List.nodup_append, List.nodup_append]
        refine ⟨by split <;> simp, ⟨z1, ?_, ?_⟩, ?_⟩
        · unfold List.Nodup
          rw [List.pairwise_map]
          exact f2.imp (fun hne he => hne (List.cons.inj he).2)
        · rintro y hy z hz rfl
          obtain ⟨l, s, rfl, _, hl, _⟩ := (z3 y).1 hy
          obtain ⟨t, _, ht⟩ := List.mem_map.1 hz
          have : b = l := (List.cons.inj ht).1
          subst this
          exact hbA ((lead_iff e1 e2 e3).1 hl)
        · rintro y hy z hz rfl
          obtain ⟨rfl, _⟩ := (hhere y).1 hy
          rcases List.mem_append.1 hz with hz | hz
          · obtain ⟨_, _, hc, _⟩ := (z3 []).1 hz
            cases hc
          · obtain ⟨_, _, hc⟩ := List.mem_map.1 hz
            cases hc
      · rw [List.mem_append, List.mem_append, hhere, z3, Pass]
        refine or_congr Iff.rfl (or_congr Iff.rfl ?_)
        rw [List.mem_map]
        constructor
        · rintro ⟨t, ht, rfl⟩; exact ⟨t, rfl, (f3 t).1 ht⟩
        · rintro ⟨t, rfl, ht⟩; exact ⟨t, (f3 t).2 ht, rfl⟩

/-- The keys that are counted, in one piece. -/
theorem pass_iff {Vis : Lang → Prop} : ∀ {k : Key} {L : Lang} {y : Key}, (∃ v, (k, v) ∈ L) → (Pass ord Vis L k y ↔ (∃ v, (y, v) ∈ L) ∧ ((y <+: k ∧ y ≠ k) ∨
    ∃ p l b s t, y = p ++ l :: s ∧ k = p ++ b :: t ∧ Vis (residual L p) ∧ Lead ord (residual L p) b l ∧ seen ord (residual L (p ++ [l])) s))
  | [], L, y, _ => by
    simp only [Pass, false_iff]
    rintro ⟨_, ⟨h1, h2⟩ | ⟨p, l, b, s, t, _, h2, _⟩⟩
    · exact h2 (List.prefix_nil.1 h1)
    · simp at h2
  | b :: k, L, y, ⟨v0, hv0⟩ => by
    have ih := fun y => pass_iff (Vis := Vis) (k := k) (L := residual L [b]) (y := y) ⟨v0, by rw [mem_residual]; exact hv0⟩
    rw [Pass]
    constructor
    · rintro (⟨rfl, v, hv⟩ | ⟨l, s, rfl, h1, h2, ⟨v, hv⟩, h4⟩ | ⟨s, rfl, h1⟩)
      · exact ⟨⟨v, hv⟩, .inl ⟨List.nil_prefix, by simp⟩⟩
      · rw [mem_residual] at hv
        exact ⟨⟨v, hv⟩, .inr ⟨[], l, b, s, k, rfl, rfl, by rwa [residual_nil], by rwa [residual_nil], h4⟩⟩
      · obtain ⟨⟨v, hv⟩, h2⟩ := (ih s).1 h1
        rw [mem_residual] at hv
        refine ⟨⟨v, hv⟩, ?_⟩
        rcases h2 with ⟨h2, h3⟩ | ⟨p, l, b', s', t, rfl, rfl, h4, h5, h6⟩
        · exact .inl ⟨by simpa using h2, by simpa using h3⟩
        · refine .inr ⟨b :: p, l, b', s', t, rfl, rfl, ?_, ?_, ?_⟩
          · rwa [show b :: p = [b] ++ p from rfl, residual_residual]
          · rwa [show b :: p = [b] ++ p from rfl, residual_residual]
          · rwa [show b :: p ++ [l] = [b] ++ (p ++ [l]) from rfl, residual_residual]
    · rintro ⟨⟨v, hv⟩, h1⟩
      rcases h1 with ⟨h1, h2⟩ | ⟨p, l, b', s, t, rfl, hk, h4, h5, h6⟩
      · cases y with
        | nil => exact .inl ⟨rfl, v, hv⟩
        | cons a y =>
          obtain ⟨rfl, h1'⟩ := List.cons_prefix_cons.1 h1
          exact .inr (.inr ⟨y, rfl, (ih y).2 ⟨⟨v, by rw [mem_residual]; exact hv⟩, .inl ⟨h1', fun hc => h2 (by rw [hc])⟩⟩⟩)
      · cases p with
        | nil =>
          obtain ⟨rfl, rfl⟩ := List.cons.inj hk
          rw [residual_nil] at h4 h5
          exact .inr (.inl ⟨l, s, rfl, h4, h5, ⟨v, by rw [mem_residual]; exact hv⟩, h6⟩)
        | cons a p =>
          obtain ⟨rfl, hk'⟩ := List.cons.inj hk
          rw [show b :: p = [b] ++ p from rfl, residual_residual] at h4 h5
          rw [show b :: p ++ [l] = [b] ++ (p ++ [l]) from rfl, residual_residual] at h6
          exact .inr (.inr ⟨p ++ l :: s, rfl, (ih _).2 ⟨⟨v, by rw [mem_residual]; exact hv⟩, .inr ⟨p, l, b', s, t, rfl, hk', h4, h5, h6⟩⟩⟩)

/-! ## Ranked guides -/

variable {sorter : Sorter}

/-- The bytes up to which all are smaller than `b`: those behind which there is a value as great as all behind the bytes from `b` on. -/
theorem lead_rord (hs : StableSort sorter) (V : View D At kid clean) {u L} (h : At u L) {b l : UInt8} : Lead (rord D sorter ltCmp) L b l ↔
    l ∈ cutOf (rord D sorter ltCmp) L ∧ l < b ∧ ∃ g ∈ L, (∃ k, g.1 = l :: k) ∧ ∀ f ∈ L, ∀ c k, f.1 = c :: k → b ≤ c → f.2 ≤ g.2 := by
  have hperm := rord_perm (cmp := ltCmp) hs.perm V h
  have ho : (rord D sorter ltCmp L).Perm (arcs L) := hperm
  have hsort := rord_sorted hs strictTotal_lt V h
  obtain ⟨Y, hord, hY⟩ := cut_tail (rord D sorter ltCmp) L
  have hmem : ∀ {l}, l ∈ cutOf (rord D sorter ltCmp) L → l ∈ heads L := fun hl => ((cut_rord hs V h).1 hl).1
  -- the value of a link is the greatest behind it
  have hval : ∀ {l}, l ∈ heads L → ∃ g ∈ L, (∃ k, g.1 = l :: k) ∧ (g.2 : Int) = (mkLink D sorter ltCmp L l).value ∧
      ∀ f ∈ L, ∀ k, f.1 = l :: k → f.2 ≤ g.2 := by
    intro l hl
    obtain ⟨⟨g, hg1, hg2⟩, hmax⟩ := mkLink_spec hs strictTotal_lt V h (mem_arcs.2 (.inr hl))
    have hg2 : (g.2 : Int) = (mkLink D sorter ltCmp L l).value := hg2
    obtain ⟨hg3, k, hk⟩ := mem_underT (V.heads_ne_zero h hl) hg1
    refine ⟨g, hg3, ⟨k, hk⟩, hg2, fun f hf k hk => ?_⟩
    have hfu : f ∈ underT L [l] := by
      rw [underT_one L (V.heads_ne_zero h hl)]
      refine List.mem_map.2 ⟨(k, f.2), ?_, ?_⟩
      · rw [mem_residual, List.singleton_append, ← hk]; exact hf
      · unfold pre; rw [List.singleton_append, ← hk]
    have h4 : (f.2 : Int) ≤ (mkLink D sorter ltCmp L l).value := upto_lt.1 (hmax f hfu)
    omega
  have hsp : (cutOf (rord D sorter ltCmp) L ++ Y).Pairwise (fun a b => Upto ltCmp (mkLink D sorter ltCmp L b).value (mkLink D sorter ltCmp L a).value ∧
      ((mkLink D sorter ltCmp L b).value = (mkLink D sorter ltCmp L a).value → a ≤ b)) := by
    rw [← hord]; exact hsort
  have hhd : ∀ f ∈ L, ∀ c k, f.1 = c :: k → c ∈ heads L := by
    intro f hf c k hk
    rw [mem_heads]
    intro hc
    have : (k, f.2) ∈ residual L [c] := by rw [mem_residual, List.singleton_append, ← hk]; exact hf
    rw [hc] at this; cases this
  constructor
  · rintro ⟨A1, A2, e1, e2, e3⟩
    have hl : l ∈ cutOf (rord D sorter ltCmp) L := by rw [e1]; simp [e2]
    obtain ⟨g, g1, g2, g3, g4⟩ := hval (hmem hl)
    refine ⟨hl, e3 l e2, g, g1, g2, fun f hf c k hk hbc => ?_⟩
    have hc := hhd f hf c k hk
    have hcm : c ∈ A1 ++ (A2 ++ Y) := by
      have : c ∈ rord D sorter ltCmp L := ho.mem_iff.2 (mem_arcs.2 (.inr hc))
      rw [hord, e1, List.append_assoc] at this
      exact this
    have hcA : c ∈ A2 ++ Y := by
      rcases List.mem_append.1 hcm with h1 | h1
      · exact absurd (e3 c h1) (UInt8.not_lt.2 hbc)
      · exact h1
    rw [e1, List.append_assoc] at hsp
    have h2 := upto_lt.1 ((List.pairwise_append.1 hsp).2.2 l e2 c hcA).1
    obtain ⟨m, m1, m2, m3, m4⟩ := hval hc
    have := m4 f hf k hk
    omega
  · rintro ⟨hl, hlb, g, g1, ⟨kg, hkg⟩, g3⟩
    obtain ⟨A, B, hA⟩ := List.append_of_mem hl
    refine ⟨A ++ [l], B, by rw [hA]; simp, by simp, fun x hx => ?_⟩
    rcases List.mem_append.1 hx with hx | hx
    · rw [← UInt8.not_le]
      intro hbx
      -- then everything behind `x` has a value that is not greater than that behind `l`
      have hxc : x ∈ cutOf (rord D sorter ltCmp) L := by rw [hA]; simp [hx]
      obtain ⟨m, m1, ⟨km, hkm⟩, m3, _⟩ := hval (hmem hxc)
      obtain ⟨m', m1', m2', m3', m4'⟩ := hval (hmem hl)
      have h1 := g3 m m1 x km hkm hbx
      have h2 := m4' g g1 kg hkg
      rw [hA, List.append_assoc] at hsp
      have h3 := (List.pairwise_append.1 hsp).2.2 x hx l (by simp)
      have h4 := upto_lt.1 h3.1
      have h5 : (mkLink D sorter ltCmp L l).value = (mkLink D sorter ltCmp L x).value := by omega
      have h6 := h3.2 h5
      exact absurd (UInt8.lt_of_lt_of_le hlb (UInt8.le_trans hbx h6)) (UInt8.lt_irrefl _)
    · rw [List.mem_singleton.1 hx]; exact hlb

/-- Prefixes of keys are seen as keys are. -/
theorem seen_rord_prefix (hs : StableSort sorter) (V : View D At kid clean) : ∀ (k : Key) {u L}, At u L → residual L k ≠ [] →
    (seen (rord D sorter ltCmp) L k ↔ Listed L k)
  | [], u, L, h, _ => by
    refine ⟨fun _ e _ b t hk => ?_, fun _ => trivial⟩
    have := congrArg List.length hk
    simp at this
  | b :: k, u, L, h, hne => by
    rw [show b :: k = [b] ++ k from rfl, residual_residual] at hne
    have hb : b ∈ heads L := mem_heads.2 (fun hc => hne (by rw [hc]; rfl))
    unfold seen
    rw [cut_rord hs V h, seen_rord_prefix hs V k (V.step h hb) hne]
    constructor
    · rintro ⟨⟨_, h1⟩, h2⟩ e he c t hk
      obtain ⟨p, w⟩ := e
      cases p with
      | nil =>
        simp only [List.nil_append, List.cons.injEq] at hk
        obtain ⟨rfl, _⟩ := hk
        obtain ⟨f, hf, ⟨k', hk'⟩, hlt⟩ := h1 w he
        exact ⟨f, hf, by rw [hk']; simp, hlt⟩
      | cons a p =>
        simp only [List.cons_append, List.cons.injEq] at hk
        obtain ⟨rfl, hk⟩ := hk
        obtain ⟨f, hf, hpre, hlt⟩ := h2 (p, w) (by rw [mem_residual]; exact he) c t hk
        rw [mem_residual] at hf
        exact ⟨_, hf, by simpa using hpre, hlt⟩
    · intro hL
      refine ⟨⟨hb, fun w hw => ?_⟩, ?_⟩
      · obtain ⟨f, hf, hpre, hlt⟩ := hL _ hw b k rfl
        obtain ⟨t, ht⟩ := hpre
        exact ⟨f, hf, ⟨t, by rw [← ht]; rfl⟩, hlt⟩
      · intro e he c t hk
        rw [mem_residual] at he
        obtain ⟨f, hf, hpre, hlt⟩ := hL _ he c t (by rw [hk]; rfl)
        obtain ⟨s, hs⟩ := hpre
        refine ⟨(e.1 ++ [c] ++ s, f.2), ?_, by simp, hlt⟩
        rw [mem_residual]
        have : [b] ++ (e.1 ++ [c] ++ s) = f.1 := by rw [← hs]; simp
        rw [this]; exact hf

end
end Dawg.Guided
