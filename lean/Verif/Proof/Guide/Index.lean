import Verif.Proof.Guide.Completer
import Verif.Model.Index
/-! # Indexes -/
namespace Dawg.Guided
attribute [-simp] List.length_flatten
open Dawg.Abs Dawg.Spec Dawg.Dict

/-! ## Counting -/

section
variable {D : Dictionary} {At : Nat → Lang → Prop} {kid : Nat → UInt8 → Nat} {clean : UInt8 → Prop} {ord : Lang → List UInt8} {gd : Guide}

/-- 1 if the empty key is there. -/
def hereN (L : Lang) : Nat := if L.any (fun e => e.1 == []) then 1 else 0

theorem View.length_eq (V : View D At kid clean) {u L} (h : At u L) : L.length = hereN L + (under L (heads L)).length := by
  unfold hereN
  rcases V.shape h with ⟨h1, h2⟩ | ⟨v, h1, h2⟩
  · have : (L.any (fun e => e.1 == [])) = false := by
      rw [List.any_eq_false]
      intro e he hc
      exact h1 e he (by simpa using hc)
    rw [this, ← h2]; simp
  · have hmem : (([] : Key), v) ∈ L := by rw [h1]; simp
    rw [List.any_eq_true.2 ⟨_, hmem, by simp⟩]
    have := congrArg List.length h1
    simp only [List.length_cons] at this
    simp only [if_true]; omega

theorem under_cons_length (L : Lang) (l : UInt8) (ls : List UInt8) : (under L (l :: ls)).length = (residual L [l]).length + (under L ls).length := by
  rw [under_cons, List.length_append, List.length_map]

theorem under_append (L : Lang) (A B : List UInt8) : under L (A ++ B) = under L A ++ under L B := by
  simp [under]

theorem under_perm_length (L : Lang) {A B : List UInt8} (h : A.Perm B) : (under L A).length = (under L B).length := by
  induction h with
  | nil => rfl
  | cons x _ ih => rw [under_cons_length, under_cons_length, ih]
  | swap x y l => simp only [under_cons_length]; omega
  | trans _ _ ih1 ih2 => rw [ih1, ih2]

theorem heads_length (L : Lang) : (heads L).length ≤ 256 := by
  refine Nat.le_trans (List.length_filter_le _ _) ?_
  simp

/-- The orders over which an index can be built: all first bytes come before the terminal transition. -/
def CutOk (At : Nat → Lang → Prop) (ord : Lang → List UInt8) : Prop :=
  ∀ {u L}, At u L → ∃ X, X.Perm (heads L) ∧ (ord L = X ∨ ord L = X ++ [0])

theorem cutOk_heads : CutOk At heads := fun {_ L} _ => ⟨heads L, List.Perm.refl _, .inl rfl⟩

/-- The counts while `BuildIndex` runs; `S` are the units being worked on. -/
structure Cnt (D : Dictionary) (At : Nat → Lang → Prop) (kid : Nat → UInt8 → Nat) (us : List Nat) (S : List Nat) : Prop where
  len : us.length = D.size
  done : ∀ {u : Nat} {L : Lang}, At u L → u ∉ S → us[u]? = some 0 ∨
    (us[u]? = some L.length ∧ ∀ l ∈ heads L, us[kid u l]? ≠ some 0 ∧ kid u l ∉ S)

/-- `us'` comes after `us`, without work on `S`. -/
structure Later (us us' : List Nat) (S : List Nat) : Prop where
  mono : ∀ x : Nat, us'[x]? = some 0 → us[x]? = some 0
  same : ∀ x ∈ S, us'[x]? = us[x]?

theorem Later.refl (us S : List Nat) : Later us us S := ⟨fun _ h => h, fun _ _ => rfl⟩
theorem Later.trans {us us' us'' S : List Nat} (h : Later us us' S) (h' : Later us' us'' S) : Later us us'' S :=
  ⟨fun x hx => h.mono x (h'.mono x hx), fun x hx => (h'.same x hx).trans (h.same x hx)⟩

theorem addTo_ok {us : List Nat} {u c n : Nat} (h : us[u]? = some c) (hlt : c + n < 4294967296) : IndexBuilder.addTo us u n = .ok (us.set u (c + n)) := by
  unfold IndexBuilder.addTo
  rw [rd_some h]
  simp only [ok_bind]
  rw [wr_lt (List.getElem?_eq_some_iff.1 h).1, u32_of_lt hlt]

/-- Adding to the count of the unit being worked on. -/
theorem Cnt.add {us S} {u c n : Nat} (w : Cnt D At kid us (u :: S)) (h : us[u]? = some c) : Cnt D At kid (us.set u (c + n)) (u :: S) := by
  refine ⟨by rw [List.length_set]; exact w.len, ?_⟩
  intro v L hv hS
  have hne : u ≠ v := fun he => hS (by rw [he]; simp)
  have hulen := (List.getElem?_eq_some_iff.1 h).1
  rw [List.getElem?_set_ne hne]
  rcases w.done hv hS with e | ⟨e1, e2⟩
  · exact .inl e
  · refine .inr ⟨e1, fun l hl => ?_⟩
    obtain ⟨f1, f2⟩ := e2 l hl
    rw [List.mem_cons, not_or] at f2
    rw [List.getElem?_set_ne (Ne.symm f2.1), List.mem_cons, not_or]
    exact ⟨f1, f2⟩

theorem add_mono {us : List Nat} {u c n : Nat} (h : us[u]? = some c) : ∀ x : Nat, (us.set u (c + n))[x]? = some 0 → us[x]? = some 0 := by
  intro x hx
  have hulen := (List.getElem?_eq_some_iff.1 h).1
  rw [List.getElem?_set] at hx
  by_cases hux : u = x
  · subst hux
    rw [if_pos rfl, if_pos hulen] at hx
    simp only [Option.some.injEq] at hx
    rw [h]; simp only [Option.some.injEq]; omega
  · rw [if_neg hux] at hx; exact hx

/-- What a call of `buildIndices` does. -/
def ICall (D : Dictionary) (At : Nat → Lang → Prop) (kid : Nat → UInt8 → Nat) (gd : Guide) (fuel : Nat) : Prop :=
  ∀ {us S u L}, Cnt D At kid us S → At u L → us[u]? = some 0 → (∀ x ∈ S, Above At L x) → (∀ e ∈ L, e.1.length < fuel) →
    ∃ us', IndexBuilder.buildIndices D gd fuel us u = .ok (us', true) ∧ Cnt D At kid us' S ∧ Later us us' S ∧ us'[u]? = some L.length

theorem index_loop (V : View D At kid clean) (hg : GuideIs D At kid ord gd) {fuel : Nat} (IH : ICall D At kid gd fuel) {u : Nat} {L : Lang} (h : At u L)
    {S : List Nat} (hS : ∀ x ∈ S, Above At L x) (hfu : ∀ e ∈ L, e.1.length < fuel + 1) {X : List UInt8} (hX : X.Perm (heads L)) {Y : List UInt8}
    (hY : Y = [] ∨ Y = [0]) (hord : ord L = X ++ Y) :
    ∀ (B : List UInt8) {A us c} (n : Nat), X = A ++ B → B.length < n → us[u]? = some c → c + (under L B).length < 4294967296 → Cnt D At kid us (u :: S) →
    ∃ us', IndexBuilder.loop D gd (fun us i => IndexBuilder.buildIndices D gd fuel us i) u n us ((B ++ Y).headD 0) = .ok (us', true) ∧
      Cnt D At kid us' (u :: S) ∧ Later us us' S ∧ us'[u]? = some (c + (under L B).length) ∧ ∀ l ∈ B, us'[kid u l]? ≠ some 0
  | [], A, us, c, n, _, hn, hc, _, w => by
    obtain ⟨n, rfl⟩ : ∃ m, n = m + 1 := ⟨n - 1, by omega⟩
    refine ⟨us, ?_, w, Later.refl _ _, by simpa [under] using hc, by simp⟩
    rw [IndexBuilder.loop]
    rcases hY with rfl | rfl <;> rfl
  | l :: B, A, us, c, n, hB, hn, hc, hov, w => by
    obtain ⟨n, rfl⟩ : ∃ m, n = m + 1 := ⟨n - 1, by omega⟩
    have hl : l ∈ heads L := hX.mem_iff.1 (by rw [hB]; simp)
    have hl0 := V.heads_ne_zero h hl
    have hk := V.step h hl
    have habove : ∀ x ∈ u :: S, Above At (residual L [l]) x := by
      intro x hx
      rcases List.mem_cons.1 hx with rfl | hx
      · exact Above.self V h l
      · exact (hS x hx).down
    have hkS : kid u l ∉ u :: S := fun hc => (habove _ hc).ne V hk rfl
    rw [under_cons_length] at hov
    have hpos : (residual L [l]).length ≠ 0 := by
      have := List.length_pos_iff.2 (V.ne hk); omega
    -- the count of the child
    obtain ⟨us1, e1, w1, m1, c1⟩ : ∃ us1, (do
        let n ← rd us (kid u l)
        if n = 0 then IndexBuilder.buildIndices D gd fuel us (kid u l) else pure (us, true) : Go (List Nat × Bool)) = .ok (us1, true) ∧
        Cnt D At kid us1 (u :: S) ∧ Later us us1 (u :: S) ∧ us1[kid u l]? = some (residual L [l]).length := by
      rcases w.done hk hkS with hz | ⟨hz, _⟩
      · obtain ⟨us1, a1, a2, a3, a4⟩ := IH w hk hz habove (by
          intro e he
          obtain ⟨e', he', h4, _⟩ := depth_lt he
          have := hfu e' he'
          rw [h4] at this
          simp only [List.length_cons] at this; omega)
        refine ⟨us1, ?_, a2, a3, a4⟩
        rw [rd_some hz]
        simp only [ok_bind, if_true]
        exact a1
      · refine ⟨us, ?_, w, Later.refl _ _, hz⟩
        rw [rd_some hz]
        simp only [ok_bind]
        rw [if_neg hpos]; rfl
    have hc1 : us1[u]? = some c := by rw [m1.same u (by simp)]; exact hc
    have hne : u ≠ kid u l := fun he => hkS (by rw [← he]; simp)
    obtain ⟨us2, e2, w2, m2, c2, k2⟩ := index_loop V hg IH h hS hfu hX hY hord B (A := A ++ [l]) (us := us1.set u (c + (residual L [l]).length))
      (c := c + (residual L [l]).length) n (by rw [hB]; simp) (by simp only [List.length_cons] at hn; omega)
      (by rw [List.getElem?_set_self (List.getElem?_eq_some_iff.1 hc1).1]) (by omega) (w1.add hc1)
    refine ⟨us2, ?_, w2, ?_, by rw [c2, under_cons_length]; congr 1; omega, ?_⟩
    · rw [IndexBuilder.loop, List.cons_append, List.headD_cons, if_neg hl0, V.follow h hl]
      simp only [ok_bind]
      cases hr : rd us (kid u l) with
      | error e => rw [hr] at e1; cases e1
      | ok m =>
        rw [hr] at e1
        simp only [ok_bind] at e1 ⊢
        have tail : (do
            let __do_lift ← rd us1 (kid u l)
            let us ← IndexBuilder.addTo us1 u __do_lift
            let s ← gd.sibling (kid u l)
            IndexBuilder.loop D gd (fun us i => IndexBuilder.buildIndices D gd fuel us i) u n us s : Go (List Nat × Bool)) = .ok (us2, true) := by
          simp only [ok_bind, rd_some c1]
          rw [addTo_ok hc1 (by omega)]
          simp only [ok_bind]
          rw [hg.sibling (pre := A) (post := B ++ Y) h (by rw [hord, hB]; simp)]
          simp only [ok_bind]
          exact e2
        by_cases hm : m = 0
        · rw [if_pos hm] at e1 ⊢
          rw [e1]
          exact tail
        · rw [if_neg hm] at e1 ⊢
          rw [e1]
          exact tail
    · refine Later.trans ⟨fun x hx => m1.mono x (add_mono hc1 x hx), ?_⟩ m2
      intro x hx
      have hxu : u ≠ x := fun he => (hS x hx).ne V h he.symm
      rw [List.getElem?_set_ne hxu]
      exact m1.same x (List.mem_cons_of_mem _ hx)
    · intro l' hl'
      rcases List.mem_cons.1 hl' with rfl | hl'
      · intro hz
        have := add_mono hc1 _ (m2.mono _ hz)
        rw [c1] at this
        simp only [Option.some.injEq] at this
        exact hpos this
      · exact k2 l' hl'

theorem index_call (V : View D At kid clean) (hg : GuideIs D At kid ord gd) (hcut : CutOk At ord) : ∀ fuel, ICall D At kid gd fuel := by
  intro fuel
  induction fuel with
  | zero =>
    intro us S u L _ h _ _ hfu
    obtain ⟨e, he⟩ := List.exists_mem_of_ne_nil _ (V.ne h)
    exact absurd (hfu e he) (by omega)
  | succ fuel IH =>
    intro us S u L w h hz hS hfu
    have hu : u < us.length := by rw [w.len]; exact V.lt h
    have huS : u ∉ S := fun hu => (hS u hu).ne V h rfl
    have hlen := V.length_eq h
    have htot := V.total h
    have w0 : Cnt D At kid us (u :: S) := by
      refine ⟨w.len, ?_⟩
      intro v M hv hvS
      rw [List.mem_cons, not_or] at hvS
      rcases w.done hv hvS.2 with e | ⟨e1, e2⟩
      · exact .inl e
      · refine .inr ⟨e1, fun l hl => ⟨(e2 l hl).1, ?_⟩⟩
        rw [List.mem_cons, not_or]
        exact ⟨fun he => (e2 l hl).1 (by rw [he]; exact hz), (e2 l hl).2⟩
    obtain ⟨us1, e1, w1, m1, c1⟩ : ∃ us1, (do
        if ← D.hasValue u then IndexBuilder.addTo us u 1 else pure us : Go (List Nat)) = .ok us1 ∧ Cnt D At kid us1 (u :: S) ∧ Later us us1 S ∧
        us1[u]? = some (hereN L) := by
      rw [V.hasValue h]
      simp only [ok_bind]
      unfold hereN
      cases hany : L.any (fun e => e.1 == []) with
      | false => exact ⟨us, rfl, w0, Later.refl _ _, hz⟩
      | true =>
        refine ⟨us.set u (0 + 1), ?_, w0.add hz, ⟨add_mono hz, ?_⟩, ?_⟩
        · simp only [if_true]
          exact addTo_ok hz (by omega)
        · intro x hx
          rw [List.getElem?_set_ne (fun he => huS (by rw [he]; exact hx))]
        · rw [List.getElem?_set_self hu]; rfl
    obtain ⟨X, hX, hord⟩ := hcut h
    obtain ⟨Y, hY, hord⟩ : ∃ Y, (Y = [] ∨ Y = [0]) ∧ ord L = X ++ Y := by
      rcases hord with hord | hord
      · exact ⟨[], .inl rfl, by rw [hord, List.append_nil]⟩
      · exact ⟨[0], .inr rfl, hord⟩
    have hXl := under_perm_length L hX
    obtain ⟨us2, e2, w2, m2, c2, k2⟩ := index_loop V hg IH h hS hfu hX hY hord X (A := []) 257 rfl
      (by rw [hX.length_eq]; have := heads_length L; omega) c1 (by omega) w1
    rw [hXl, ← hlen] at c2
    refine ⟨us2, ?_, ?_, m1.trans m2, c2⟩
    · rw [IndexBuilder.buildIndices]
      cases hr : D.hasValue u with
      | error e => rw [hr] at e1; cases e1
      | ok m =>
        rw [hr] at e1
        simp only [ok_bind] at e1 ⊢
        have tail : (do
            let child ← gd.child u
            IndexBuilder.loop D gd (fun us i => IndexBuilder.buildIndices D gd fuel us i) u 257 us1 child : Go (List Nat × Bool)) = .ok (us2, true) := by
          rw [hg.child h, hord]
          exact e2
        by_cases hm : m = true
        · rw [if_pos hm] at e1 ⊢
          rw [e1]
          exact tail
        · rw [if_neg hm] at e1 ⊢
          rw [e1]
          exact tail
    · refine ⟨w2.len, ?_⟩
      intro v M hv hvS
      by_cases hvu : v = u
      · subst hvu
        rw [V.func hv h]
        refine .inr ⟨c2, fun l hl => ⟨k2 l (hX.mem_iff.2 hl), fun hc => ?_⟩⟩
        exact (hS _ hc).down.ne V (V.step h hl) rfl
      · rcases w2.done hv (by simp [hvu, hvS]) with e | ⟨f1, f2⟩
        · exact .inl e
        · exact .inr ⟨f1, fun l hl => ⟨(f2 l hl).1, fun hc => (f2 l hl).2 (List.mem_cons_of_mem _ hc)⟩⟩

/-- `idx` holds the number of keys below every reached unit. -/
structure IndexIs (D : Dictionary) (At : Nat → Lang → Prop) (idx : Index) : Prop where
  size : idx.units.length = D.size
  count : ∀ {u L}, At u L → idx.childCount u = .ok L.length

theorem buildIndex_spec (V : View D At kid clean) {acc : Lang} (h0 : At 0 acc) (hg : GuideIs D (Reach kid acc) kid ord gd) (hcut : CutOk (Reach kid acc) ord) :
    ∃ idx, buildIndex D gd = .ok (some idx) ∧ IndexIs D (Reach kid acc) idx := by
  have V' := V.reach h0
  have hstart : Cnt D (Reach kid acc) kid (List.replicate D.size 0) [] := by
    refine ⟨by simp, ?_⟩
    intro u L h _
    left
    rw [List.getElem?_replicate, if_pos (V'.lt h)]
  have hpos : 0 < D.size := V'.lt Reach.root
  obtain ⟨us, e1, w, _, c⟩ := index_call V' hg hcut (D.size + 1) hstart Reach.root (by rw [List.getElem?_replicate, if_pos hpos]) (by simp)
    (fun e he => by have := V'.depth Reach.root e he; omega)
  refine ⟨⟨us⟩, ?_, w.len, ?_⟩
  · unfold buildIndex IndexBuilder.build
    rw [show gd.root = 0 from rfl, e1]; rfl
  · have nz : ∀ {u L}, Reach kid acc u L → us[u]? ≠ some 0 := by
      intro u L h
      induction h with
      | root =>
        rw [c]
        have := List.length_pos_iff.2 (V'.ne Reach.root)
        simp only [ne_eq, Option.some.injEq]; omega
      | @step u L l h hl ih =>
        rcases w.done h (by simp) with e | ⟨_, e2⟩
        · exact absurd e ih
        · exact (e2 l hl).1
    intro u L h
    rcases w.done h (by simp) with e | ⟨e1, _⟩
    · exact absurd e (nz h)
    · exact rd_some e1

/-! ## Ranks -/

/-- How many keys are smaller. -/
def rank (L : Lang) (k : Key) : Nat := (L.filter (fun e => decide (e.1 < k))).length

theorem cons_lt_cons_self {b : UInt8} {x k : Key} : b :: x < b :: k ↔ x < k := by
  rw [List.cons_lt_cons_iff]
  simp [UInt8.lt_irrefl]

theorem rank_under_lt {L : Lang} {A : List UInt8} {b : UInt8} {k : Key} (h : ∀ x ∈ A, x < b) :
    ((under L A).filter (fun e => decide (e.1 < b :: k))).length = (under L A).length := by
  rw [List.filter_eq_self.2]
  intro e he
  obtain ⟨l, hl, he⟩ := List.mem_flatMap.1 he
  obtain ⟨e', _, rfl⟩ := List.mem_map.1 he
  simp only [decide_eq_true_eq]
  exact List.cons_lt_cons_iff.2 (.inl (h l hl))

theorem rank_under_gt {L : Lang} {A : List UInt8} {b : UInt8} {k : Key} (h : ∀ x ∈ A, b < x) :
    ((under L A).filter (fun e => decide (e.1 < b :: k))) = [] := by
  rw [List.filter_eq_nil_iff]
  intro e he
  obtain ⟨l, hl, he⟩ := List.mem_flatMap.1 he
  obtain ⟨e', _, rfl⟩ := List.mem_map.1 he
  simp only [decide_eq_true_eq]
  intro hc
  have := h l hl
  rcases List.cons_lt_cons_iff.1 hc with hc | ⟨hc, _⟩
  · exact UInt8.lt_irrefl _ (UInt8.lt_trans hc this)
  · rw [hc] at this; exact UInt8.lt_irrefl _ this

theorem rank_pre {M : Lang} {b : UInt8} {k : Key} : ((M.map (pre [b])).filter (fun e => decide (e.1 < b :: k))).length = rank M k := by
  unfold rank
  rw [List.filter_map, List.length_map]
  congr 2
  funext e
  simp only [Function.comp_apply, decide_eq_decide]
  exact cons_lt_cons_self

theorem View.rank_cons (V : View D At kid clean) {u L} (h : At u L) {A C : List UInt8} {b : UInt8} {k : Key} (hL : heads L = A ++ b :: C) :
    rank L (b :: k) = hereN L + (under L A).length + rank (residual L [b]) k := by
  have hasc := heads_asc L
  rw [hL, List.pairwise_append, List.pairwise_cons] at hasc
  have hA : ∀ x ∈ A, x < b := fun x hx => hasc.2.2 x hx b (by simp)
  have hC : ∀ x ∈ C, b < x := fun x hx => hasc.2.1.1 x hx
  have hu : ((under L (heads L)).filter (fun e => decide (e.1 < b :: k))).length = (under L A).length + rank (residual L [b]) k := by
    rw [hL, under_append, under_cons, List.filter_append, List.filter_append, List.length_append, List.length_append, rank_under_lt hA,
      rank_pre, rank_under_gt hC]
    rfl
  have h1 := V.shape h
  have h2 := V.length_eq h
  unfold rank
  rcases h1 with ⟨h1, h3⟩ | ⟨v, h3, _⟩
  · have : (L.filter (fun e => decide (e.1 < b :: k))).length = ((under L (heads L)).filter (fun e => decide (e.1 < b :: k))).length := by rw [← h3]
    rw [this, hu]
    have h4 := congrArg List.length h3
    unfold rank
    omega
  · have : (L.filter (fun e => decide (e.1 < b :: k))).length =
        (((([] : Key), v) :: under L (heads L)).filter (fun e => decide (e.1 < b :: k))).length := by rw [← h3]
    rw [this, List.filter_cons_of_pos (by simp), List.length_cons, hu]
    have h4 := congrArg List.length h3
    simp only [List.length_cons] at h4
    unfold rank
    omega

theorem asc_split {A : List UInt8} (h : A.Pairwise (· < ·)) (b : UInt8) : ∃ B C, A = B ++ C ∧ (∀ x ∈ B, x < b) ∧ ∀ x ∈ C, ¬ x < b := by
  induction A with
  | nil => exact ⟨[], [], rfl, by simp, by simp⟩
  | cons a A ih =>
    obtain ⟨h1, h2⟩ := List.pairwise_cons.1 h
    by_cases ha : a < b
    · obtain ⟨B, C, h3, h4, h5⟩ := ih h2
      refine ⟨a :: B, C, by rw [h3]; rfl, ?_, h5⟩
      intro x hx
      rcases List.mem_cons.1 hx with rfl | hx
      · exact ha
      · exact h4 x hx
    · refine ⟨[], a :: A, rfl, by simp, ?_⟩
      intro x hx hxb
      rcases List.mem_cons.1 hx with rfl | hx
      · exact ha hxb
      · exact ha (UInt8.lt_trans (h1 x hx) hxb)

variable {idx : Index}

theorem skip_spec (V : View D At kid clean) (hg : GuideIs D At kid heads gd) (hi : IndexIs D At idx) {u : Nat} {L : Lang} (h : At u L) (b : UInt8) {C : List UInt8}
    (hC : ∀ x ∈ C, ¬ x < b) :
    ∀ (B : List UInt8) {A : List UInt8} {r fuel : Nat}, heads L = A ++ B ++ C → (∀ x ∈ B, x < b) → B.length < fuel → r + (under L B).length < 4294967296 →
    Indexer.skip D gd idx u b fuel r ((B ++ C).headD 0) = .ok (some (r + (under L B).length, C.headD 0))
  | [], A, r, fuel, _, _, hf, _ => by
    obtain ⟨fuel, rfl⟩ : ∃ m, fuel = m + 1 := ⟨fuel - 1, by omega⟩
    rw [Indexer.skip, List.nil_append, if_neg]
    · rfl
    · rintro ⟨h1, h2⟩
      cases C with
      | nil => exact h2 rfl
      | cons c C => exact hC c (by simp) h1
  | l :: B, A, r, fuel, hL, hB, hf, ho => by
    obtain ⟨fuel, rfl⟩ : ∃ m, fuel = m + 1 := ⟨fuel - 1, by omega⟩
    have hl : l ∈ heads L := by rw [hL]; simp
    rw [under_cons_length] at ho ⊢
    rw [Indexer.skip, List.cons_append, List.headD_cons, if_pos ⟨hB l (by simp), V.heads_ne_zero h hl⟩, V.follow h hl]
    simp only [ok_bind]
    rw [hi.count (V.step h hl)]
    simp only [ok_bind]
    rw [hg.sibling (pre := A) (post := B ++ C) h (by rw [hL]; simp), u32_of_lt (by omega)]
    simp only [ok_bind]
    rw [skip_spec V hg hi h b hC B (A := A ++ [l]) (r := r + (residual L [l]).length) (by rw [hL]; simp) (fun x hx => hB x (by simp [hx]))
      (by simp only [List.length_cons] at hf; omega) (by omega)]
    congr 3
    omega

theorem rank_le (L : Lang) (k : Key) : rank L k ≤ L.length := List.length_filter_le _ _

/-- `StringToIndex`. -/
theorem bytesLoop_spec (V : View D At kid clean) (hg : GuideIs D At kid heads gd) (hi : IndexIs D At idx) : ∀ (k : Key) {u L r}, At u L →
    r + L.length < 4294967295 → (∀ p b, p ++ [b] <+: k → residual L p ≠ [] → residual L (p ++ [b]) = [] → clean b) →
    ((∃ v, (k, v) ∈ L) ∧ Indexer.bytesLoop D gd idx k u r = .ok (r + rank L k)) ∨
    ((∀ v, (k, v) ∉ L) ∧ Indexer.bytesLoop D gd idx k u r = .ok Indexer.notFound)
  | [], u, L, r, h, ho, _ => by
    rw [Indexer.bytesLoop, V.hasValue h]
    simp only [ok_bind]
    cases hany : L.any (fun e => e.1 == []) with
    | true =>
      left
      rw [List.any_eq_true] at hany
      obtain ⟨⟨k, v⟩, h1, h2⟩ := hany
      simp only [beq_iff_eq] at h2
      subst h2
      refine ⟨⟨v, h1⟩, ?_⟩
      have : rank L [] = 0 := by
        unfold rank
        rw [List.length_eq_zero_iff, List.filter_eq_nil_iff]
        intro e _
        simp
      rw [this]; rfl
    | false =>
      right
      refine ⟨fun v hv => ?_, rfl⟩
      rw [List.any_eq_false] at hany
      exact hany _ hv (by simp)
  | b :: k, u, L, r, h, ho, hc => by
    have hlen := V.length_eq h
    obtain ⟨B, C, hL, hB, hC⟩ := asc_split (heads_asc L) b
    have hsp : (under L (heads L)).length = (under L B).length + (under L C).length := by rw [hL, under_append, List.length_append]
    have hskip := skip_spec V hg hi h b hC B (A := []) (r := r + hereN L) (fuel := 257) (by rw [hL]; rfl) hB
      (by have := heads_length L; rw [hL, List.length_append] at this; omega) (by omega)
    have hmem : ∀ v, (b :: k, v) ∈ L ↔ (k, v) ∈ residual L [b] := fun v => by rw [mem_residual]; rfl
    have hstart : Indexer.bytesLoop D gd idx (b :: k) u r = (do
        if C.headD 0 = 0 then return Indexer.notFound
        match ← D.follow b u with
        | none => return Indexer.notFound
        | some childIndex => Indexer.bytesLoop D gd idx k childIndex (r + hereN L + (under L B).length)) := by
      rw [Indexer.bytesLoop, V.hasValue h]
      simp only [ok_bind]
      have : (if L.any (fun e => e.1 == []) = true then u32 (r + 1) else r) = r + hereN L := by
        unfold hereN at hlen ⊢
        by_cases ha : L.any (fun e => e.1 == []) = true
        · rw [if_pos ha, if_pos ha, u32_of_lt]
          rw [if_pos ha] at hlen; omega
        · rw [if_neg ha, if_neg ha]; rfl
      rw [this, hg.child h]
      simp only [ok_bind]
      rw [hL, hskip]
      rfl
    rw [hstart]
    by_cases hb : b ∈ heads L
    · -- `b` is the next head
      obtain ⟨C', rfl⟩ : ∃ C', C = b :: C' := by
        have hbC : b ∈ C := by
          rw [hL, List.mem_append] at hb
          rcases hb with hb | hb
          · exact absurd (hB b hb) (UInt8.lt_irrefl _)
          · exact hb
        cases C with
        | nil => simp at hbC
        | cons c C =>
          rcases List.mem_cons.1 hbC with rfl | hbC
          · exact ⟨C, rfl⟩
          · have hasc := heads_asc L
            rw [hL, List.pairwise_append, List.pairwise_cons] at hasc
            exact absurd (hasc.2.1.1 b hbC) (hC c (by simp))
      rw [List.headD_cons, if_neg (V.heads_ne_zero h hb), V.follow h hb]
      simp only [ok_bind]
      have hul := under_cons_length L b C'
      have ih := bytesLoop_spec V hg hi k (r := r + hereN L + (under L B).length) (V.step h hb) (by omega) (by
        intro p x hp h1 h2
        refine hc (b :: p) x (by simpa using hp) ?_ ?_
        · rwa [show b :: p = [b] ++ p from rfl, residual_residual]
        · rwa [show b :: p ++ [x] = [b] ++ (p ++ [x]) from rfl, residual_residual])
      rcases ih with ⟨⟨v, h1⟩, h2⟩ | ⟨h1, h2⟩
      · left
        refine ⟨⟨v, (hmem v).2 h1⟩, ?_⟩
        rw [h2, V.rank_cons h hL]
        congr 1
        omega
      · right
        exact ⟨fun v hv => h1 v ((hmem v).1 hv), h2⟩
    · right
      have hno : ∀ v, (b :: k, v) ∉ L := fun v hv => hb (mem_heads.2 (List.ne_nil_of_mem ((hmem v).1 hv)))
      refine ⟨hno, ?_⟩
      have hcl : clean b := hc [] b (by simp) (by rw [residual_nil]; exact V.ne h)
        (Classical.byContradiction fun hn => hb (mem_heads.2 hn))
      by_cases hz : C.headD 0 = 0
      · rw [if_pos hz]; rfl
      · rw [if_neg hz, V.miss h hb hcl]; rfl

/-! ## Selection -/

theorem pick_spec (V : View D At kid clean) (hg : GuideIs D At kid heads gd) (hi : ∀ {u L}, At u L → u ≠ 0 → idx.childCount u = .ok L.length) {u : Nat} {L : Lang} (h : At u L) (i : Nat) :
    ∀ (B : List UInt8) {A : List UInt8} {cur fuel : Nat}, heads L = A ++ B → B.length < fuel → cur ≤ i → cur + (under L B).length < 4294967296 →
    (∃ B1 l B2, B = B1 ++ l :: B2 ∧ cur + (under L B1).length ≤ i ∧ i < cur + (under L B1).length + (residual L [l]).length ∧
      Indexer.pick D gd idx i u fuel cur (B.headD 0) = .ok (.into (cur + (under L B1).length) (kid u l) l)) ∨
    (cur + (under L B).length ≤ i ∧ ∃ c, Indexer.pick D gd idx i u fuel cur (B.headD 0) = .ok (.stop c))
  | [], A, cur, fuel, _, hf, hcur, _ => by
    obtain ⟨fuel, rfl⟩ : ∃ m, fuel = m + 1 := ⟨fuel - 1, by omega⟩
    exact .inr ⟨by simpa [under] using hcur, cur, by rw [Indexer.pick]; rfl⟩
  | l :: B, A, cur, fuel, hL, hf, hcur, ho => by
    obtain ⟨fuel, rfl⟩ : ∃ m, fuel = m + 1 := ⟨fuel - 1, by omega⟩
    have hl : l ∈ heads L := by rw [hL]; simp
    rw [under_cons_length] at ho
    have hs : Indexer.pick D gd idx i u (fuel + 1) cur ((l :: B).headD 0) = (do
        if i < cur + (residual L [l]).length then return .into cur (kid u l) l
        Indexer.pick D gd idx i u fuel (cur + (residual L [l]).length) (B.headD 0)) := by
      rw [Indexer.pick, List.headD_cons, if_neg (V.heads_ne_zero h hl), V.follow h hl]
      simp only [ok_bind]
      rw [hi (V.step h hl) (V.kid_ne h (heads_arcs hl))]
      simp only [ok_bind]
      rw [u32_of_lt (by omega), hg.sibling (pre := A) (post := B) h hL]
      rfl
    by_cases hlt : i < cur + (residual L [l]).length
    · left
      refine ⟨[], l, B, rfl, by simpa [under] using hcur, by simpa [under] using hlt, ?_⟩
      rw [hs, if_pos hlt]
      simp [under, pure_eq_ok]
    · rw [hs, if_neg hlt]
      rcases pick_spec V hg hi h i B (A := A ++ [l]) (cur := cur + (residual L [l]).length) (fuel := fuel) (by rw [hL]; simp)
        (by simp only [List.length_cons] at hf; omega) (by omega) (by omega) with ⟨B1, m, B2, e1, e2, e3, e4⟩ | ⟨e1, c, e2⟩
      · left
        refine ⟨l :: B1, m, B2, by rw [e1]; rfl, ?_, ?_, ?_⟩
        · rw [under_cons_length]; omega
        · rw [under_cons_length]; omega
        · rw [e4, under_cons_length]
          congr 2
          omega
      · right
        rw [under_cons_length]
        exact ⟨by omega, c, e2⟩

/-- `IndexToBytes`. -/
theorem selectLoop_spec (V : View D At kid clean) (hg : GuideIs D At kid heads gd) (hi : ∀ {u L}, At u L → u ≠ 0 → idx.childCount u = .ok L.length) (i : Nat) : ∀ (fuel : Nat) {u L cur buf}, At u L →
    (∀ e ∈ L, e.1.length < fuel) → cur ≤ i → cur + L.length < 4294967296 →
    Indexer.selectLoop D gd idx i fuel u cur buf = .ok (L[i - cur]?.map (fun e => buf ++ e.1)) := by
  intro fuel
  induction fuel with
  | zero =>
    intro u L cur buf h hfu
    obtain ⟨e, he⟩ := List.exists_mem_of_ne_nil _ (V.ne h)
    exact absurd (hfu e he) (by omega)
  | succ fuel ih =>
    intro u L cur buf h hfu hcur ho
    have hlen := V.length_eq h
    -- the keys behind the transitions
    have main : ∀ {c : Nat}, c ≤ i → c + (under L (heads L)).length < 4294967296 →
        (do
          match ← Indexer.pick D gd idx i u 257 c (← gd.child u) with
          | .nil => return none
          | .stop _ => return none
          | .into cur index label => Indexer.selectLoop D gd idx i fuel index cur (buf ++ [label]) : Go (Option (List UInt8))) =
        .ok ((under L (heads L))[i - c]?.map (fun e => buf ++ e.1)) := by
      intro c hc ho
      rw [hg.child h]
      simp only [ok_bind]
      rcases pick_spec V hg hi h i (heads L) (A := []) (cur := c) (fuel := 257) rfl (by have := heads_length L; omega) hc ho with
        ⟨B1, l, B2, e1, e2, e3, e4⟩ | ⟨e1, x, e2⟩
      · rw [e4]
        simp only [ok_bind]
        have hl : l ∈ heads L := by rw [e1]; simp
        have hu1 : (under L (heads L)).length = (under L B1).length + ((residual L [l]).length + (under L B2).length) := by
          rw [e1, under_append, List.length_append, under_cons_length]
        rw [ih (V.step h hl) (by
          intro e he
          obtain ⟨e', he', h4, _⟩ := depth_lt he
          have := hfu e' he'
          rw [h4] at this
          simp only [List.length_cons] at this; omega) e2 (by omega)]
        rw [e1, under_append, under_cons, List.getElem?_append_right (by omega), List.getElem?_append_left (by rw [List.length_map]; omega),
          List.getElem?_map, Nat.sub_sub]
        cases (residual L [l])[i - (c + (under L B1).length)]? with
        | none => rfl
        | some e => simp [pre]
      · rw [e2]
        rw [List.getElem?_eq_none (by omega)]
        rfl
    rw [Indexer.selectLoop, if_pos hcur, V.hasValue h]
    simp only [ok_bind]
    rcases V.shape h with ⟨h1, h2⟩ | ⟨v, h1, h2⟩
    · have hany : (L.any (fun e => e.1 == [])) = false := by
        rw [List.any_eq_false]
        intro e he hc
        exact h1 e he (by simpa using hc)
      rw [hany, if_neg (by simp), if_neg (by simp)]
      have hz : hereN L = 0 := by unfold hereN; rw [hany]; rfl
      have := main (c := cur) hcur (by omega)
      rw [← h2] at this
      exact this
    · have hmem : (([] : Key), v) ∈ L := by rw [h1]; simp
      have hany : (L.any (fun e => e.1 == [])) = true := List.any_eq_true.2 ⟨_, hmem, by simp⟩
      have hone : hereN L = 1 := by unfold hereN; rw [hany]; rfl
      rw [hany]
      have hget : ∀ j : Nat, L[j]? = ((([] : Key), v) :: under L (heads L))[j]? := fun j => by rw [← h1]
      by_cases hci : cur = i
      · rw [if_pos ⟨rfl, hci⟩, hget, hci]
        simp [pure_eq_ok]
      · rw [if_neg (by simp [hci]), if_pos rfl, u32_of_lt (by omega)]
        have := main (c := cur + 1) (by omega) (by omega)
        rw [hget, show i - cur = (i - (cur + 1)) + 1 by omega, List.getElem?_cons_succ]
        exact this

end
end Dawg.Guided
