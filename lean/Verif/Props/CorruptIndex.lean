import Verif.Props.CorruptRanked
/-! # C62: files with arbitrary indexes -/
namespace Dawg.Props
open Dawg Dawg.Spec Dawg.Client Dawg.Abs Dawg.Dict Dawg.Guided Dawg.Tool
attribute [-simp] List.length_flatten

/-- The units that an indexer visits from unit `i`, with their labels. -/
inductive IKid (D : Dictionary) (g : Guide) (i : Nat) : Nat → UInt8 → Prop
  | first {u j} : g.units[i]? = some u → u.child ≠ 0 → D.follow u.child i = .ok (some j) → IKid D g i j u.child
  | next {k l u j} : IKid D g i k l → g.units[k]? = some u → u.sibling ≠ 0 → D.follow u.sibling i = .ok (some j) → IKid D g i j u.sibling

/-- A dictionary, a guide and an index, read from wherever, on which indexers work: look-ups of bytes of `A` stay in the units `S`, and so do indexers; the guide and the index are as large
as the dictionary; there are no cycles. -/
structure Counted (D : Dictionary) (g : Guide) (x : Index) (A : UInt8 → Prop) (S : Nat → Prop) : Prop where
  closed : Closed D A S
  kids : ∀ i j l, S i → IKid D g i j l → S j
  size : g.units.length = D.units.length
  count : x.units.length = D.units.length
  depth : ∃ depth : Nat → Nat, ∀ i j l, S i → IKid D g i j l → depth j < depth i
  order : ∃ pos : Nat → UInt8 → Nat, ∀ i k l u j, S i → IKid D g i k l → g.units[k]? = some u → u.sibling ≠ 0 → D.follow u.sibling i = .ok (some j) → pos i u.sibling < pos i l

section
variable {D : Dictionary} {g : Guide} {x : Index} {A : UInt8 → Prop} {S : Nat → Prop}

theorem IKid.kidOf {i j : Nat} {l : UInt8} (h : IKid D g i j l) : KidOf D g i j ∧ D.follow l i = .ok (some j) := by
  induction h with
  | first h1 h2 h3 => exact ⟨.child h1 (.inl h2) h3, h3⟩
  | next _ h2 h3 h4 ih => exact ⟨.sibling ih.1 h2 h3 h4, h4⟩

theorem follow_fwc {i j : Nat} {l : UInt8} (h : D.follow l i = .ok (some j)) : RankedBuilder.followWithoutCheck D i l = .ok j := by
  unfold Dictionary.follow at h
  obtain ⟨u, h1, h⟩ := bind_eq_ok.1 h
  obtain ⟨w, h2, h⟩ := bind_eq_ok.1 h
  unfold RankedBuilder.followWithoutCheck
  rw [h1]
  simp only [pure_eq_ok, Except.ok.injEq] at h
  split at h
  · cases h
  · cases h
    rfl

theorem IKid.rkid {i j : Nat} {l : UInt8} {hv : Bool} (h : IKid D g i j l) (hh : D.hasValue i = .ok hv) : RKid D g i j l hv ∧ l ≠ 0 := by
  induction h with
  | first h1 h2 h3 =>
    have := RKid.first h1 hh (follow_fwc h3)
    rw [show (_ != (0 : UInt8)) = true from by simpa using h2, Bool.and_true] at this
    exact ⟨this, h2⟩
  | next _ h2 h3 h4 ih =>
    have := RKid.next ih.1 h2 (.inl h3) (follow_fwc h4)
    rw [show (_ != (0 : UInt8)) = true from by simpa using h3, Bool.and_true] at this
    exact ⟨this, h3⟩

/-- An index that is as large as the dictionary can be used with a guide on which completers work. -/
theorem Orderly.counted (h : Orderly D g A S) (hx : x.units.length = D.units.length) : Counted D g x A S := by
  obtain ⟨depth, hd⟩ := h.depth
  obtain ⟨pos, hp⟩ := h.order
  refine ⟨h.closed, fun i j l hi hk => h.kids i j hi hk.kidOf.1, h.size, hx, ⟨depth, fun i j l hi hk => hd i j hi hk.kidOf.1⟩,
    ⟨fun i l => match D.follow l i with | .ok (some j) => pos j | _ => 0, ?_⟩⟩
  intro i k l u j hi hk hu hz hj
  simp only [hj, hk.kidOf.2]
  exact hp i k u j hi hk.kidOf.1 hu hz hj

/-- Or with one on which ranked completers work. -/
theorem Tame.counted {W : Nat → Nat} {R : Nat → UInt8 → Bool → Nat} (h : Tame D g A S W R) (hx : x.units.length = D.units.length) : Counted D g x A S := by
  have hlt : ∀ i k l hv, S i → D.hasValue i = .ok hv → IKid D g i k l → weight W k l + R i l hv < W i := by
    intro i k l hv hi hh hk
    induction hk with
    | @first u j h1 h2 h3 =>
      have := h.first i u hv j hi h1 hh (follow_fwc h3)
      rw [show (u.child != (0 : UInt8)) = true from by simpa using h2, Bool.and_true] at this
      omega
    | @next k l u j hk h2 h3 h4 ih =>
      have := h.next i k l hv u j hi (hk.rkid hh).1 h2 (.inl h3) (follow_fwc h4)
      rw [show (u.sibling != (0 : UInt8)) = true from by simpa using h3, Bool.and_true] at this
      omega
  refine ⟨h.closed, ?_, h.size, hx, ⟨W, ?_⟩, ⟨fun i l => match D.hasValue i with | .ok hv => R i l hv | _ => 0, ?_⟩⟩
  · intro i j l hi hk
    obtain ⟨hv, hh⟩ := h.closed.hasValue hi
    exact h.kids i j l hv hi (hk.rkid hh).1 (hk.rkid hh).2
  · intro i j l hi hk
    obtain ⟨hv, hh⟩ := h.closed.hasValue hi
    have h1 := hlt i j l hv hi hh hk
    rw [show weight W j l = W j from if_neg (hk.rkid hh).2] at h1
    omega
  · intro i k l u j hi hk hu hz hj
    obtain ⟨hv, hh⟩ := h.closed.hasValue hi
    simp only [hh]
    have h1 := h.next i k l hv u j hi (hk.rkid hh).1 hu (.inl hz) (follow_fwc hj)
    have h2 := h.weight_pos (j := j) (l := u.sibling) (fun _ => h.kids i j _ _ hi (.next (hk.rkid hh).1 hu (.inl hz) (follow_fwc hj)) hz)
    rw [show (u.sibling != (0 : UInt8)) = true from by simpa using hz, Bool.and_true] at h1
    omega

theorem Counted.unit (h : Counted D g x A S) {i : Nat} (hi : S i) : ∃ u n, g.units[i]? = some u ∧ g.child i = .ok u.child ∧ g.sibling i = .ok u.sibling ∧ x.childCount i = .ok n := by
  have h1 := h.closed.lt hi
  have hlt : i < g.units.length := by rw [h.size]; exact h1
  have hlt' : i < x.units.length := by rw [h.count]; exact h1
  refine ⟨g.units[i], x.units[i], List.getElem?_eq_getElem hlt, ?_, ?_, rd_lt hlt'⟩
  · unfold Guide.child; rw [rd_lt hlt]; rfl
  · unfold Guide.sibling; rw [rd_lt hlt]; rfl

/-- Labels visited so far, and the next one. -/
def Labels (D : Dictionary) (g : Guide) (pos : Nat → UInt8 → Nat) (i : Nat) (vs : List UInt8) (c : UInt8) : Prop :=
  vs.Nodup ∧ (c ≠ 0 → ∀ j, D.follow c i = .ok (some j) → IKid D g i j c ∧ ∀ v ∈ vs, pos i c < pos i v)

theorem labels_le {vs : List UInt8} (h : vs.Nodup) : vs.length ≤ 256 := by
  have := h.length_le_of_subset (l₂ := (List.range 256).map UInt8.ofNat) (fun v _ => List.mem_map.2 ⟨v.toNat, List.mem_range.2 v.toNat_lt, by simp⟩)
  simpa using this

theorem Labels.step {pos : Nat → UInt8 → Nat} (hp : ∀ i k l u j, S i → IKid D g i k l → g.units[k]? = some u → u.sibling ≠ 0 → D.follow u.sibling i = .ok (some j) → pos i u.sibling < pos i l)
    {i j : Nat} {vs : List UInt8} {c : UInt8} {u : GuideUnit} (h : Labels D g pos i vs c) (hi : S i) (hc : c ≠ 0) (hj : D.follow c i = .ok (some j)) (hu : g.units[j]? = some u) :
    Labels D g pos i (c :: vs) u.sibling := by
  obtain ⟨h1, h2⟩ := h.2 hc j hj
  refine ⟨List.nodup_cons.2 ⟨fun hm => by have := h2 c hm; omega, h.1⟩, fun hz j' hj' => ⟨.next h1 hu hz hj', fun v hv => ?_⟩⟩
  have h3 := hp i j c u j' hi h1 hu hz hj'
  rcases List.mem_cons.1 hv with rfl | hv
  · exact h3
  · have := h2 v hv; omega

theorem skip_any (h : Counted D g x A S) {pos : Nat → UInt8 → Nat}
    (hp : ∀ i k l u j, S i → IKid D g i k l → g.units[k]? = some u → u.sibling ≠ 0 → D.follow u.sibling i = .ok (some j) → pos i u.sibling < pos i l) {i : Nat} (hi : S i) (b : UInt8) :
    ∀ (fuel r : Nat) (c : UInt8) (vs : List UInt8), Labels D g pos i vs c → 257 ≤ fuel + vs.length → ∃ o, Indexer.skip D g x i b fuel r c = .ok o := by
  intro fuel
  induction fuel with
  | zero =>
    intro r c vs hL hf
    have := labels_le hL.1
    omega
  | succ fuel ih =>
    intro r c vs hL hf
    rw [Indexer.skip]
    by_cases hc : c < b ∧ c ≠ 0
    · rw [if_pos hc]
      rcases h.closed.follow c hi with h1 | ⟨j, h1, _⟩
      · rw [h1]; exact ⟨none, rfl⟩
      · have hj := h.kids i j c hi (hL.2 hc.2 j h1).1
        obtain ⟨u, n, e1, e2, e3, e4⟩ := h.unit hj
        rw [h1]
        simp only [ok_bind]
        rw [e4]
        simp only [ok_bind]
        rw [e3]
        simp only [ok_bind]
        exact ih _ _ (c :: vs) (hL.step hp hi hc.2 h1 e1) (by simp only [List.length_cons]; omega)
    · rw [if_neg hc]; exact ⟨_, rfl⟩

theorem pick_any (h : Counted D g x A S) {pos : Nat → UInt8 → Nat}
    (hp : ∀ i k l u j, S i → IKid D g i k l → g.units[k]? = some u → u.sibling ≠ 0 → D.follow u.sibling i = .ok (some j) → pos i u.sibling < pos i l) {i : Nat} (hi : S i) (n : Nat) :
    ∀ (fuel r : Nat) (c : UInt8) (vs : List UInt8), Labels D g pos i vs c → 257 ≤ fuel + vs.length →
      ∃ o, Indexer.pick D g x n i fuel r c = .ok o ∧ ∀ cur j l, o = .into cur j l → IKid D g i j l := by
  intro fuel
  induction fuel with
  | zero =>
    intro r c vs hL hf
    have := labels_le hL.1
    omega
  | succ fuel ih =>
    intro r c vs hL hf
    rw [Indexer.pick]
    by_cases hc : c = 0
    · rw [if_pos hc]; exact ⟨_, rfl, by intro _ _ _ h; cases h⟩
    · rw [if_neg hc]
      rcases h.closed.follow c hi with h1 | ⟨j, h1, _⟩
      · rw [h1]; exact ⟨_, rfl, by intro _ _ _ h; cases h⟩
      · have hk := (hL.2 hc j h1).1
        have hj := h.kids i j c hi hk
        obtain ⟨u, m, e1, e2, e3, e4⟩ := h.unit hj
        rw [h1]
        simp only [ok_bind]
        rw [e4]
        simp only [ok_bind]
        by_cases hlt : n < u32 (r + m)
        · rw [if_pos hlt]
          refine ⟨_, rfl, ?_⟩
          intro _ _ _ h
          cases h
          exact hk
        · rw [if_neg hlt, e3]
          simp only [ok_bind]
          exact ih _ _ (c :: vs) (hL.step hp hi hc h1 e1) (by simp only [List.length_cons]; omega)

theorem labels_first {pos : Nat → UInt8 → Nat} {i : Nat} {u : GuideUnit} (hu : g.units[i]? = some u) : Labels D g pos i [] u.child :=
  ⟨List.nodup_nil, fun hz j hj => ⟨.first hu hz hj, by simp⟩⟩

theorem bytesLoop_any (h : Counted D g x A S) : ∀ (q : Key) (i r : Nat), S i → (∀ b ∈ q, A b) → ∃ n, Indexer.bytesLoop D g x q i r = .ok n
  | [], i, r, hi, _ => by
    obtain ⟨hv, h1⟩ := h.closed.hasValue hi
    rw [Indexer.bytesLoop, h1]
    cases hv <;> exact ⟨_, rfl⟩
  | b :: q, i, r, hi, hq => by
    obtain ⟨pos, hp⟩ := h.order
    obtain ⟨hv, h1⟩ := h.closed.hasValue hi
    obtain ⟨u, _, e1, e2, _⟩ := h.unit hi
    rw [Indexer.bytesLoop, h1]
    simp only [ok_bind]
    rw [e2]
    simp only [ok_bind]
    obtain ⟨o, h2⟩ := skip_any h hp hi b 257 (if hv = true then u32 (r + 1) else r) u.child [] (labels_first e1) (by simp)
    rw [h2]
    simp only [ok_bind]
    cases o with
    | none => exact ⟨_, rfl⟩
    | some o =>
      simp only
      by_cases hz : o.2 = 0
      · rw [if_pos hz]; exact ⟨_, rfl⟩
      · rw [if_neg hz]
        rcases h.closed.follow b hi with h3 | ⟨j, h3, _⟩
        · rw [h3]; exact ⟨_, rfl⟩
        · rw [h3]
          exact bytesLoop_any h q j _ (h.closed.step i b j hi (hq b List.mem_cons_self) h3) (fun b hb => hq b (List.mem_cons_of_mem _ hb))

theorem selectLoop_any (h : Counted D g x A S) {depth : Nat → Nat} (hd : ∀ i j l, S i → IKid D g i j l → depth j < depth i) (n : Nat) : ∀ (fuel i cur : Nat) (buf : List UInt8) (vs : List Nat),
    S i → vs.Nodup → (∀ v ∈ vs, v < D.units.length ∧ depth i < depth v) → D.units.length + 1 ≤ fuel + vs.length → ∃ o, Indexer.selectLoop D g x n fuel i cur buf = .ok o := by
  intro fuel
  induction fuel with
  | zero =>
    intro i cur buf vs _ hn hv hf
    have := hn.length_le_of_subset (l₂ := List.range D.units.length) (fun v hv' => List.mem_range.2 (hv v hv').1)
    rw [List.length_range] at this
    omega
  | succ fuel ih =>
    intro i cur buf vs hi hn hv hf
    obtain ⟨pos, hp⟩ := h.order
    rw [Indexer.selectLoop]
    by_cases hc : cur ≤ n
    · rw [if_pos hc]
      obtain ⟨hv', h1⟩ := h.closed.hasValue hi
      obtain ⟨u, _, e1, e2, _⟩ := h.unit hi
      rw [h1]
      simp only [ok_bind]
      by_cases hs : hv' = true ∧ cur = n
      · rw [if_pos hs]; exact ⟨_, rfl⟩
      · rw [if_neg hs, e2]
        simp only [ok_bind]
        obtain ⟨o, h2, h3⟩ := pick_any h hp hi n 257 (if hv' = true then u32 (cur + 1) else cur) u.child [] (labels_first e1) (by simp)
        rw [h2]
        simp only [ok_bind]
        cases o with
        | nil => exact ⟨_, rfl⟩
        | stop c => exact ⟨_, rfl⟩
        | into c j l =>
          have hk := h3 c j l rfl
          have hd' := hd i j l hi hk
          refine ih j c _ (i :: vs) (h.kids i j l hi hk) (List.nodup_cons.2 ⟨fun hm => by have := (hv i hm).2; omega, hn⟩) ?_ (by simp only [List.length_cons]; omega)
          intro v hm
          rcases List.mem_cons.1 hm with rfl | hm
          · exact ⟨h.closed.lt hi, hd'⟩
          · have := hv v hm
            exact ⟨this.1, by omega⟩
    · rw [if_neg hc]; exact ⟨_, rfl⟩

/-- **C62**, what is true of indexers: if the dictionary, the guide and the index are such, `BytesToIndex` returns for all strings of such bytes, and `IndexToBytes`, `IndexToString` and
`TotalCount` return for all numbers, whatever numbers the index contains. -/
theorem C62_indexer_partial (h : Counted D g x A S) : (∀ q : Key, (∀ b ∈ q, A b) → ∃ n, Indexer.bytesToIndex D g x q = .ok n) ∧ (∀ n, ∃ o, Indexer.indexToBytes D g x n = .ok o) ∧
    (∀ n, ∃ s, Indexer.indexToString D g x n = .ok s) ∧ ∃ n, Indexer.totalCount x = .ok n := by
  obtain ⟨depth, hd⟩ := h.depth
  have h1 : ∀ n, ∃ o, Indexer.indexToBytes D g x n = .ok o := fun n =>
    selectLoop_any h hd n (D.size + 1) D.root 0 [] [] h.closed.root List.nodup_nil (by simp) (by simp [Dictionary.size])
  refine ⟨fun q hq => bytesLoop_any h q D.root 0 h.closed.root hq, h1, fun n => ?_, ?_⟩
  · obtain ⟨o, ho⟩ := h1 n
    unfold Indexer.indexToString
    rw [ho]
    exact ⟨_, rfl⟩
  · have h2 := h.closed.lt h.closed.root
    have : 0 < x.units.length := by rw [h.count]; omega
    exact ⟨_, rd_lt this⟩

theorem mapM_any {α β : Type} (f : α → Go β) (h : ∀ a, ∃ b, f a = .ok b) : ∀ l : List α, ∃ bs, l.mapM f = .ok bs ∧ bs.length = l.length
  | [] => ⟨[], rfl, rfl⟩
  | a :: l => by
    obtain ⟨b, hb⟩ := h a
    obtain ⟨bs, hbs, hl⟩ := mapM_any f h l
    exact ⟨b :: bs, by rw [List.mapM_cons, hb]; simp only [ok_bind]; rw [hbs]; rfl, by simp [hl]⟩

theorem answers_each {o : Opts} {l : Loaded} {fuel : Nat} {P : Answer → Prop} : ∀ (qs : List Key) (c : Completers), (∀ q ∈ qs, ∀ c, ∃ a c', answer o l fuel c q = .ok (a, c') ∧ a.query = q ∧ P a) →
    ∃ as, answers o l fuel c qs = .ok as ∧ as.map (·.query) = qs ∧ ∀ a ∈ as, P a
  | [], c, _ => ⟨[], rfl, rfl, by simp⟩
  | q :: qs, c, h => by
    obtain ⟨a, c', h1, h2, h3⟩ := h q List.mem_cons_self c
    obtain ⟨as, h4, h5, h6⟩ := answers_each qs c' (fun q hq => h q (List.mem_cons_of_mem _ hq))
    refine ⟨a :: as, ?_, by simp [h2, h5], ?_⟩
    · rw [answers, h1]
      simp only [ok_bind]
      rw [h4]
      rfl
    · intro b hb
      rcases List.mem_cons.1 hb with rfl | hb
      · exact h3
      · exact h6 b hb

theorem totals_any {o : Opts} (ho : o.index = true) (h : Counted D g x A S) : ∃ ks, totals o ⟨D, some g, some x⟩ = .ok (some ks) ∧ Indexer.totalCount x = .ok ks.length := by
  obtain ⟨_, _, h3, n, h4⟩ := C62_indexer_partial h
  obtain ⟨ks, h5, h6⟩ := mapM_any (fun i => Indexer.indexToString D g x (u32 i)) (fun i => h3 (u32 i)) (List.range n)
  refine ⟨ks, ?_, by rw [h4, h6, List.length_range]⟩
  unfold totals
  rw [if_pos ho]
  simp only
  rw [h4]
  simp only [ok_bind]
  rw [h5]
  rfl

/-- **C62**, what is true of dawgtool with a guide and an index. -/
theorem C62_index_partial {dictionary r1 r2 r3 : List UInt8} (hd : Dictionary.readNew dictionary = (some D, r1)) (hg : Guide.readNew r1 = (some g, r2)) (hx : Index.readNew r2 = (some x, r3))
    (hn : x.units.length = D.units.length) :
    (Orderly D g A S → ∃ N, ∀ lexicon, (∀ q ∈ scanLines lexicon, ∀ b ∈ q, A b) → ∀ fuel, N ≤ fuel →
      ∃ as ks, mainQuery { guide := true, index := true } fuel dictionary lexicon = .ok (as, some ks) ∧ as.map (·.query) = scanLines lexicon ∧ (∀ a ∈ as, a.rank ≠ none) ∧
        Indexer.totalCount x = .ok ks.length) ∧
    (∀ W R, Tame D g A S W R → ∃ N, ∀ lexicon, (∀ q ∈ scanLines lexicon, ∀ b ∈ q, A b) → ∀ fuel, N ≤ fuel →
      ∃ as ks, mainQuery { ranked := true, index := true } fuel dictionary lexicon = .ok (as, some ks) ∧ as.map (·.query) = scanLines lexicon ∧ (∀ a ∈ as, a.rank ≠ none) ∧
        Indexer.totalCount x = .ok ks.length) := by
  constructor
  · intro h
    have hc := h.counted hn
    obtain ⟨h1, _⟩ := C62_indexer_partial hc
    obtain ⟨N, hN⟩ := start_good h
    refine ⟨N, fun lexicon hq fuel hf => ?_⟩
    have hz : g.size ≠ 0 := by
      have := h.closed.lt h.closed.root
      show g.units.length ≠ 0
      rw [h.size]
      omega
    obtain ⟨as, h2, h3, h4⟩ := answers_each (o := { guide := true, index := true }) (l := ⟨D, some g, some x⟩) (fuel := fuel) (P := fun a => a.rank ≠ none) (scanLines lexicon) Completers.new (by
      intro q hm c
      obtain ⟨ok, j, n, hj, h5⟩ := h.closed.followString q h.closed.root (hq q hm)
      obtain ⟨m, h6⟩ := h1 q (hq q hm)
      unfold answer queryRank
      simp only
      rw [h6, h5]
      cases ok with
      | false => exact ⟨_, _, rfl, rfl, by simp⟩
      | true =>
        obtain ⟨xs, c', h7⟩ := hN q j hj [0] (by simp) fuel hf
        show ∃ a c', (Completer.start g c.plain j >>= fun pc => completeLoop D g q fuel pc >>= fun x => _) = Except.ok (a, c') ∧ _
        rw [start_eq, startString_eq hz]
        simp only [ok_bind, List.nil_append]
        rw [h7]
        exact ⟨_, _, rfl, rfl, by simp⟩)
    obtain ⟨ks, h5, h6⟩ := totals_any (o := { guide := true, index := true }) rfl hc
    refine ⟨as, ks, ?_, h3, h4, h6⟩
    unfold mainQuery handleLoad load
    rw [hd]
    simp only [Bool.or_true, if_true]
    rw [hg]
    simp only
    rw [hx]
    show (lift (answers { guide := true, index := true } ⟨D, some g, some x⟩ fuel Completers.new (scanLines lexicon)) >>= fun as => lift (totals { guide := true, index := true } ⟨D, some g, some x⟩) >>= _) = _
    rw [h2, h5]
    rfl
  · intro W R h
    have hc := h.counted hn
    obtain ⟨h1, _⟩ := C62_indexer_partial hc
    refine ⟨4294967296 + 3, fun lexicon hq fuel hf => ?_⟩
    obtain ⟨as, h2, h3, h4⟩ := answers_each (o := { ranked := true, index := true }) (l := ⟨D, some g, some x⟩) (fuel := fuel) (P := fun a => a.rank ≠ none) (scanLines lexicon) Completers.new (by
      intro q hm c
      obtain ⟨ok, j, n, hj, h5⟩ := h.closed.followString q h.closed.root (hq q hm)
      obtain ⟨m, h6⟩ := h1 q (hq q hm)
      unfold answer queryRank
      simp only
      rw [h6, h5]
      cases ok with
      | false => exact ⟨_, _, rfl, rfl, by simp⟩
      | true =>
        obtain ⟨rc0, xs, c', h7, h8⟩ := rankedStart_any h q hj c.ranked fuel (by have := h.bound j hj; omega)
        show ∃ a c', (RankedCompleter.start D g c.ranked j >>= fun pc => rankedLoop D g q fuel pc >>= fun x => _) = Except.ok (a, c') ∧ _
        rw [h7]
        simp only [ok_bind]
        rw [h8]
        exact ⟨_, _, rfl, rfl, by simp⟩)
    obtain ⟨ks, h5, h6⟩ := totals_any (o := { ranked := true, index := true }) rfl hc
    refine ⟨as, ks, ?_, h3, h4, h6⟩
    unfold mainQuery handleLoad load
    rw [hd]
    simp only [Bool.true_or, if_true]
    rw [hg]
    simp only
    rw [hx]
    show (lift (answers { ranked := true, index := true } ⟨D, some g, some x⟩ fuel Completers.new (scanLines lexicon)) >>= fun as => lift (totals { ranked := true, index := true } ⟨D, some g, some x⟩) >>= _) = _
    rw [h2, h5]
    rfl
end

/-- An index with any numbers: dawgtool reads the dictionary and the guide above with an index that counts two keys; it lists two keys, one of them empty (there is only one key). -/
def oddIndex : Index := ⟨(List.range 256).map (fun i => if i = 0 then 2 else 1)⟩

example : (∃ N, ∀ lexicon fuel, N ≤ fuel → ∃ as ks, mainQuery { ranked := true, index := true } fuel (oddDict.write ++ (oddGuide.write ++ oddIndex.write)) lexicon = .ok (as, some ks) ∧
      as.map (·.query) = scanLines lexicon ∧ ks.length = 2) ∧
    totals { index := true } ⟨oddDict, some oddGuide, some oddIndex⟩ = .ok (some [[97], []]) := by
  refine ⟨?_, by decide +kernel⟩
  obtain ⟨N, h⟩ := (C62_index_partial (x := oddIndex) (dictionary := oddDict.write ++ (oddGuide.write ++ oddIndex.write)) (r1 := oddGuide.write ++ oddIndex.write) (r2 := oddIndex.write) (r3 := [])
    (by decide +kernel) (by decide +kernel) (by decide +kernel) (by decide +kernel)).2 _ _ odd_tame
  refine ⟨N, fun lexicon fuel hf => ?_⟩
  obtain ⟨as, ks, h1, h2, _, h3⟩ := h lexicon (fun _ _ _ _ => trivial) fuel hf
  refine ⟨as, ks, h1, h2, ?_⟩
  have : Indexer.totalCount oddIndex = .ok 2 := by decide +kernel
  rw [this] at h3
  exact (Except.ok.inj h3).symm

end Dawg.Props
