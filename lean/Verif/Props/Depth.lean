import Verif.Props.RankedList
import Verif.Props.Search
/-! # C104: how deep the recursions go -/
namespace Dawg.Props
open Dawg Dawg.Spec Dawg.Client Dawg.Abs Dawg.Dict Dawg.Guided
attribute [-simp] List.length_flatten

/-! ## The constructions with a limit on nested calls; more of them are the fault `hang` -/

/-- dictionary_builder.go:72-76 with at most `k` nested calls of `buildDictionaryIndices`. -/
def buildRootWithin (k : Nat) (dawg : Dawg) (db : DictBuilder) : Go (DictBuilder × Bool) :=
  if dawg.size > 1 then DictBuilder.buildIndices dawg k db dawg.root 0 else .ok (db, true)

/-- dictionary_builder.go:65-81 `BuildDictionary` with at most `k` nested calls of `buildDictionaryIndices`. -/
def buildDictionaryWithin (k : Nat) (dawg : Dawg) : Go (DictBuilder × Bool) := do
  let db := { DictBuilder.new with linkTable := LinkTable.new (dawg.numOfMergingStates + (dawg.numOfMergingStates >>> 1)) }
  let db ← db.reserveUnit 0
  let db ← db.modExtra 0 ExtraUnit.setIsUsed
  let db ← db.modUnit 0 (fun u => (dictSetOffset u 1).getD u)
  let db ← db.modUnit 0 (fun u => dictSetLabel u 0)
  let (db, ok) ← buildRootWithin k dawg db
  if !ok then return (db, false)
  let db ← db.fixAllBlocks
  return (db, true)

/-- guide_builder.go:28-43 `Build` with at most `k` nested calls of `buildIndices`. -/
def buildGuideWithin (k : Nat) (dawg : Dawg) (dict : Dictionary) : Go (Option Guide) := do
  let gb : GuideBuilder := { units := List.replicate dict.size ⟨0, 0⟩, isFixedTable := List.replicate (dict.size / 8) 0 }
  if dawg.size ≤ 1 then return some Guide.new
  let (gb, ok) ← GuideBuilder.buildIndices dawg dict k gb dawg.root dict.root
  return if ok then some { units := gb.units } else none

/-- ranked_guide_builder.go:32-48 `Build` with at most `k` nested calls of `buildIndices`. -/
def buildRankedWithin (k : Nat) (sorter : Sorter) (dawg : Dawg) (dict : Dictionary) (valuesCmp : Int → Int → Bool) : Go (Option Guide) := do
  let rb : RankedBuilder := { units := List.replicate dict.size ⟨0, 0⟩, isFixedTable := List.replicate (dict.size / 8) 0 }
  if dawg.size ≤ 1 then return some Guide.new
  let (rb, ok) ← RankedBuilder.buildIndices sorter dawg dict valuesCmp k rb dawg.root dict.root
  return if ok.isSome then some { units := rb.units } else none

/-- index_builder.go:25-28 `Build` with at most `k` nested calls of `buildIndices`. -/
def buildIndexWithin (k : Nat) (dict : Dictionary) (guide : Guide) : Go (Option Index) := do
  let (us, ok) ← IndexBuilder.buildIndices dict guide k (List.replicate dict.size 0) guide.root
  return if ok then some { units := us } else none

/-! ## A result that is reached does not depend on the limit -/

theorem foldlM_mono {α β : Type} {F G : α → β → Go α} (h : ∀ a b r, F a b = .ok r → G a b = .ok r) : ∀ (l : List β) {a r : α}, l.foldlM F a = .ok r → l.foldlM G a = .ok r
  | [], a, r, e => e
  | b :: l, a, r, e => by
    rw [List.foldlM_cons, bind_eq_ok] at e
    obtain ⟨a', e1, e2⟩ := e
    rw [List.foldlM_cons, h _ _ _ e1]
    exact foldlM_mono h l e2

theorem dict_mono {d : Dawg} : ∀ {k m : Nat} {db : DictBuilder} {i u : Nat} {r}, k ≤ m → DictBuilder.buildIndices d k db i u = .ok r → DictBuilder.buildIndices d m db i u = .ok r
  | 0, _, _, _, _, _, _, e => by cases e
  | k + 1, m, db, i, u, r, hk, e => by
    obtain ⟨m, rfl⟩ : ∃ n, m = n + 1 := ⟨m - 1, by omega⟩
    rw [DictBuilder.buildIndices, bind_eq_ok] at e
    obtain ⟨b, e1, e⟩ := e
    rw [DictBuilder.buildIndices, e1, ok_bind]
    by_cases hb : b = true
    · rw [if_pos hb] at e ⊢
      exact e
    rw [if_neg hb, bind_eq_ok] at e
    obtain ⟨c, e2, e⟩ := e
    rw [if_neg hb, e2, ok_bind]
    rw [bind_eq_ok] at e
    obtain ⟨t, e3, e⟩ := e
    rw [e3, ok_bind]
    cases t with
    | some t => exact e
    | none =>
      simp only [bind_eq_ok] at e ⊢
      obtain ⟨⟨db1, o⟩, e4, e⟩ := e
      refine ⟨⟨db1, o⟩, e4, ?_⟩
      simp only at e ⊢
      by_cases ho : o = 0
      · rw [if_pos ho] at e ⊢
        exact e
      rw [if_neg ho, bind_eq_ok] at e
      obtain ⟨db2, e5, e⟩ := e
      rw [if_neg ho, e5, ok_bind]
      rw [bind_eq_ok] at e
      obtain ⟨kids, e6, e⟩ := e
      rw [e6, ok_bind]
      refine foldlM_mono ?_ kids e
      rintro ⟨db3, ok⟩ c r h
      cases ok with
      | false => exact h
      | true =>
        simp only [Bool.not_true, Bool.false_eq_true, if_false, bind_eq_ok] at h ⊢
        obtain ⟨l, h1, h2⟩ := h
        exact ⟨l, h1, dict_mono (by omega) h2⟩

theorem kidsLoop_mono {d : Dawg} {D : Dictionary} {f g : GuideBuilder → Nat → Nat → Go (GuideBuilder × Bool)} (h : ∀ a b c r, f a b c = .ok r → g a b c = .ok r) {u : Nat} :
    ∀ {ks : List Nat} {gb : GuideBuilder} {r}, GuideBuilder.kidsLoop d D f u ks gb = .ok r → GuideBuilder.kidsLoop d D g u ks gb = .ok r
  | [], _, _, e => e
  | c :: ks, gb, r, e => by
    rw [GuideBuilder.kidsLoop, bind_eq_ok] at e
    obtain ⟨l, e1, e⟩ := e
    rw [GuideBuilder.kidsLoop, e1, ok_bind]
    rw [bind_eq_ok] at e
    obtain ⟨x, e2, e⟩ := e
    rw [e2, ok_bind]
    cases x with
    | none => exact e
    | some x =>
      simp only [bind_eq_ok] at e ⊢
      obtain ⟨⟨gb1, ok⟩, e3, e⟩ := e
      refine ⟨⟨gb1, ok⟩, h _ _ _ _ e3, ?_⟩
      cases ok with
      | false => exact e
      | true =>
        simp only [Bool.not_true, Bool.false_eq_true, if_false, bind_eq_ok] at e ⊢
        obtain ⟨s, e4, sl, e5, e⟩ := e
        refine ⟨s, e4, sl, e5, ?_⟩
        by_cases hs : s ≠ 0
        · rw [if_pos hs] at e ⊢
          simp only [bind_eq_ok] at e ⊢
          obtain ⟨us, e6, gb2, e7, e⟩ := e
          exact ⟨us, e6, gb2, e7, kidsLoop_mono h e⟩
        · rw [if_neg hs] at e ⊢
          simp only [bind_eq_ok] at e ⊢
          obtain ⟨gb2, e7, e⟩ := e
          exact ⟨gb2, e7, kidsLoop_mono h e⟩

theorem guide_mono {d : Dawg} {D : Dictionary} : ∀ {k m : Nat} {gb : GuideBuilder} {i u : Nat} {r}, k ≤ m → GuideBuilder.buildIndices d D k gb i u = .ok r →
    GuideBuilder.buildIndices d D m gb i u = .ok r
  | 0, _, _, _, _, _, _, e => by cases e
  | k + 1, m, gb, i, u, r, hk, e => by
    obtain ⟨m, rfl⟩ : ∃ n, m = n + 1 := ⟨m - 1, by omega⟩
    rw [GuideBuilder.buildIndices, bind_eq_ok] at e
    obtain ⟨b, e1, e⟩ := e
    rw [GuideBuilder.buildIndices, e1, ok_bind]
    by_cases hb : b = true
    · rw [if_pos hb] at e ⊢
      exact e
    rw [if_neg hb] at e ⊢
    simp only [bind_eq_ok] at e ⊢
    obtain ⟨t, e2, c, e3, l, e4, e⟩ := e
    refine ⟨t, e2, c, e3, l, e4, ?_⟩
    by_cases h0 : l = 0
    · rw [if_pos h0] at e ⊢
      simp only [bind_eq_ok] at e ⊢
      obtain ⟨c', e5, e⟩ := e
      refine ⟨c', e5, ?_⟩
      by_cases hl : l = 0 ∧ c' = 0
      · rw [if_pos hl] at e ⊢
        exact e
      rw [if_neg hl] at e ⊢
      simp only [bind_eq_ok] at e ⊢
      obtain ⟨l', e6, us, e7, kids, e8, e⟩ := e
      exact ⟨l', e6, us, e7, kids, e8, kidsLoop_mono (fun a b c r h => guide_mono (by omega) h) e⟩
    · rw [if_neg h0] at e ⊢
      simp only [bind_eq_ok] at e ⊢
      obtain ⟨c', e5, e⟩ := e
      refine ⟨c', e5, ?_⟩
      rw [if_neg (fun h => h0 h.1)] at e ⊢
      simp only [bind_eq_ok] at e ⊢
      obtain ⟨l', e6, us, e7, kids, e8, e⟩ := e
      exact ⟨l', e6, us, e7, kids, e8, kidsLoop_mono (fun a b c r h => guide_mono (by omega) h) e⟩

theorem links_mono {d : Dawg} {D : Dictionary} {f g : RankedBuilder → Nat → Nat → Go (RankedBuilder × Option Int)} (h : ∀ a b c r, f a b c = .ok r → g a b c = .ok r) {u : Nat} :
    ∀ {ks : List Nat} {rb : RankedBuilder} {r}, RankedBuilder.enumerateLinks d D f u ks rb = .ok r → RankedBuilder.enumerateLinks d D g u ks rb = .ok r
  | [], _, _, e => e
  | c :: ks, rb, r, e => by
    rw [RankedBuilder.enumerateLinks, bind_eq_ok] at e
    obtain ⟨l, e1, e⟩ := e
    rw [RankedBuilder.enumerateLinks, e1, ok_bind]
    have rest : ∀ (x : RankedBuilder × Option Int), (match x with
        | (rb, v) => match v with
          | none => (.ok (rb, none) : Go (RankedBuilder × Option (List Link)))
          | some v => do
            let (rb, ks') ← RankedBuilder.enumerateLinks d D f u ks rb
            .ok (rb, ks'.map ({ label := l, value := v } :: ·))) = .ok r → (match x with
        | (rb, v) => match v with
          | none => (.ok (rb, none) : Go (RankedBuilder × Option (List Link)))
          | some v => do
            let (rb, ks') ← RankedBuilder.enumerateLinks d D g u ks rb
            .ok (rb, ks'.map ({ label := l, value := v } :: ·))) = .ok r := by
      rintro ⟨rb1, v⟩ e
      cases v with
      | none => exact e
      | some v =>
        simp only [bind_eq_ok] at e ⊢
        obtain ⟨⟨rb2, ks'⟩, e3, e⟩ := e
        exact ⟨⟨rb2, ks'⟩, links_mono h e3, e⟩
    by_cases hl : l = 0
    · rw [if_pos hl] at e ⊢
      simp only [bind_eq_ok] at e ⊢
      obtain ⟨b, e2, e⟩ := e
      refine ⟨b, e2, ?_⟩
      by_cases hb : (!b) = true
      · rw [if_pos hb] at e ⊢
        simp only [bind_eq_ok] at e ⊢
        obtain ⟨x, e3, e⟩ := e
        exact ⟨x, e3, rest x e⟩
      · rw [if_neg hb] at e ⊢
        simp only [bind_eq_ok] at e ⊢
        obtain ⟨v, e4, x, e3, e⟩ := e
        exact ⟨v, e4, x, e3, rest x e⟩
    · rw [if_neg hl] at e ⊢
      simp only [bind_eq_ok] at e ⊢
      obtain ⟨y, e2, e⟩ := e
      refine ⟨y, e2, ?_⟩
      cases y with
      | none =>
        simp only [bind_eq_ok] at e ⊢
        obtain ⟨x, e3, e⟩ := e
        exact ⟨x, e3, rest x e⟩
      | some y =>
        simp only [bind_eq_ok] at e ⊢
        obtain ⟨x, e3, e⟩ := e
        exact ⟨x, h _ _ _ _ e3, rest x e⟩

theorem ranked_mono {sorter : Sorter} {d : Dawg} {D : Dictionary} {cmp : Int → Int → Bool} : ∀ {k m : Nat} {rb : RankedBuilder} {i u : Nat} {r}, k ≤ m →
    RankedBuilder.buildIndices sorter d D cmp k rb i u = .ok r → RankedBuilder.buildIndices sorter d D cmp m rb i u = .ok r
  | 0, _, _, _, _, _, _, e => by cases e
  | k + 1, m, rb, i, u, r, hk, e => by
    obtain ⟨m, rfl⟩ : ∃ n, m = n + 1 := ⟨m - 1, by omega⟩
    rw [RankedBuilder.buildIndices, bind_eq_ok] at e
    obtain ⟨b, e1, e⟩ := e
    rw [RankedBuilder.buildIndices, e1, ok_bind]
    by_cases hb : b = true
    · rw [if_pos hb] at e ⊢
      exact e
    rw [if_neg hb] at e ⊢
    simp only [bind_eq_ok] at e ⊢
    obtain ⟨t, e2, kids, e3, ⟨rb1, links⟩, e4, e⟩ := e
    exact ⟨t, e2, kids, e3, ⟨rb1, links⟩, links_mono (fun a b c r h => ranked_mono (by omega) h) e4, e⟩

theorem loop_mono {D : Dictionary} {g : Guide} {f f' : List Nat → Nat → Go (List Nat × Bool)} (h : ∀ a b r, f a b = .ok r → f' a b = .ok r) {u : Nat} :
    ∀ {n : Nat} {us : List Nat} {c : UInt8} {r}, IndexBuilder.loop D g f u n us c = .ok r → IndexBuilder.loop D g f' u n us c = .ok r
  | 0, _, _, _, e => e
  | n + 1, us, c, r, e => by
    rw [IndexBuilder.loop] at e ⊢
    by_cases hc : c = 0
    · rw [if_pos hc] at e ⊢
      exact e
    rw [if_neg hc, bind_eq_ok] at e
    obtain ⟨x, e1, e⟩ := e
    rw [if_neg hc, e1, ok_bind]
    cases x with
    | none => exact e
    | some x =>
      simp only [bind_eq_ok] at e ⊢
      obtain ⟨y, e2, e⟩ := e
      refine ⟨y, e2, ?_⟩
      by_cases hy : y = 0
      · rw [if_pos hy] at e ⊢
        simp only [bind_eq_ok] at e ⊢
        obtain ⟨⟨us1, ok⟩, e3, e⟩ := e
        refine ⟨⟨us1, ok⟩, h _ _ _ e3, ?_⟩
        cases ok with
        | false => exact e
        | true =>
          simp only [Bool.not_true, Bool.false_eq_true, if_false, bind_eq_ok] at e ⊢
          obtain ⟨z, e4, us2, e5, s, e6, e⟩ := e
          exact ⟨z, e4, us2, e5, s, e6, loop_mono h e⟩
      · rw [if_neg hy] at e ⊢
        simp only [bind_eq_ok] at e ⊢
        obtain ⟨⟨us1, ok⟩, e3, e⟩ := e
        refine ⟨⟨us1, ok⟩, e3, ?_⟩
        cases ok with
        | false => exact e
        | true =>
          simp only [Bool.not_true, Bool.false_eq_true, if_false, bind_eq_ok] at e ⊢
          obtain ⟨z, e4, us2, e5, s, e6, e⟩ := e
          exact ⟨z, e4, us2, e5, s, e6, loop_mono h e⟩

theorem index_mono {D : Dictionary} {g : Guide} : ∀ {k m : Nat} {us : List Nat} {u : Nat} {r}, k ≤ m → IndexBuilder.buildIndices D g k us u = .ok r →
    IndexBuilder.buildIndices D g m us u = .ok r
  | 0, _, _, _, _, _, e => by cases e
  | k + 1, m, us, u, r, hk, e => by
    obtain ⟨m, rfl⟩ : ∃ n, m = n + 1 := ⟨m - 1, by omega⟩
    rw [IndexBuilder.buildIndices] at e ⊢
    simp only [bind_eq_ok] at e ⊢
    obtain ⟨b, e1, e⟩ := e
    refine ⟨b, e1, ?_⟩
    by_cases hb : b = true
    · rw [if_pos hb] at e ⊢
      simp only [bind_eq_ok] at e ⊢
      obtain ⟨us1, e2, c, e3, e⟩ := e
      exact ⟨us1, e2, c, e3, loop_mono (fun a b r h => index_mono (by omega) h) e⟩
    · rw [if_neg hb] at e ⊢
      simp only [bind_eq_ok] at e ⊢
      obtain ⟨us1, e2, c, e3, e⟩ := e
      exact ⟨us1, e2, c, e3, loop_mono (fun a b r h => index_mono (by omega) h) e⟩

/-- Two limits that both suffice give the same. -/
theorem limits_agree {α : Type} {X : Nat → Go α} (hX : ∀ {k m r}, k ≤ m → X k = .ok r → X m = .ok r) {k m : Nat} {a b : α} (h1 : X k = .ok a) (h2 : X m = .ok b) : X k = X m := by
  have e1 := hX (Nat.le_max_left k m) h1
  have e2 := hX (Nat.le_max_right k m) h2
  rw [e1] at e2
  cases e2
  rw [h1, h2]

/-! ## The theorems -/

theorem buildDictionaryWithin_eq {d : Dawg} {c r acc} (hd : DawgIs d c r) (hf : FinalCore c r acc) (hv : ∀ e ∈ acc, e.2 < 2147483648) {k : Nat}
    (hk : ∀ e ∈ acc, e.1.length + 2 ≤ k) : buildDictionaryWithin k d = DictBuilder.buildDictionary d := by
  have hne := hf.cinv.ne
  obtain ⟨N, hN⟩ := hf.nodes
  have hmk : c.marked.length ≤ 1073741824 := by
    have h1 := List.Nodup.length_le_of_subset hN.markedNodup (l₂ := List.range (poolLen c.groups)) (by
      intro s hs
      rw [List.mem_range]
      exact starts_lt hne (hN.markedSub s hs))
    rw [List.length_range] at h1
    have := hf.small
    omega
  have hhalf : c.marked.length >>> 1 = c.marked.length / 2 := by rw [Nat.shiftRight_eq_div_pow]
  obtain ⟨db0, ex0, e1, e2, e3⟩ := init_spec c r (LinkTable.new (d.numOfMergingStates + (d.numOfMergingStates >>> 1)))
  have ht0 : TInv c db0.linkTable [] := by
    rw [e3, hd.merging, hhalf]
    refine ⟨fun _ => 0, [], LinkInv.new (by omega), by simp, by simp, ?_⟩
    simp [LinkTable.new]
  simp only [] at e1
  have hsplit : ∀ {α} (k : DictBuilder → Go α), (do
      let db ← ({ DictBuilder.new with linkTable := LinkTable.new (d.numOfMergingStates + (d.numOfMergingStates >>> 1)) } : DictBuilder).reserveUnit 0
      let db ← db.modExtra 0 ExtraUnit.setIsUsed
      let db ← db.modUnit 0 (fun u => (dictSetOffset u 1).getD u)
      let db ← db.modUnit 0 (fun u => dictSetLabel u 0)
      k db) = k db0 := by
    intro α k
    have := congrArg (· >>= k) e1
    simpa only [bind_assoc, ok_bind] using this
  have hroot : buildRootWithin k d db0 = DictBuilder.buildRoot d db0 := by
    unfold DictBuilder.buildRoot buildRootWithin
    by_cases hsz : d.size > 1
    · rw [if_pos hsz, if_pos hsz]
      rcases hf.den with ⟨ha, hr0, hg⟩ | ⟨g, hs, hden⟩
      · rw [hd.size_eq, hg] at hsz
        simp at hsz
      · have hdep := depth_bound hf.cinv hs.mem hden
        have hfl := groups_le_flatten hne
        obtain ⟨_, _, _, ⟨a1, _⟩, _⟩ := callSpec hd hf k e2 ht0 (.inl ⟨rfl, rfl, rfl⟩) (w := 1024) rfl (.inr ⟨rfl, rfl⟩)
          hd.isLeaf_root (hd.child_root hf) hs hden hk hv
        obtain ⟨_, _, _, ⟨b1, _⟩, _⟩ := callSpec hd hf (d.size + 1) e2 ht0 (.inl ⟨rfl, rfl, rfl⟩) (w := 1024) rfl (.inr ⟨rfl, rfl⟩)
          hd.isLeaf_root (hd.child_root hf) hs hden (by intro e he; have := hdep e he; rw [hd.size_eq]; omega) hv
        exact limits_agree (X := fun k => DictBuilder.buildIndices d k db0 0 0) (fun h1 h2 => dict_mono h1 h2) a1 b1
    · rw [if_neg hsz, if_neg hsz]
  unfold buildDictionaryWithin DictBuilder.buildDictionary
  refine (hsplit _).trans (Eq.trans ?_ (hsplit _).symm)
  rw [hroot]

/-- **C104** for dictionaries: with at most as many nested calls as the longest key has bytes, and two more, the construction gives what it gives without a limit. -/
theorem C104_dictionary (size : Nat) (h1 : 1 ≤ size) (h2 : size < 4294967296) (hist : List (Key × Int)) (hadm : Admissible hist) {oks b d}
    (hb : Client.build size hist = .ok (oks, b, d)) {k : Nat} (hk : ∀ e ∈ accepted hist, e.1.length + 2 ≤ k) :
    buildDictionaryWithin k d = DictBuilder.buildDictionary d ∧ ∃ r, DictBuilder.buildDictionary d = .ok r := by
  obtain ⟨d', e1, e2, e3⟩ := build_spec size h1 h2 hist hadm
  rw [hb] at e1
  simp only [Except.ok.injEq, Prod.mk.injEq] at e1
  obtain ⟨_, _, rfl⟩ := e1
  have hv : ∀ e ∈ (accepted hist).map wordE, e.2 < 2147483648 := by
    intro e he
    obtain ⟨x, _, rfl⟩ := List.mem_map.1 he
    exact stored_lt _
  refine ⟨buildDictionaryWithin_eq e2 e3 hv ?_, ?_⟩
  · intro e he
    obtain ⟨x, hx, rfl⟩ := List.mem_map.1 he
    exact hk x hx
  · rcases buildDictionary_spec e2 e3 hv with ⟨db, a, _⟩ | ⟨db, a, _⟩
    · exact ⟨_, a⟩
    · exact ⟨_, a⟩

theorem words_short {hist : List (Key × Int)} {k : Nat} (hk : ∀ e ∈ accepted hist, e.1.length < k) : ∀ e ∈ words (accepted hist), e.1.length < k := by
  intro e he
  obtain ⟨x, hx, rfl⟩ := List.mem_map.1 he
  exact hk x hx

/-- **C104** for guides: as many nested calls as the longest key has bytes, and one more. -/
theorem C104_guide {hist d D} (h : Made hist d D) {k : Nat} (hk : ∀ e ∈ accepted hist, e.1.length < k) : buildGuideWithin k d D = buildGuide d D := by
  unfold buildGuideWithin buildGuide GuideBuilder.build
  simp only
  by_cases hsz : d.size ≤ 1
  · rw [if_pos hsz, if_pos hsz]
  rw [if_neg hsz, if_neg hsz]
  have hne : accepted hist ≠ [] := fun he => hsz (by rw [Made.empty_size h he]; omega)
  obtain ⟨At, kid, DAt, V, h0, W, hd0⟩ := Made.view h hne
  have hdep := W.depth hd0
  obtain ⟨us, t, e1, _⟩ := guide_call V W k (Walk.start (ord := heads) V) h0 hd0 (by simp) (words_short hk)
  obtain ⟨us', t', e2, _⟩ := guide_call V W (d.size + 1) (Walk.start (ord := heads) V) h0 hd0 (by simp) (fun e he => by have := hdep e he; omega)
  rw [limits_agree (X := fun k => GuideBuilder.buildIndices d D k _ d.root D.root) (fun h1 h2 => guide_mono h1 h2) e1 e2]

/-- **C104** for ranked guides, with every comparator and every sorting routine that permutes. -/
theorem C104_ranked {hist d D} {sorter : Sorter} {cmp : Int → Int → Bool} (h : Made hist d D) (hp : ∀ less l, (sorter less l).Perm l) {k : Nat}
    (hk : ∀ e ∈ accepted hist, e.1.length < k) : buildRankedWithin k sorter d D cmp = buildRankedGuideCmp sorter d D cmp := by
  unfold buildRankedWithin buildRankedGuideCmp RankedBuilder.build
  simp only
  by_cases hsz : d.size ≤ 1
  · rw [if_pos hsz, if_pos hsz]
  rw [if_neg hsz, if_neg hsz]
  have hne : accepted hist ≠ [] := fun he => hsz (by rw [Made.empty_size h he]; omega)
  obtain ⟨At, kid, DAt, V, h0, W, hd0⟩ := Made.view h hne
  have hdep := W.depth hd0
  obtain ⟨us, t, e1, _⟩ := ranked_call (cmp := cmp) hp V W k (Walk.start (ord := rord D sorter cmp) V) h0 hd0 (by simp) (words_short hk)
  obtain ⟨us', t', e2, _⟩ := ranked_call (cmp := cmp) hp V W (d.size + 1) (Walk.start (ord := rord D sorter cmp) V) h0 hd0 (by simp) (fun e he => by have := hdep e he; omega)
  rw [limits_agree (X := fun k => RankedBuilder.buildIndices sorter d D cmp k _ d.root D.root) (fun h1 h2 => ranked_mono h1 h2) e1 e2]

theorem cut_within {D : Dictionary} {At kid clean gd} {ord : Lang → List UInt8} {acc : Lang} (V : View D At kid clean) (h0 : At 0 acc) (hg : GuideIs D (Reach kid acc) kid ord gd)
    (ho : OrdPerm (Reach kid acc) ord) {k : Nat} (hk : ∀ e ∈ acc, e.1.length < k) : buildIndexWithin k D gd = buildIndex D gd := by
  have V' := V.reach h0
  have hstart : CutCnt D (Reach kid acc) kid ord (List.replicate D.size 0) [] := by
    refine ⟨by simp, ?_⟩
    intro u L h _
    left
    rw [List.getElem?_replicate, if_pos (V'.lt h)]
  have hpos : 0 < D.size := V'.lt Reach.root
  obtain ⟨us, e1, _⟩ := cut_call V' hg ho k hstart Reach.root (by rw [List.getElem?_replicate, if_pos hpos]) (by simp) hk
  obtain ⟨us', e2, _⟩ := cut_call V' hg ho (D.size + 1) hstart Reach.root (by rw [List.getElem?_replicate, if_pos hpos]) (by simp)
    (fun e he => by have := V'.depth Reach.root e he; omega)
  unfold buildIndexWithin buildIndex IndexBuilder.build
  rw [show gd.root = 0 from rfl, limits_agree (X := fun k => IndexBuilder.buildIndices D gd k _ 0) (fun h1 h2 => index_mono h1 h2) e1 e2]

theorem index_within {D : Dictionary} {At kid clean gd} {ord : Lang → List UInt8} {acc : Lang} (V : View D At kid clean) (h0 : At 0 acc) (hg : GuideIs D (Reach kid acc) kid ord gd)
    (hcut : CutOk (Reach kid acc) ord) {k : Nat} (hk : ∀ e ∈ acc, e.1.length < k) : buildIndexWithin k D gd = buildIndex D gd := by
  have V' := V.reach h0
  have hstart : Cnt D (Reach kid acc) kid (List.replicate D.size 0) [] := by
    refine ⟨by simp, ?_⟩
    intro u L h _
    left
    rw [List.getElem?_replicate, if_pos (V'.lt h)]
  have hpos : 0 < D.size := V'.lt Reach.root
  obtain ⟨us, e1, _⟩ := index_call V' hg hcut k hstart Reach.root (by rw [List.getElem?_replicate, if_pos hpos]) (by simp) hk
  obtain ⟨us', e2, _⟩ := index_call V' hg hcut (D.size + 1) hstart Reach.root (by rw [List.getElem?_replicate, if_pos hpos]) (by simp)
    (fun e he => by have := V'.depth Reach.root e he; omega)
  unfold buildIndexWithin buildIndex IndexBuilder.build
  rw [show gd.root = 0 from rfl, limits_agree (X := fun k => IndexBuilder.buildIndices D gd k _ 0) (fun h1 h2 => index_mono h1 h2) e1 e2]

/-- **C104** for indices over guides of both kinds. -/
theorem C104_index {hist d D} (h : Made hist d D) (hne : accepted hist ≠ []) {k : Nat} (hk : ∀ e ∈ accepted hist, e.1.length < k) :
    (∀ g, buildGuide d D = .ok (some g) → buildIndexWithin k D g = buildIndex D g) ∧
    ∀ (sorter : Sorter) (cmp : Int → Int → Bool) g, (∀ less l, (sorter less l).Perm l) → buildRankedGuideCmp sorter d D cmp = .ok (some g) →
      buildIndexWithin k D g = buildIndex D g := by
  obtain ⟨At, kid, DAt, V, h0, WW, hd0⟩ := Made.view h hne
  have V' := V.reach h0
  constructor
  · intro g hg
    obtain ⟨g', f1, f2⟩ := buildGuide_spec V WW h0 hd0
    rw [hg] at f1
    cases f1
    exact index_within V h0 f2 cutOk_heads (words_short hk)
  · intro sorter cmp g hp hg
    obtain ⟨g', f1, f2⟩ := buildRanked_spec (cmp := cmp) hp V WW h0 hd0
    rw [hg] at f1
    cases f1
    exact cut_within V h0 f2 (fun h => rord_perm (cmp := cmp) hp V' h) (words_short hk)

theorem single_hang {D : Dictionary} {At kid clean gd} (V : View D At kid clean) (hg : GuideIs D At kid heads gd) : ∀ (k : Nat) {w : Key} {x u : Nat}, At u [(w, x)] → k ≤ w.length →
    IndexBuilder.buildIndices D gd k (List.replicate D.size 0) u = .error .hang
  | 0, _, _, _, _, _ => rfl
  | k + 1, w, x, u, h, hk => by
    obtain ⟨l, w, rfl⟩ : ∃ l w', w = l :: w' := by
      cases w with
      | nil => simp at hk
      | cons l w => exact ⟨l, w, rfl⟩
    have hres : residual [((l :: w : Key), x)] [l] = [(w, x)] := by simp [residual]
    have hmem : l ∈ heads [((l :: w : Key), x)] := mem_heads.2 (by rw [hres]; simp)
    have hhd : (heads [((l :: w : Key), x)]).headD 0 = l := by
      cases hh : heads [((l :: w : Key), x)] with
      | nil => rw [hh] at hmem; simp at hmem
      | cons b bs =>
        have hb : b ∈ heads [((l :: w : Key), x)] := by rw [hh]; simp
        obtain ⟨e, he⟩ := List.exists_mem_of_ne_nil _ (mem_heads.1 hb)
        rw [mem_residual] at he
        simp at he
        simp [he.1]
    have hl0 := V.heads_ne_zero h hmem
    have hstep := V.step h hmem
    rw [hres] at hstep
    rw [IndexBuilder.buildIndices, V.hasValue h]
    simp only [ok_bind, List.any_cons, List.any_nil, Bool.or_false, show ((l :: w : Key) == []) = false from rfl, Bool.false_eq_true, if_false, pure_bind, hg.child h, hhd]
    rw [IndexBuilder.loop, if_neg hl0, V.follow h hmem]
    simp only [ok_bind]
    rw [rd_lt (by simpa using V.lt hstep)]
    simp only [ok_bind, List.getElem_replicate, if_true]
    rw [single_hang V hg k hstep (by simpa using hk)]
    rfl

/-- **C104**, so many calls can be needed: for a lexicon of a single key the index cannot be made with a smaller limit. -/
theorem C104_needed {w : Key} {v : Int} {d D g} (h : Made [(w, v)] d D) (hg : buildGuide d D = .ok (some g)) {k : Nat} (hk : k ≤ w.length) :
    buildIndexWithin k D g = .error .hang := by
  have hacc : accepted [(w, v)] = [(w, v)] := rfl
  have hne : accepted [(w, v)] ≠ [] := by rw [hacc]; simp
  obtain ⟨At, kid, DAt, V, h0, WW, hd0⟩ := Made.view h hne
  obtain ⟨g', f1, f2⟩ := buildGuide_spec V WW h0 hd0
  rw [hg] at f1
  cases f1
  have hr : Reach kid (words (accepted [(w, v)])) 0 (words (accepted [(w, v)])) := Reach.root
  unfold buildIndexWithin
  rw [hacc] at hr f2 h0
  rw [show g.root = 0 from rfl, single_hang (V.reach h0) f2 k hr hk]
  rfl

example : ∃ d D g, Made keysG d D ∧ buildGuide d D = .ok (some g) ∧ buildGuideWithin 3 d D = .ok (some g) ∧ buildIndexWithin 3 D g = buildIndex D g := by
  obtain ⟨d, D, h⟩ := madeG
  obtain ⟨g, h1, _⟩ := C26_guide h
  have hk : ∀ e ∈ accepted keysG, e.1.length < 3 := by decide
  exact ⟨d, D, g, h, h1, by rw [C104_guide h hk, h1], (C104_index h (by decide) hk).1 g h1⟩

/-- The key "abc" alone: four nested calls suffice for the index, three do not. -/
example : ∃ d D g x, Made [([97, 98, 99], 1)] d D ∧ buildGuide d D = .ok (some g) ∧ buildIndexWithin 4 D g = .ok (some x) ∧ buildIndexWithin 3 D g = .error .hang := by
  obtain ⟨d, D, h, _⟩ := C14_small_builds 1 (by omega) (by omega) [([97, 98, 99], 1)] (by decide) (by decide)
  obtain ⟨g, h1, _⟩ := C26_guide h
  obtain ⟨x, h2, _⟩ := C30_counts_partial h (by decide) h1
  exact ⟨d, D, g, x, h, h1, by rw [(C104_index h (by decide) (by decide)).1 g h1, h2], C104_needed h h1 (by decide)⟩

end Dawg.Props
