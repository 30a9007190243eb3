import Verif.Props.Empty
import Verif.Props.Serialize
import Verif.Props.Tool
/-! # C45: through files -/
namespace Dawg.Props
open Dawg Dawg.Spec Dawg.Client Dawg.Abs Dawg.Dict Dawg.Guided Dawg.Tool
attribute [-simp] List.length_flatten

/-- All units of a finished dictionary fit into 32 bits. -/
theorem Made.units32 {hist d D} (h : Made hist d D) : Units32 D.units := by
  obtain ⟨n, oks, b, num, h1, h2, hadm, h3, h4⟩ := Made.unfold' h
  obtain ⟨c, r, _, _, e3⟩ := dict_built h1 h2 hadm h3 h4
  obtain ⟨B, G, pend, hu, hB1, _, hB2, hcase, _⟩ := e3.inv
  have hroot : ∃ w, D.units[0]? = some w ∧ w < 4294967296 := by
    rcases hcase with ⟨_, _, _, h0⟩ | ⟨_, hp⟩
    · exact ⟨1024, h0, by omega⟩
    · rcases hu.root with ⟨w, hw, _⟩ | ⟨_, o, _, henc, hw⟩
      · rw [hp] at hw; cases hw
      · have := nodeWord_lt 0 (hasEmpty c r) henc
        exact ⟨_, hw, by omega⟩
  refine ⟨by rw [hu.len]; omega, ?_⟩
  intro w hw
  obtain ⟨i, hi⟩ := List.getElem?_of_mem hw
  have hil : i < 256 * B := by rw [← hu.len]; exact (List.getElem?_eq_some_iff.1 hi).1
  by_cases h0 : i = 0
  · subst h0
    obtain ⟨w', hw', hlt⟩ := hroot
    rw [hi] at hw'
    cases hw'
    exact hlt
  · by_cases hk : IsKid c G i
    · obtain ⟨x, q, hk⟩ := hk
      by_cases hq : q.1 = 0
      · obtain ⟨_, h5⟩ := hu.leaf hk hq
        rw [hi] at h5
        cases h5
        unfold leafWord
        omega
      · rcases hu.node hk hq with ⟨w', hw', h5⟩ | ⟨_, o, _, henc, h5⟩
        · exfalso
          rcases hcase with ⟨_, hG, _, _⟩ | ⟨_, hp⟩
          · rw [hG] at hk; exact absurd hk.1 (by simp)
          · rw [hp] at hw'; cases hw'
        · rw [hi] at h5
          cases h5
          have := nodeWord_lt q.1 (hasEmpty c (baseChild q.2)) henc
          omega
    · obtain ⟨un, _, _, _, h5⟩ := hu.dead hil ⟨h0, hk⟩
      rw [hi] at h5
      cases h5
      omega

/-! All units of an index fit into 32 bits. -/

theorem addTo_units {us us' : List Nat} {i n : Nat} (hu : ∀ x ∈ us, x < 4294967296) (h : IndexBuilder.addTo us i n = .ok us') :
    us'.length = us.length ∧ ∀ x ∈ us', x < 4294967296 := by
  unfold IndexBuilder.addTo at h
  obtain ⟨w, h1, h2⟩ := bind_eq_ok.1 h
  obtain ⟨h3, rfl⟩ := wr_eq_ok.1 h2
  refine ⟨by simp, ?_⟩
  intro x hx
  rcases List.mem_or_eq_of_mem_set hx with hx | rfl
  · exact hu x hx
  · unfold u32; omega

theorem index_loop_units {D : Dictionary} {gd : Guide} {rec : List Nat → Nat → Go (List Nat × Bool)} {i : Nat}
    (hrec : ∀ us j us' ok, (∀ x ∈ us, x < 4294967296) → rec us j = .ok (us', ok) → us'.length = us.length ∧ ∀ x ∈ us', x < 4294967296) :
    ∀ (fuel : Nat) {us : List Nat} {l : UInt8} {us' : List Nat} {ok : Bool}, (∀ x ∈ us, x < 4294967296) →
      IndexBuilder.loop D gd rec i fuel us l = .ok (us', ok) → us'.length = us.length ∧ ∀ x ∈ us', x < 4294967296
  | 0, us, l, us', ok, _, h => by cases h
  | fuel + 1, us, l, us', ok, hu, h => by
    rw [IndexBuilder.loop] at h
    split at h
    · cases h
      exact ⟨rfl, hu⟩
    · obtain ⟨x, h1, h2⟩ := bind_eq_ok.1 h
      cases x with
      | none =>
        cases h2
        exact ⟨rfl, hu⟩
      | some j =>
        obtain ⟨n, h3, h4⟩ := bind_eq_ok.1 h2
        have htail : ∀ (us1 : List Nat) (ok1 : Bool), us1.length = us.length → (∀ x ∈ us1, x < 4294967296) →
            (if (!ok1) = true then pure (us1, false) else do
              let us ← IndexBuilder.addTo us1 i (← rd us1 j)
              let s ← gd.sibling j
              IndexBuilder.loop D gd rec i fuel us s) = .ok (us', ok) → us'.length = us.length ∧ ∀ x ∈ us', x < 4294967296 := by
          intro us1 ok1 hl1 hu1 h
          cases ok1 with
          | false => cases h; exact ⟨hl1, hu1⟩
          | true =>
            simp only [Bool.not_true, Bool.false_eq_true, if_false] at h
            obtain ⟨w, k1, h⟩ := bind_eq_ok.1 h
            obtain ⟨us2, k2, h⟩ := bind_eq_ok.1 h
            obtain ⟨s, k3, h⟩ := bind_eq_ok.1 h
            obtain ⟨a1, a2⟩ := addTo_units hu1 k2
            obtain ⟨b1, b2⟩ := index_loop_units hrec fuel a2 h
            exact ⟨by omega, b2⟩
        by_cases hn : n = 0
        · rw [if_pos hn] at h4
          obtain ⟨⟨us1, ok1⟩, h5, h6⟩ := bind_eq_ok.1 h4
          obtain ⟨a1, a2⟩ := hrec _ _ _ _ hu h5
          exact htail us1 ok1 a1 a2 h6
        · rw [if_neg hn] at h4
          exact htail us true rfl hu h4

theorem buildIndices_units {D : Dictionary} {gd : Guide} : ∀ (fuel : Nat) (us : List Nat) (i : Nat) (us' : List Nat) (ok : Bool), (∀ x ∈ us, x < 4294967296) →
    IndexBuilder.buildIndices D gd fuel us i = .ok (us', ok) → us'.length = us.length ∧ ∀ x ∈ us', x < 4294967296
  | 0, _, _, _, _, _, h => by cases h
  | fuel + 1, us, i, us', ok, hu, h => by
    rw [IndexBuilder.buildIndices] at h
    obtain ⟨hv, h1, h2⟩ := bind_eq_ok.1 h
    have htail : ∀ us1 : List Nat, us1.length = us.length → (∀ x ∈ us1, x < 4294967296) →
        (do
          let child ← gd.child i
          IndexBuilder.loop D gd (fun us i => IndexBuilder.buildIndices D gd fuel us i) i 257 us1 child) = .ok (us', ok) →
        us'.length = us.length ∧ ∀ x ∈ us', x < 4294967296 := by
      intro us1 hl1 hu1 h
      obtain ⟨c, k1, h⟩ := bind_eq_ok.1 h
      obtain ⟨b1, b2⟩ := index_loop_units (fun us j us' ok => buildIndices_units fuel us j us' ok) 257 hu1 h
      exact ⟨by omega, b2⟩
    cases hv with
    | false => exact htail us rfl hu h2
    | true =>
      simp only [if_true] at h2
      obtain ⟨us1, k1, h2⟩ := bind_eq_ok.1 h2
      obtain ⟨a1, a2⟩ := addTo_units hu k1
      exact htail us1 a1 a2 h2

theorem index_units32 {D : Dictionary} {gd : Guide} {idx : Index} (hD : D.units.length < 4294967296) (h : buildIndex D gd = .ok (some idx)) : Units32 idx.units := by
  unfold buildIndex IndexBuilder.build at h
  obtain ⟨⟨us, ok⟩, h1, h2⟩ := bind_eq_ok.1 h
  obtain ⟨a1, a2⟩ := buildIndices_units _ _ _ _ _ (by
    intro x hx
    have := List.eq_of_mem_replicate hx
    omega) h1
  cases ok with
  | false => simp [pure_eq_ok] at h2
  | true =>
    simp only [if_true, pure_eq_ok, Except.ok.injEq, Option.some.injEq] at h2
    subst h2
    refine ⟨?_, a2⟩
    show us.length < _
    rw [a1, List.length_replicate]
    exact hD

/-- **C45**, the round trip.  Dictionary, guide and index, written one after another to a stream and read back in another process, are the objects that were
written; so all later calls, whatever the queries, return the same. -/
theorem C45_roundtrip {hist d D gd idx} (h : Made hist d D) (hg : buildGuide d D = .ok (some gd)) (hi : buildIndex D gd = .ok (some idx)) (rest : List UInt8) :
    ∃ r1 r2, Dictionary.readNew (D.write ++ gd.write ++ idx.write ++ rest) = (some D, r1) ∧ Guide.readNew r1 = (some gd, r2) ∧
      Index.readNew r2 = (some idx, rest) := by
  have hD := Made.units32 h
  obtain ⟨gd', h1, h2, _⟩ := C26_guide h
  rw [hg] at h1
  cases h1
  refine C19_stream_roundtrip D gd idx hD ?_ (index_units32 hD.1 hi) rest
  have : gd.units.length = gd.size := rfl
  have hs : D.size = D.units.length := rfl
  have := hD.1
  rw [‹gd.units.length = gd.size›, h2]
  split <;> omega

/-- The same for a dictionary followed by a ranked guide, for every comparator. -/
theorem C45_ranked_roundtrip {hist d D gd} {sorter : Sorter} {cmp : Int → Int → Bool} (h : Made hist d D) (hp : ∀ less l, (sorter less l).Perm l)
    (hg : buildRankedGuideCmp sorter d D cmp = .ok (some gd)) (rest : List UInt8) :
    ∃ r1, Dictionary.readNew (D.write ++ gd.write ++ rest) = (some D, r1) ∧ Guide.readNew r1 = (some gd, rest) := by
  have hD := Made.units32 h
  obtain ⟨gd', h1, h2⟩ := C27_ranked_guide h hp cmp
  rw [hg] at h1
  cases h1
  have hlen : gd.units.length < 4294967296 := by
    have : gd.units.length = gd.size := rfl
    have hs : D.size = D.units.length := rfl
    have := hD.1
    rw [‹gd.units.length = gd.size›, h2]
    split <;> omega
  refine ⟨gd.write ++ rest, ?_, (C19_guide_roundtrip gd gd hlen rest).2⟩
  rw [List.append_assoc]
  exact (C19_dictionary_roundtrip D D hD _).2

/-- **C45**, the answers.  For whatever is read back: every inserted key is found with its value; `StringToIndex` and `IndexToString` are its rank in byte order and
back; the keys with a given prefix are listed in byte order.  Missing: that queries which are not keys miss, if a byte of the query is the low byte of a
stored value (false, see C11 and C31); completions of the empty prefix if the empty key is present (false, see C22). -/
theorem C45_answers_partial {hist d D gd idx} (h : Made hist d D) (hg : buildGuide d D = .ok (some gd)) (hi : buildIndex D gd = .ok (some idx))
    {rest r1 r2 r3 : List UInt8} {D' : Dictionary} {gd' : Guide} {idx' : Index}
    (h1 : Dictionary.readNew (D.write ++ gd.write ++ idx.write ++ rest) = (some D', r1)) (h2 : Guide.readNew r1 = (some gd', r2))
    (h3 : Index.readNew r2 = (some idx', r3)) :
    (∀ e ∈ accepted hist, D'.findString e.1 = .ok (stored e.2)) ∧
    (∀ q, NoClash hist q → (∀ e ∈ accepted hist, e.1 ≠ q) → D'.findString q = .ok (-1) ∧ Indexer.bytesToIndex D' gd' idx' q = .ok Indexer.notFound) ∧
    (∀ e ∈ accepted hist, Indexer.bytesToIndex D' gd' idx' e.1 = .ok ((accepted hist).countP (fun f => decide (f.1 < e.1)))) ∧
    (∀ i, Indexer.indexToBytes D' gd' idx' i = .ok ((accepted hist)[i]?.map (fun e => e.1))) ∧
    (∀ p, (∃ e ∈ accepted hist, p <+: e.1) → ¬ (p = [] ∧ ∃ e ∈ accepted hist, e.1 = []) → ∃ u c0, D'.followString p D'.root = .ok (true, u, p.length) ∧
      Completer.startString gd' Completer.new u p = .ok c0 ∧ ∀ m, (residual (words (accepted hist)) p).length < m →
        ∃ c', listing D' gd' m c0 = .ok ((residual (words (accepted hist)) p).map (fun e => (p ++ e.1 ++ [0], ((p.length + e.1.length : Nat) : Int), e.2)), c')) := by
  obtain ⟨s1, s2, k1, k2, k3⟩ := C45_roundtrip h hg hi rest
  rw [h1] at k1
  cases k1
  rw [h2] at k2
  cases k2
  rw [h3] at k3
  cases k3
  refine ⟨fun e he => (C10_inserted_found h e he).2.1, ?_, ?_, (C32_select h hg hi).1, ?_⟩
  · intro q hc hq
    exact ⟨(C11_nothing_else_partial h hc hq).2.1, (C31_rank_partial h hg hi q).2 hc hq⟩
  · intro e he
    exact (C31_rank_partial h hg hi e.1).1 ⟨e, he, rfl⟩
  · intro p hp hx
    obtain ⟨u, hu, _⟩ := follow_prefix h hp
    obtain ⟨c0, h4, h5⟩ := C22_completions_partial h hg hp hu hx Completer.new p
    refine ⟨u, c0, hu, h4, ?_⟩
    intro m hm
    obtain ⟨c', h6, _⟩ := h5 m hm
    exact ⟨c', h6⟩

example : ∃ d D gd idx D' gd' idx' r1 r2, Made keysG d D ∧ buildGuide d D = .ok (some gd) ∧ buildIndex D gd = .ok (some idx) ∧
    Dictionary.readNew (D.write ++ gd.write ++ idx.write ++ [7, 7]) = (some D', r1) ∧ Guide.readNew r1 = (some gd', r2) ∧
    Index.readNew r2 = (some idx', [7, 7]) ∧ D'.findString [97, 98] = .ok 3 ∧ Indexer.bytesToIndex D' gd' idx' [98] = .ok 2 := by
  obtain ⟨d, D, h⟩ := madeG
  obtain ⟨gd, h1, _⟩ := C26_guide h
  obtain ⟨idx, h2, _⟩ := C30_counts_partial h (by decide) h1
  obtain ⟨r1, r2, h3, h4, h5⟩ := C45_roundtrip h h1 h2 [7, 7]
  obtain ⟨a1, _, a2, _⟩ := C45_answers_partial h h1 h2 h3 h4 h5
  exact ⟨d, D, gd, idx, D, gd, idx, r1, r2, h, h1, h2, h3, h4, h5, a1 ([97, 98], 3) (by decide), a2 ([98], 7) (by decide)⟩

/-! ## dawgtool -/

/-- `buildFile` once the dictionary and both guides are known. -/
theorem buildFile_eq {linkSorter : Sorter} {d : Dawg} {D : Dictionary} {num : Nat} {g1 g2 : Guide} (o : Opts)
    (h : d.buildWithUnused = .ok (some (D, num))) (r1 : buildRankedGuide linkSorter d D = .ok (some g1)) (p1 : buildGuide d D = .ok (some g2)) :
    buildFile linkSorter o d =
      (let fin := fun g : Guide => (if o.index = true then (do
        match ← lift (buildIndex D g) with
        | none => .error .fatal
        | some x => return D.write ++ g.write ++ x.write) else (return D.write ++ g.write : Except Stop (List UInt8)))
       if o.ranked = true then fin g1 else if o.guide = true then fin g2 else .ok D.write) := by
  unfold buildFile
  rw [h]
  change (if o.ranked = true then _ else _) = _
  by_cases hr : o.ranked = true
  · rw [if_pos hr]
    simp only [hr, if_true]
    rw [r1]
    rfl
  · rw [if_neg hr]
    simp only [hr]
    by_cases hgd : o.guide = true
    · rw [if_pos hgd, p1]
      simp only [hgd, if_true]
      rfl
    · rw [if_neg hgd]
      simp only [hgd]
      rfl

/-- What dawgtool writes is what dawgtool loads: with any options, the loaded dictionary, guide and index are those computed from the Dawg. -/
theorem C45_tool_roundtrip {hist d D} {linkSorter : Sorter} (h : Made hist d D) (hs : StableSort linkSorter) (o : Opts) {file : List UInt8}
    (hf : buildFile linkSorter o d = .ok file) :
    ∃ l, load o file = .ok l ∧ l.dict = D ∧
      (o.ranked = true → ∃ g, l.guide = some g ∧ buildRankedGuide linkSorter d D = .ok (some g)) ∧
      (o.ranked = false → o.guide = true → ∃ g, l.guide = some g ∧ buildGuide d D = .ok (some g)) ∧
      (o.ranked = false → o.guide = false → l.guide = none ∧ l.index = none) ∧
      (∀ g, l.guide = some g → o.index = true → ∃ x, l.index = some x ∧ buildIndex D g = .ok (some x)) ∧
      (o.index = false → l.index = none) := by
  obtain ⟨n, oks, b, num, h1, h2, hadm, h3, h4⟩ := Made.unfold' h
  have hD := Made.units32 h
  have hDs : D.size = D.units.length := rfl
  obtain ⟨g1, r1, r2⟩ := C27_ranked_guide h hs.perm (fun lhs rhs => decide (lhs < rhs))
  have r1 : buildRankedGuide linkSorter d D = .ok (some g1) := r1
  obtain ⟨g2, p1, p2, _⟩ := C26_guide h
  rw [buildFile_eq o h4 r1 p1] at hf
  simp only at hf
  have hsz : ∀ g : Guide, g.size = (if accepted hist = [] then 0 else D.size) → g.units.length < 4294967296 := by
    intro g hg
    have : g.units.length = g.size := rfl
    rw [this, hg]
    have := hD.1
    split <;> omega
  have main : ∀ g : Guide, g.units.length < 4294967296 → (o.ranked || o.guide) = true →
      (if o.index = true then (do
        match ← lift (buildIndex D g) with
        | none => .error .fatal
        | some x => return D.write ++ g.write ++ x.write) else (return D.write ++ g.write : Except Stop (List UInt8))) = .ok file →
      ∃ l, load o file = .ok l ∧ l.dict = D ∧ l.guide = some g ∧ (o.index = true → ∃ x, l.index = some x ∧ buildIndex D g = .ok (some x)) ∧
        (o.index = false → l.index = none) := by
    intro g hg ho hf
    by_cases hi : o.index = true
    · rw [if_pos hi] at hf
      cases hx : buildIndex D g with
      | error e => rw [hx] at hf; cases hf
      | ok x =>
        rw [hx] at hf
        cases x with
        | none => cases hf
        | some x =>
          change Except.ok (D.write ++ g.write ++ x.write) = .ok file at hf
          cases hf
          obtain ⟨s1, s2, k1, k2, k3⟩ := C19_stream_roundtrip D g x hD hg (index_units32 hD.1 hx) []
          rw [List.append_nil] at k1
          refine ⟨⟨D, some g, some x⟩, ?_, rfl, rfl, fun _ => ⟨x, rfl, rfl⟩, fun hc => by rw [hi] at hc; cases hc⟩
          unfold load
          rw [k1]
          simp only [ho, if_true, k2, hi, k3]
          rfl
    · rw [if_neg hi] at hf
      change Except.ok (D.write ++ g.write) = .ok file at hf
      cases hf
      have k1 := (C19_dictionary_roundtrip D D hD g.write).2
      have k2 := (C19_guide_roundtrip g g hg []).2
      rw [List.append_nil] at k2
      refine ⟨⟨D, some g, none⟩, ?_, rfl, rfl, fun hc => absurd hc hi, fun _ => rfl⟩
      unfold load
      rw [k1]
      simp only [ho, if_true, k2, hi]
      rfl
  by_cases hr : o.ranked = true
  · rw [if_pos hr] at hf
    obtain ⟨l, e1, e2, e3, e4, e5⟩ := main g1 (hsz g1 r2) (by simp [hr]) hf
    refine ⟨l, e1, e2, fun _ => ⟨g1, e3, r1⟩, fun hc => absurd (hr.symm.trans hc) (by decide), fun hc => absurd (hr.symm.trans hc) (by decide), ?_, e5⟩
    intro g hg
    rw [e3] at hg
    cases hg
    exact e4
  · have hr' : o.ranked = false := by simpa using hr
    rw [if_neg hr] at hf
    by_cases hgd : o.guide = true
    · rw [if_pos hgd] at hf
      obtain ⟨l, e1, e2, e3, e4, e5⟩ := main g2 (hsz g2 p2) (by simp [hgd]) hf
      refine ⟨l, e1, e2, fun hc => absurd hc hr, fun _ _ => ⟨g2, e3, p1⟩, fun _ hc => absurd (hgd.symm.trans hc) (by decide), ?_, e5⟩
      intro g hg
      rw [e3] at hg
      cases hg
      exact e4
    · have hgd' : o.guide = false := by simpa using hgd
      rw [if_neg hgd] at hf
      change Except.ok D.write = .ok file at hf
      cases hf
      have k1 := (C19_dictionary_roundtrip D D hD []).2
      rw [List.append_nil] at k1
      refine ⟨⟨D, none, none⟩, ?_, rfl, fun hc => absurd hc hr, fun _ hc => absurd hc hgd, fun _ _ => ⟨rfl, rfl⟩, fun g hg => (by cases hg), fun _ => rfl⟩
      unfold load
      rw [k1]
      simp only [hr', hgd', Bool.or_self, Bool.false_eq_true, if_false]
      rfl

/-- dawgtool writes a file for every lexicon with a key, without `-i` or with `-g -i`. -/
theorem C45_tool_writes {hist d D} {linkSorter : Sorter} (h : Made hist d D) (hs : StableSort linkSorter) (o : Opts)
    (ho : o.index = true → o.ranked = false ∧ accepted hist ≠ []) : ∃ file, buildFile linkSorter o d = .ok file := by
  obtain ⟨n, oks, b, num, h1, h2, hadm, h3, h4⟩ := Made.unfold' h
  obtain ⟨g1, r1, r2⟩ := C27_ranked_guide h hs.perm (fun lhs rhs => decide (lhs < rhs))
  have r1 : buildRankedGuide linkSorter d D = .ok (some g1) := r1
  obtain ⟨g2, p1, p2, _⟩ := C26_guide h
  rw [buildFile_eq o h4 r1 p1]
  simp only
  by_cases hi : o.index = true
  · obtain ⟨hr, hne⟩ := ho hi
    obtain ⟨idx, q1, _⟩ := C30_counts_partial h hne p1
    simp only [hr, Bool.false_eq_true, if_false]
    by_cases hgd : o.guide = true
    · refine ⟨D.write ++ g2.write ++ idx.write, ?_⟩
      simp only [hgd, hi, if_true]
      rw [q1]
      rfl
    · exact ⟨D.write, by simp only [hgd]; rfl⟩
  · simp only [hi]
    by_cases hr : o.ranked = true
    · exact ⟨D.write ++ g1.write, by simp only [hr, if_true]; rfl⟩
    · by_cases hgd : o.guide = true
      · exact ⟨D.write ++ g2.write, by simp only [hr, hgd, if_true]; rfl⟩
      · exact ⟨D.write, by simp only [hr, hgd]; rfl⟩

example : ∃ d D file l, Made keysG d D ∧ buildFile insertionSort { guide := true, index := true } d = .ok file ∧
    load { guide := true, index := true } file = .ok l ∧ l.dict = D := by
  obtain ⟨d, D, h⟩ := madeG
  obtain ⟨file, h1⟩ := C45_tool_writes h insertionSort_stableSort { guide := true, index := true } (fun _ => ⟨rfl, by decide⟩)
  obtain ⟨l, h2, h3, _⟩ := C45_tool_roundtrip h insertionSort_stableSort _ h1
  exact ⟨d, D, file, l, h, h1, h2, h3⟩

end Dawg.Props
