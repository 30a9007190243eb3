import Verif.Props.Format
import Verif.Props.Output
import Verif.Props.Mixed

/-! # C110: how many words `dawgtool -i` prints

main.go:269-275 prints as many lines as the first unit of the index says (index.go:41-43), and nothing compares this unit with the dictionary.
-/

open Dawg Dawg.Spec Dawg.Client Dawg.Abs Dawg.Dict Dawg.Guided Dawg.Tool

namespace Dawg.Props

/-- **C110**, as one would like to have it: `dawgtool -i` lists no word twice, and only words that are in the dictionary. -/
def C110_statement : Prop :=
  ∀ (o : Opts) (file : List UInt8) (l : Loaded) (ks : List (List UInt8)), load o file = .ok l → totals o l = .ok (some ks) →
    ks.Nodup ∧ ∀ k ∈ ks, l.dict.containsString k = .ok true

/-- The index with another number in its first unit. -/
def claims (idx : Index) (N : Nat) : Index := ⟨idx.units.set 0 N⟩

theorem claims_select {hist d D gd idx} (h : Made hist d D) (hg : buildGuide d D = .ok (some gd)) (hi : buildIndex D gd = .ok (some idx)) (N i : Nat) :
    Indexer.indexToBytes D gd (claims idx N) i = .ok ((accepted hist)[i]?.map (fun e => e.1)) := by
  obtain ⟨At, kid, V, h0, e2, e4⟩ := Made.indexed' h hg hi
  unfold Indexer.indexToBytes
  have := selectLoop_spec (idx := claims idx N) (V.reach h0) e2 (fun {u L} h hu => by
      have h1 := e4.count h
      unfold Index.childCount rd at h1 ⊢
      unfold claims
      simp only [List.getElem?_set]
      rw [if_neg (fun hc => hu hc.symm)]
      exact h1) i (D.size + 1) (cur := 0) (buf := []) Reach.root
    (fun e he => by have := (V.reach h0).depth Reach.root e he; omega) (by omega) (by
      have := accepted_length_lt h.1
      rw [words, List.length_map]; omega)
  rw [show D.root = 0 from rfl, this]
  congr 1
  rw [Nat.sub_zero, words, List.getElem?_map]
  cases (accepted hist)[i]? <;> rfl

/-- With `N` in the first unit, `N` words are listed: the keys first, then empty words. -/
theorem claims_totals {hist d D gd idx} (h : Made hist d D) (hg : buildGuide d D = .ok (some gd)) (hi : buildIndex D gd = .ok (some idx)) {N : Nat} (hN : N < 4294967296)
    {o : Opts} (ho : o.index = true) :
    totals o ⟨D, some gd, some (claims idx N)⟩ = .ok (some (((accepted hist).map (fun e : Key × Int => e.1) ++ List.replicate N []).take N)) := by
  have hlen : idx.units.length = D.size := by
    obtain ⟨At, kid, V, h0, e2, e4⟩ := Made.indexed' h hg hi
    exact e4.size
  have hpos : 0 < idx.units.length := by
    obtain ⟨At, kid, V, h0, e2, e4⟩ := Made.indexed' h hg hi
    have := e4.count Reach.root
    unfold Index.childCount rd at this
    by_cases hc : 0 < idx.units.length
    · exact hc
    · rw [List.getElem?_eq_none (by omega)] at this; cases this
  have ht : Indexer.totalCount (claims idx N) = .ok N := by
    unfold Indexer.totalCount Index.totalCount rd claims
    simp only [List.getElem?_set]
    simp [hpos]
  unfold totals
  simp only [ho, if_true]
  rw [ht]
  simp only [ok_bind]
  rw [mapM_ok (g := fun i => (((accepted hist)[i]?).map (fun e => e.1)).getD [])]
  · show Except.ok (some _) = Except.ok (some _)
    congr 2
    apply List.ext_getElem
    · simp
    · intro i h1 h2
      simp only [List.length_map, List.length_range] at h1
      simp only [List.getElem_map, List.getElem_range, List.getElem_take, List.getElem_append, List.length_map, List.getElem_replicate]
      split
      · rename_i hc; simp [hc]
      · rename_i hc; rw [List.getElem?_eq_none (by omega)]; rfl
  · intro i hi
    rw [List.mem_range] at hi
    have : u32 i = i := Nat.mod_eq_of_lt (by omega)
    rw [this]
    unfold Indexer.indexToString
    rw [claims_select h hg (by assumption) N i]
    rfl

/-- The bytes of an index whose first unit is replaced. -/
theorem claims_write {idx : Index} (hne : idx.units ≠ []) (N : Nat) : ∃ a x b : List UInt8, a.length = 4 ∧ x.length = 4 ∧ idx.write = a ++ x ++ b ∧
    (claims idx N).write = a ++ putU32 N ++ b := by
  obtain ⟨us⟩ := idx
  cases us with
  | nil => exact absurd rfl hne
  | cons u us =>
    refine ⟨putU32 (u32 (us.length + 1)), putU32 u, bytesOfUnits us, rfl, rfl, ?_, ?_⟩
    · show putU32 (u32 (us.length + 1)) ++ bytesOfUnits (u :: us) = _
      rw [List.append_assoc]; rfl
    · show putU32 (u32 ((us.length + 1))) ++ bytesOfUnits (N :: us) = _
      rw [List.append_assoc]; rfl

/-- **C110.** In every file that `dawgtool -b -g -i` writes, four bytes can be changed so that dawgtool loads the file and prints any number `N` of words below `2^32`:
the keys and then as many empty words as it takes. -/
theorem C110_any_number {hist d D} {linkSorter : Sorter} (h : Made hist d D) (hs : StableSort linkSorter) {o : Opts} (hr : o.ranked = false) (hg : o.guide = true) (hi : o.index = true)
    {file : List UInt8} (hf : buildFile linkSorter o d = .ok file) {N : Nat} (hN : N < 4294967296) (fuel : Nat) :
    ∃ (a x y b : List UInt8) (l : Loaded), file = a ++ x ++ b ∧ x.length = 4 ∧ y.length = 4 ∧ load o (a ++ y ++ b) = .ok l ∧
      totals o l = .ok (some (((accepted hist).map (fun e : Key × Int => e.1) ++ List.replicate N []).take N)) ∧
      queryRun o fuel (a ++ y ++ b) [] = ⟨totalsText (some (((accepted hist).map (fun e : Key × Int => e.1) ++ List.replicate N []).take N)), [], .ok ()⟩ := by
  obtain ⟨n, oks, b, num, h1, h2, hadm, h3, h4⟩ := Made.unfold' h
  have hD := Made.units32 h
  obtain ⟨g1, r1, r2⟩ := C27_ranked_guide h hs.perm (fun lhs rhs => decide (lhs < rhs))
  have r1 : buildRankedGuide linkSorter d D = .ok (some g1) := r1
  obtain ⟨g2, p1, p2, _⟩ := C26_guide h
  rw [buildFile_eq o h4 r1 p1] at hf
  simp only [hr, hg, hi, if_true] at hf
  cases hx : buildIndex D g2 with
  | error e => rw [hx] at hf; cases hf
  | ok x =>
    rw [hx] at hf
    cases x with
    | none => cases hf
    | some idx =>
      change Except.ok (D.write ++ g2.write ++ idx.write) = .ok file at hf
      cases hf
      have hx32 := index_units32 hD.1 hx
      have hne : idx.units ≠ [] := by
        intro hc
        obtain ⟨At, kid, V, h0, e2, e4⟩ := Made.indexed' h p1 hx
        have := e4.count Reach.root
        unfold Index.childCount rd at this
        rw [hc] at this
        cases this
      obtain ⟨p, x, q, hp, hx4, hw1, hw2⟩ := claims_write hne N
      have hgl : g2.units.length < 4294967296 := by
        have : g2.units.length = g2.size := rfl
        rw [this, p2]
        have := hD.1
        have hDs : D.size = D.units.length := rfl
        split <;> omega
      have hload : load o (D.write ++ g2.write ++ (claims idx N).write) = .ok ⟨D, some g2, some (claims idx N)⟩ := by
        rw [C102_tool]
        refine ⟨⟨hD, by simp [hg], ?_, by simp [hg, hi], ?_⟩, ?_⟩
        · intro g h; cases h; exact hgl
        · intro x h
          cases h
          refine ⟨by simpa [claims] using hx32.1, ?_⟩
          intro u hu
          rcases List.mem_or_eq_of_mem_set hu with hu | rfl
          · exact hx32.2 u hu
          · exact hN
        · simp [loadedBytes]
      have htot := claims_totals h p1 hx hN (o := o) hi
      refine ⟨D.write ++ g2.write ++ p, x, putU32 N, q, _, ?_, hx4, rfl, ?_, htot, ?_⟩
      · rw [hw1]; simp
      · rw [hw2] at hload; simpa using hload
      · have hm : mainQuery o fuel (D.write ++ g2.write ++ p ++ putU32 N ++ q) [] = .ok ([], some (((accepted hist).map (fun e : Key × Int => e.1) ++ List.replicate N []).take N)) := by
          unfold mainQuery
          refine handleLoad_eq (l := ⟨D, some g2, some (claims idx N)⟩) ?_ rfl htot
          rw [hw2] at hload; simpa using hload
        have := (queryRun_spec o fuel _ []).1 _ _ hm
        rw [this]
        rfl

/-- The statement is false: with another number in the file for the keys "a", "ab" and "b", the empty word is listed again and again. -/
theorem C110_false : ¬ C110_statement := by
  intro hst
  obtain ⟨d, D, h⟩ := madeG
  obtain ⟨n, oks, b, num, h1, h2, hadm, h3, h4⟩ := Made.unfold' h
  obtain ⟨g1, r1, r2⟩ := C27_ranked_guide h (exists_stableSort _).perm (fun lhs rhs => decide (lhs < rhs))
  obtain ⟨g2, p1, p2, _⟩ := C26_guide h
  obtain ⟨idx, hx, _⟩ := C30_counts_partial h (by decide) p1
  have hf := buildFile_eq { guide := true, index := true } h4 r1 p1
  simp only [hx] at hf
  obtain ⟨a, x, y, b, l, _, _, _, hl, ht, _⟩ := C110_any_number h (exists_stableSort _) (o := { guide := true, index := true }) rfl rfl rfl hf (N := 5) (by decide) 0
  exact absurd (hst _ _ _ _ hl ht).1 (by decide)

/-- **C110**, as far as it goes: for every file the number of words is the first unit of the index, so it is below `2^32`; and for files that dawgtool itself wrote with `-g -i`
the list has all the keys, in order and each of them once. -/
theorem C110_partial : (∀ (o : Opts) (file : List UInt8) (l : Loaded) (ks : List (List UInt8)), load o file = .ok l → totals o l = .ok (some ks) →
      ∃ x, l.index = some x ∧ x.units[0]? = some ks.length ∧ ks.length < 4294967296) ∧
    ∀ {hist d D} {linkSorter : Sorter}, Made hist d D → StableSort linkSorter → ∀ {o : Opts} {file : List UInt8}, o.ranked = false → o.guide = true → o.index = true →
      buildFile linkSorter o d = .ok file → ∃ l, load o file = .ok l ∧ totals o l = .ok (some ((accepted hist).map (fun e : Key × Int => e.1))) ∧
        ((accepted hist).map (fun e : Key × Int => e.1)).Nodup ∧ ∀ e ∈ accepted hist, l.dict.containsString e.1 = .ok true := by
  constructor
  · intro o file l ks hl ht
    obtain ⟨⟨_, _, _, _, hx⟩, _⟩ := (C102_tool o file l).1 hl
    unfold totals at ht
    split at ht
    · split at ht
      · rename_i g x hg hxx
        refine ⟨x, hxx, ?_⟩
        cases hn : Indexer.totalCount x with
        | error e => rw [hn] at ht; cases ht
        | ok n =>
          rw [hn] at ht
          simp only [ok_bind] at ht
          have h0 : x.units[0]? = some n := by
            unfold Indexer.totalCount Index.totalCount rd at hn
            cases h0 : x.units[0]? with
            | none => rw [h0] at hn; cases hn
            | some m => rw [h0] at hn; cases hn; rfl
          have hlen : ks.length = n := by
            cases hm : (List.range n).mapM (fun i => Indexer.indexToString l.dict g x (u32 i)) with
            | error e => rw [hm] at ht; cases ht
            | ok ks' =>
              rw [hm] at ht
              cases ht
              have := mapM_length hm
              simpa using this
          rw [hlen]
          exact ⟨h0, (hx x hxx).2 n (List.mem_of_getElem? h0)⟩
      · cases ht
    · cases ht
  · intro hist d D linkSorter h hs o file hr hg hi hf
    obtain ⟨l, e1, e2, _, e3, _, e4, _⟩ := C45_tool_roundtrip h hs o hf
    obtain ⟨g, e5, e6⟩ := e3 hr hg
    obtain ⟨x, e7, e8⟩ := e4 g e5 hi
    refine ⟨l, e1, ?_, by
        rw [List.Nodup, List.pairwise_map]
        exact (accepted_sorted hist).imp (fun {a b} (h : a.1 < b.1) (he : a.1 = b.1) => List.lt_irrefl b.1 (by rw [he] at h; exact h)), fun e he => by rw [e2]; exact (C10_inserted_found h e he).1⟩
    obtain ⟨D', g', x'⟩ := l
    simp only at e2 e5 e7
    subst e2 e5 e7
    have hne := Made.nonempty h e6 e8
    obtain ⟨x'', i1, i2, i3, _⟩ := C30_counts_partial h hne e6
    rw [e8] at i1
    cases i1
    have hcl : claims x (accepted hist).length = x := by
      obtain ⟨us⟩ := x
      unfold claims
      congr 1
      cases us with
      | nil => rfl
      | cons u us =>
        have : Except.ok u = (Except.ok (accepted hist).length : Go Nat) := i3
        cases this
        rfl
    have := claims_totals h e6 e8 (N := (accepted hist).length) (by have := accepted_length_lt h.1; omega) hi
    rw [hcl] at this
    rw [this, List.take_append_of_le_length (by simp), List.take_of_length_le (by simp)]

/-- There is such a file: three keys, and four thousand million words to print. -/
example : ∃ (d : Dawg) (D : Dictionary) (linkSorter : Sorter) (o : Opts) (file : List UInt8), Made keysG d D ∧ StableSort linkSorter ∧ o.ranked = false ∧ o.guide = true ∧ o.index = true ∧
    buildFile linkSorter o d = .ok file ∧ ∃ (a y b : List UInt8) (l : Loaded) (ks : List (List UInt8)), (a ++ y ++ b).length = file.length ∧ load o (a ++ y ++ b) = .ok l ∧
      totals o l = .ok (some ks) ∧ ks.length = 4000000000 := by
  obtain ⟨d, D, h⟩ := madeG
  obtain ⟨n, oks, b, num, h1, h2, hadm, h3, h4⟩ := Made.unfold' h
  obtain ⟨g1, r1, r2⟩ := C27_ranked_guide h (exists_stableSort _).perm (fun lhs rhs => decide (lhs < rhs))
  obtain ⟨g2, p1, p2, _⟩ := C26_guide h
  obtain ⟨idx, hx, _⟩ := C30_counts_partial h (by decide) p1
  have hf := buildFile_eq { guide := true, index := true } h4 r1 p1
  simp only [hx] at hf
  obtain ⟨a, x, y, b, l, hfile, hx4, hy4, hl, ht, _⟩ := C110_any_number h (exists_stableSort _) (o := { guide := true, index := true }) rfl rfl rfl hf (N := 4000000000) (by decide) 0
  refine ⟨d, D, _, _, _, h, exists_stableSort _, rfl, rfl, rfl, hf, a, y, b, l, _, ?_, hl, ht, ?_⟩
  · have := congrArg List.length hfile
    simp only [List.length_append] at this ⊢
    omega
  · rw [List.length_take, List.length_append, List.length_replicate]
    omega

end Dawg.Props
