import Verif.Props.UtfcSort
/-! # C42: what `dawgtool -b -s -t` and `dawgtool -b -s -t -u` accept -/
namespace Dawg.Props
open Dawg Dawg.Spec Dawg.Client Dawg.Abs Dawg.Dict Dawg.Guided Dawg.Tool
attribute [-simp] List.length_flatten

/-- With `-s`, what matters are the keys of the ordered lines. -/
theorem sort_accepts {sorter : LineSorter} (hs : StableSort sorter) (grow : Nat → Nat) {o : Opts} (ho : o.sort = true) {lines : List (List UInt8)}
    (hparse : ∀ l ∈ lines, l ≠ [] → ∃ p, parseLine o.tab l = .ok p) (hnul : ∀ l ∈ lines, l ≠ [] → (0 : UInt8) ∉ (entry o l).1)
    (hsz : (lines.map (fun l => (entry o l).1.length + 1)).sum < 1073741824) {m : List (List UInt8)} (hm : orderLines sorter grow o lines = m) :
    ((∃ d, buildDawg sorter grow o lines = .ok d) ↔ (m.filter (fun l => l.length ≠ 0)).Pairwise (fun a b => ¬ (entry o b).1 < (entry o a).1)) ∧
    ((¬ ∃ d, buildDawg sorter grow o lines = .ok d) → buildDawg sorter grow o lines = .error .fatal) := by
  have hp : m.Perm lines := by
    rw [← hm]
    unfold orderLines
    rw [if_pos ho]
    exact hs.perm _ _
  have hpre : buildDawg sorter grow o lines = buildDawg sorter grow { o with sort := false } m := by
    unfold buildDawg
    rw [hm, processLines_congr (o := o) (o' := { o with sort := false }) rfl rfl]
    rfl
  obtain ⟨h1, h2⟩ := C47_unsorted (o := { o with sort := false }) sorter grow (lines := m) rfl (fun l hl hn => hparse l (hp.mem_iff.1 hl) hn) (fun l hl hn => hnul l (hp.mem_iff.1 hl) hn)
    ((hp.map (fun l => (entry o l).1.length + 1)).sum_nat ▸ hsz)
  rw [hpre]
  by_cases hc : (m.filter (fun l => l.length ≠ 0)).Pairwise (fun a b => ¬ (entry o b).1 < (entry o a).1)
  · obtain ⟨d, _, _, h3, _⟩ := h1 hc
    exact ⟨⟨fun _ => hc, fun _ => ⟨d, h3⟩⟩, fun h => absurd ⟨d, h3⟩ h⟩
  · have h3 := h2 hc
    refine ⟨⟨fun ⟨d, h⟩ => ?_, fun h => absurd h hc⟩, fun _ => h3⟩
    rw [h3] at h
    cases h

/-- A line with a key, with `-t`. -/
theorem tab_line {o : Opts} (ho : o.tab = true) {l : List UInt8} {p : List UInt8 × Int} (h : parseLine o.tab l = .ok p) : (entry o l).1 = keyBytes o.utfc p.1 ∧ (9 : UInt8) ∉ p.1 ∧ ∃ t, l = p.1 ++ 9 :: t := by
  refine ⟨by simp only [entry, h], ?_⟩
  rw [ho] at h
  unfold parseLine at h
  simp only [Bool.not_true, Bool.false_eq_true, if_false] at h
  split at h
  · next k' v' r hsp =>
    split at h
    · cases h
    · cases h
      exact splitTab_spec l hsp
  · cases h

/-- The order of the lines against the order of the keys. -/
theorem line_order : ∀ {k k' : List UInt8} {t t' : List UInt8}, (9 : UInt8) ∉ k → (9 : UInt8) ∉ k' →
    (k ++ 9 :: t < k' ++ 9 :: t' ∧ k' < k ↔ ∃ c s, k = k' ++ c :: s ∧ c < 9)
  | [], k', t, t', _, _ => by
    constructor
    · rintro ⟨_, h⟩
      simp at h
    · rintro ⟨c, s, h, _⟩
      simp at h
  | x :: k, [], t, t', hk, _ => by
    simp only [List.mem_cons, not_or] at hk
    rw [List.nil_append, List.cons_append, List.cons_lt_cons_iff]
    constructor
    · rintro ⟨h | ⟨h, _⟩, _⟩
      · exact ⟨x, k, rfl, h⟩
      · exact absurd h.symm hk.1
    · rintro ⟨c, s, h, h9⟩
      simp only [List.nil_append, List.cons.injEq] at h
      rw [h.1]
      exact ⟨.inl h9, by simp⟩
  | x :: k, y :: k', t, t', hk, hk' => by
    simp only [List.mem_cons, not_or] at hk hk'
    have ih := line_order (k := k) (k' := k') (t := t) (t' := t') hk.2 hk'.2
    simp only [List.cons_append, List.cons_lt_cons_iff]
    constructor
    · rintro ⟨h1 | ⟨h1, h2⟩, h3 | ⟨h3, h4⟩⟩
      · exact absurd (UInt8.lt_trans h1 h3) (UInt8.lt_irrefl _)
      · rw [h3] at h1; exact absurd h1 (UInt8.lt_irrefl _)
      · rw [h1] at h3; exact absurd h3 (UInt8.lt_irrefl _)
      · obtain ⟨c, s, h5, h6⟩ := ih.1 ⟨h2, h4⟩
        exact ⟨c, s, by rw [h1, h5], h6⟩
    · rintro ⟨c, s, h, h9⟩
      simp only [List.cons.injEq] at h
      obtain ⟨h1, h2⟩ := ih.2 ⟨c, s, h.2, h9⟩
      exact ⟨.inr ⟨h.1, h1⟩, .inr ⟨h.1.symm, h2⟩⟩

/-- What sorting by bytes does to pairs of elements. -/
theorem bytes_pairwise {sorter : LineSorter} (hs : StableSort sorter) (P : List UInt8 → List UInt8 → Prop) (hP : ∀ l, P l l) (keep : List UInt8 → Bool) (l : List (List UInt8)) :
    ((sorter bytesLess l).filter keep).Pairwise P ↔ ∀ a ∈ l.filter keep, ∀ b ∈ l.filter keep, a < b → P a b := by
  have hp := (hs.perm bytesLess l).filter keep
  have hso := (hs.sorted bytesLess l bytesLess_weak).filter keep
  generalize (sorter bytesLess l).filter keep = m at *
  constructor
  · intro h a ha b hb hab
    obtain ⟨i, hi, e1⟩ := List.mem_iff_getElem.1 (hp.mem_iff.2 ha)
    obtain ⟨j, hj, e2⟩ := List.mem_iff_getElem.1 (hp.mem_iff.2 hb)
    rcases Nat.lt_trichotomy i j with hij | hij | hij
    · have := List.pairwise_iff_getElem.1 h i j hi hj hij
      rwa [e1, e2] at this
    · subst hij
      rw [e1] at e2
      subst e2
      exact hP _
    · have := List.pairwise_iff_getElem.1 hso j i hj hi hij
      rw [e1, e2, bytesLess_eq, decide_eq_false_iff_not] at this
      exact absurd hab this
  · intro h
    refine (List.Pairwise.and_mem.1 hso).imp ?_
    rintro a b ⟨ha, hb, h1⟩
    rw [bytesLess_eq, decide_eq_false_iff_not] at h1
    rcases List.le_iff_lt_or_eq.1 (List.not_lt.1 h1) with h2 | h2
    · exact h a (hp.mem_iff.1 ha) b (hp.mem_iff.1 hb) h2
    · rw [h2]; exact hP _

/-- **C42** with `-t`, exactly: a lexicon of lines with a key without NUL bytes, a tab and a number is accepted iff no key is another key followed by a byte below 9; any other such lexicon
ends the program with an error. -/
theorem C42_tab_exact_partial {sorter : LineSorter} (hs : StableSort sorter) (grow : Nat → Nat) {lines : List (List UInt8)}
    (hp : ∀ l ∈ lines, l ≠ [] → ∃ k n, parseLine true l = .ok (k, n) ∧ (0 : UInt8) ∉ k) (hsz : (lines.map (fun l => l.length + 1)).sum < 1073741824) :
    ((∃ d, buildDawg sorter grow { sort := true, tab := true } lines = .ok d) ↔
      ∀ a ∈ lines, ∀ b ∈ lines, ∀ k n c s m, parseLine true a = .ok (k, n) → parseLine true b = .ok (k ++ c :: s, m) → ¬ c < 9) ∧
    ((¬ ∃ d, buildDawg sorter grow { sort := true, tab := true } lines = .ok d) → buildDawg sorter grow { sort := true, tab := true } lines = .error .fatal) := by
  have hent : ∀ {l k n}, parseLine true l = .ok (k, n) → (entry { sort := true, tab := true } l).1 = k ∧ (9 : UInt8) ∉ k ∧ ∃ t, l = k ++ 9 :: t :=
    fun {l k n} h => tab_line (o := { sort := true, tab := true }) rfl h
  have hord : orderLines sorter grow { sort := true, tab := true } lines = sorter bytesLess lines := by
    unfold orderLines
    rw [if_pos rfl]
    rfl
  obtain ⟨h1, h2⟩ := sort_accepts hs grow (o := { sort := true, tab := true }) rfl (lines := lines)
    (fun l hl hn => let ⟨k, n, h, _⟩ := hp l hl hn; ⟨_, h⟩)
    (fun l hl hn => by
      obtain ⟨k, n, h, h0⟩ := hp l hl hn
      rw [(hent h).1]
      exact h0)
    (by
      refine Nat.lt_of_le_of_lt ?_ hsz
      clear hsz hord
      induction lines with
      | nil => simp
      | cons l lines ih =>
        have := ih (fun l hl => hp l (by simp [hl]))
        have hk : (entry { sort := true, tab := true } l).1.length ≤ l.length := by
          by_cases hn : l = []
          · rw [hn]; decide
          · obtain ⟨k, n, h, _⟩ := hp l (by simp) hn
            obtain ⟨e1, _, t, e2⟩ := hent h
            rw [e1, e2]; simp
        simp only [List.map_cons, List.sum_cons]
        omega) hord
  refine ⟨?_, h2⟩
  rw [h1, bytes_pairwise hs (fun a b => ¬ (entry { sort := true, tab := true } b).1 < (entry { sort := true, tab := true } a).1) (fun l => List.lt_irrefl _)]
  have hmem : ∀ {l}, l ∈ lines.filter (fun l => l.length ≠ 0) ↔ l ∈ lines ∧ l ≠ [] := by
    intro l
    rw [List.mem_filter]
    simp
  constructor
  · intro h a ha b hb k n c s m hka hkb hc
    obtain ⟨a1, a2, t, a3⟩ := hent hka
    obtain ⟨b1, b2, t', b3⟩ := hent hkb
    obtain ⟨l1, l2⟩ := (line_order (t := t') (t' := t) b2 a2).2 ⟨c, s, rfl, hc⟩
    rw [← a3, ← b3] at l1
    have hne : ∀ {l k t : List UInt8}, l = k ++ 9 :: t → l ≠ [] := by
      intro l k t h hc
      rw [hc] at h
      simp at h
    have := h b (hmem.2 ⟨hb, hne b3⟩) a (hmem.2 ⟨ha, hne a3⟩) l1
    rw [a1, b1] at this
    exact this l2
  · intro h a ha b hb hab hlt
    obtain ⟨ha, hna⟩ := hmem.1 ha
    obtain ⟨hb, hnb⟩ := hmem.1 hb
    obtain ⟨k, n, hka, _⟩ := hp a ha hna
    obtain ⟨k', n', hkb, _⟩ := hp b hb hnb
    obtain ⟨a1, a2, t, a3⟩ := hent hka
    obtain ⟨b1, b2, t', b3⟩ := hent hkb
    rw [a1, b1] at hlt
    rw [a3, b3] at hab
    obtain ⟨c, s, e, hc⟩ := (line_order (t := t) (t' := t') a2 b2).1 ⟨hab, hlt⟩
    rw [e] at hka
    exact h b hb a ha k' n' c s n hkb hka hc

/-- "a\x01" after "a" is refused, "a\x0b" after "a" is not. -/
example : (∃ d, buildDawg insertionSort (fun n => n) { sort := true, tab := true } [[97, 11, 9, 49], [97, 9, 49]] = .ok d) ∧
    buildDawg insertionSort (fun n => n) { sort := true, tab := true } [[97, 9, 49], [97, 1, 9, 49]] = .error .fatal := by
  have p1 : parseLine true [97, 9, 49] = .ok ([97], 1) := by decide +kernel
  have p2 : parseLine true [97, 11, 9, 49] = .ok ([97, 11], 1) := by decide +kernel
  have p3 : parseLine true [97, 1, 9, 49] = .ok ([97, 1], 1) := by decide +kernel
  constructor
  · refine (C42_tab_exact_partial insertionSort_stableSort _ ?_ (by decide)).1.2 ?_
    · intro l hl _
      simp only [List.mem_cons, List.not_mem_nil, or_false] at hl
      rcases hl with rfl | rfl
      · exact ⟨_, _, p2, by decide⟩
      · exact ⟨_, _, p1, by decide⟩
    · intro a ha b hb k n c s m h1 h2
      simp only [List.mem_cons, List.not_mem_nil, or_false] at ha hb
      rcases ha with rfl | rfl <;> rcases hb with rfl | rfl
      · rw [p2] at h1 h2
        cases h1
        simp at h2
      · rw [p2] at h1
        cases h1
        rw [p1] at h2
        simp at h2
      · rw [p1] at h1
        cases h1
        rw [p2] at h2
        simp at h2
        rw [← h2.1.1]
        decide
      · rw [p1] at h1 h2
        cases h1
        simp at h2
  · have h := C42_tab_exact_partial (sorter := insertionSort) insertionSort_stableSort (fun n => n) (lines := [[97, 9, 49], [97, 1, 9, 49]]) (by
      intro l hl _
      simp only [List.mem_cons, List.not_mem_nil, or_false] at hl
      rcases hl with rfl | rfl
      · exact ⟨_, _, p1, by decide⟩
      · exact ⟨_, _, p3, by decide⟩) (by decide)
    exact h.2 (fun hd => h.1.1 hd _ (by simp) _ (by simp) _ _ _ _ _ p1 p3 (by decide))

/-- **C42** with `-u` and `-t`, exactly: the lines are ordered by the lengths of their encodings, and the keys must be in order then. -/
theorem C42_utfc_tab_partial {sorter : LineSorter} (hs : StableSort sorter) (grow : Nat → Nat) {lines : List (List UInt8)}
    (hparse : ∀ l ∈ lines, l ≠ [] → ∃ p, parseLine true l = .ok p) (hnul : ∀ l ∈ lines, l ≠ [] → (0 : UInt8) ∉ (entry { sort := true, tab := true, utfc := true } l).1)
    (hsz : (lines.map (fun l => (entry { sort := true, tab := true, utfc := true } l).1.length + 1)).sum < 1073741824) :
    ((∃ d, buildDawg sorter grow { sort := true, tab := true, utfc := true } lines = .ok d) ↔
      (∀ a ∈ lines, ∀ b ∈ lines, a ≠ [] → b ≠ [] → (keyBytes true a).length < (keyBytes true b).length →
        ¬ (entry { sort := true, tab := true, utfc := true } b).1 < (entry { sort := true, tab := true, utfc := true } a).1) ∧
      (lines.filter (fun l => l.length ≠ 0)).Pairwise (fun a b => (keyBytes true a).length = (keyBytes true b).length →
        ¬ (entry { sort := true, tab := true, utfc := true } b).1 < (entry { sort := true, tab := true, utfc := true } a).1)) ∧
    ((¬ ∃ d, buildDawg sorter grow { sort := true, tab := true, utfc := true } lines = .ok d) → buildDawg sorter grow { sort := true, tab := true, utfc := true } lines = .error .fatal) := by
  have hord : orderLines sorter grow { sort := true, tab := true, utfc := true } lines =
      sorter (fun a b => decide ((Utfc.encode (runes a)).length < (Utfc.encode (runes b)).length)) lines := utfc_order sorter grow lines
  obtain ⟨h1, h2⟩ := sort_accepts hs grow (o := { sort := true, tab := true, utfc := true }) rfl hparse hnul hsz hord
  refine ⟨?_, h2⟩
  rw [h1, stable_pairwise hs (fun l => (Utfc.encode (runes l)).length)
    (fun a b => ¬ (entry { sort := true, tab := true, utfc := true } b).1 < (entry { sort := true, tab := true, utfc := true } a).1) (fun l => decide (l.length ≠ 0)) lines]
  refine and_congr ?_ Iff.rfl
  constructor
  · intro h a ha b hb hna hnb
    exact h a (List.mem_filter.2 ⟨ha, by simpa using hna⟩) b (List.mem_filter.2 ⟨hb, by simpa using hnb⟩)
  · intro h a ha b hb
    rw [List.mem_filter] at ha hb
    exact h a ha.1 b hb.1 (by rintro rfl; simp at ha) (by rintro rfl; simp at hb)

/-- The keys "b" and "a" are refused, because the line of "b" has the shorter number; with the numbers exchanged they are accepted. -/
example : buildDawg insertionSort (fun n => n) { sort := true, tab := true, utfc := true } [[97, 9, 49, 48], [98, 9, 49]] = .error .fatal ∧
    ∃ d, buildDawg insertionSort (fun n => n) { sort := true, tab := true, utfc := true } [[98, 9, 49, 48], [97, 9, 49]] = .ok d := by
  have hq : ∀ {l : List UInt8} {p}, parseLine true l = .ok p → ∃ p, parseLine true l = .ok p := fun h => ⟨_, h⟩
  have h1 := C42_utfc_tab_partial (sorter := insertionSort) insertionSort_stableSort (fun n => n) (lines := [[97, 9, 49, 48], [98, 9, 49]]) (by
    intro l hl _
    simp only [List.mem_cons, List.not_mem_nil, or_false] at hl
    rcases hl with rfl | rfl
    · exact hq (p := ([97], 10)) (by decide +kernel)
    · exact hq (p := ([98], 1)) (by decide +kernel)) (by decide +kernel) (by decide +kernel)
  have h2 := C42_utfc_tab_partial (sorter := insertionSort) insertionSort_stableSort (fun n => n) (lines := [[98, 9, 49, 48], [97, 9, 49]]) (by
    intro l hl _
    simp only [List.mem_cons, List.not_mem_nil, or_false] at hl
    rcases hl with rfl | rfl
    · exact hq (p := ([98], 10)) (by decide +kernel)
    · exact hq (p := ([97], 1)) (by decide +kernel)) (by decide +kernel) (by decide +kernel)
  exact ⟨h1.2 (fun h => absurd (h1.1.1 h) (by decide +kernel)), h2.1.2 (by decide +kernel)⟩

end Dawg.Props
