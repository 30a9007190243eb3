import Verif.Proof.Tool
/-! # C42: building with dawgtool -/
namespace Dawg.Props
open Dawg Dawg.Spec Dawg.Client Dawg.Tool

/-- The full claim C42 (for lexicons within the size limit of the theorems): with `-s`, every lexicon of distinct non-empty lines without NUL bytes
gives a Dawg, whatever stable sorting routine is used. -/
def C42_statement (o : Opts) : Prop := ∀ (sorter : LineSorter), StableSort sorter → ∀ (grow : Nat → Nat) (lines : List (List UInt8)),
  lines.Nodup → (∀ l ∈ lines, l ≠ [] ∧ (0 : UInt8) ∉ l) → (lines.map (fun l => l.length + 1)).sum < 1073741824 →
  (∀ l ∈ lines, ∃ p, parseLine o.tab l = .ok p) → ∃ d, buildDawg sorter grow o lines = .ok d

/-- The lines "b" and "aa". -/
def linesBAA : List (List UInt8) := [[98], [97, 97]]

theorem sorted_two {α : Type} {less : α → α → Bool} {sorter : (α → α → Bool) → List α → List α} (h : StableSort sorter) (hw : StrictWeak less) {a b : α}
    (hab : less a b = true) : sorter less [a, b] = [a, b] := by
  have hp := h.perm less [a, b]
  have hs := h.sorted less [a, b] hw
  have hlen := hp.length_eq
  generalize sorter less [a, b] = l at *
  match l, hlen with
  | [x, y], _ =>
    have hx : x = a ∨ x = b := by have := hp.subset (a := x) (by simp); simpa using this
    rcases hx with rfl | rfl
    · have : [y] = [b] := List.perm_singleton.1 (List.perm_cons _ |>.1 hp)
      rw [this]
    · have hp' : [x, y].Perm [x, a] := hp.trans (List.Perm.swap _ _ _)
      have : [y] = [a] := List.perm_singleton.1 (List.perm_cons _ |>.1 hp')
      rw [this] at hs
      simp [hab] at hs

/-- Comparing by length is a strict weak order. -/
theorem weak_of_nat {α : Type} (f : α → Nat) : StrictWeak (fun a b => decide (f a < f b)) :=
  ⟨fun a b h => by simp only [decide_eq_true_eq, decide_eq_false_iff_not] at *; omega,
   fun a b c h1 h2 => by simp only [decide_eq_false_iff_not] at *; omega⟩

theorem utfc_order (sorter : LineSorter) (grow : Nat → Nat) (lines : List (List UInt8)) :
    orderLines sorter grow { sort := true, utfc := true } lines =
      sorter (fun a b => decide ((Utfc.encode (runes a)).length < (Utfc.encode (runes b)).length)) lines := by
  unfold orderLines
  rw [if_pos rfl]
  congr 1
  funext a b
  exact lessMem_utfc Utfc.Mem.OK.init grow a b

/-- **C42 is false** with `-u`: the comparator reads both encodings from the same buffer and so only compares their lengths.  The lexicon
"b", "aa" then ends in `log.Fatal`, with every stable sorting routine. -/
theorem C42_utfc_false : ¬ C42_statement { sort := true, utfc := true } ∧ ∀ (sorter : LineSorter), StableSort sorter → ∀ (grow : Nat → Nat),
    buildDawg sorter grow { sort := true, utfc := true } linesBAA = .error .fatal := by
  have key : ∀ (sorter : LineSorter), StableSort sorter → ∀ (grow : Nat → Nat),
      buildDawg sorter grow { sort := true, utfc := true } linesBAA = .error .fatal := by
    intro sorter hs grow
    unfold buildDawg
    rw [utfc_order, linesBAA, sorted_two hs (weak_of_nat _) (by decide)]
    decide +kernel
  refine ⟨fun h => ?_, key⟩
  obtain ⟨d, hd⟩ := h _ (exists_stableSort _) (fun n => n) linesBAA (by decide) (by decide) (by decide)
    (by intro l _; exact ⟨_, rfl⟩)
  rw [key _ (exists_stableSort _)] at hd
  cases hd

/-- The lines "a\x01\t1" and "a\t1". -/
def linesCtl : List (List UInt8) := [[97, 1, 9, 49], [97, 9, 49]]

/-- **C42 is false** with `-t`, too: whole lines are sorted, not keys. -/
theorem C42_tab_false : ¬ C42_statement { sort := true, tab := true } ∧ ∀ (sorter : LineSorter), StableSort sorter → ∀ (grow : Nat → Nat),
    buildDawg sorter grow { sort := true, tab := true } linesCtl = .error .fatal := by
  have key : ∀ (sorter : LineSorter), StableSort sorter → ∀ (grow : Nat → Nat),
      buildDawg sorter grow { sort := true, tab := true } linesCtl = .error .fatal := by
    intro sorter hs grow
    unfold buildDawg orderLines
    rw [if_pos rfl]
    rw [show (fun a b => (lessMem grow false Utfc.Mem.init a b).2) = bytesLess from rfl, linesCtl, sorted_two hs bytesLess_weak (by decide)]
    decide +kernel
  refine ⟨fun h => ?_, key⟩
  obtain ⟨d, hd⟩ := h _ (exists_stableSort _) (fun n => n) linesCtl (by decide) (by decide) (by decide) (by
    intro l hl
    simp only [linesCtl, List.mem_cons, List.not_mem_nil, or_false] at hl
    rcases hl with rfl | rfl <;> exact ⟨_, rfl⟩)
  rw [key _ (exists_stableSort _)] at hd
  cases hd

/-- A line as a key with a value. -/
def entry (o : Opts) (l : List UInt8) : Key × Int :=
  match parseLine o.tab l with
  | .ok p => (keyBytes o.utfc p.1, p.2)
  | .error _ => ([], 0)

theorem build_sorted {o : Opts} {sorter : LineSorter} (hs : StableSort sorter) (grow : Nat → Nat) {lines : List (List UInt8)}
    (ho : o.sort = true) (hu : o.utfc = false) (hparse : ∀ l ∈ lines, l ≠ [] → ∃ p, parseLine o.tab l = .ok p)
    (hnul : ∀ l ∈ lines, l ≠ [] → (0 : UInt8) ∉ (entry o l).1) (hsz : (lines.map (fun l => (entry o l).1.length + 1)).sum < 1073741824)
    (hord : ∀ a ∈ lines, ∀ b ∈ lines, a ≠ [] → b ≠ [] → ¬ b < a → ¬ (entry o b).1 < (entry o a).1) :
    ∃ d, ∃ ls : List (List UInt8), ls.Perm (lines.filter (fun l => l.length ≠ 0)) ∧ buildDawg sorter grow o lines = .ok d ∧
      ∃ oks b, Client.build 256 (ls.map (entry o)) = .ok (oks, b, d) ∧ (∀ ok ∈ oks, ok = true) := by
  have hordl : orderLines sorter grow o lines = sorter bytesLess lines := by
    unfold orderLines
    rw [if_pos ho, hu]
    rfl
  have hp := hs.perm bytesLess lines
  have hso := hs.sorted bytesLess lines bytesLess_weak
  generalize hL : sorter bytesLess lines = L at *
  have hmem : ∀ l, l ∈ L.filter (fun l => l.length ≠ 0) → l ∈ lines ∧ l ≠ [] := by
    intro l hl
    rw [List.mem_filter] at hl
    exact ⟨hp.subset hl.1, by rintro rfl; simp at hl⟩
  have hadm : Admissible ((L.filter (fun l => l.length ≠ 0)).map (entry o)) := by
    constructor
    · intro e he
      obtain ⟨l, hl, rfl⟩ := List.mem_map.1 he
      obtain ⟨h1, h2⟩ := hmem l hl
      exact hnul l h1 h2
    · rw [List.map_map]
      have h1 : ((L.filter (fun l => l.length ≠ 0)).map (fun l => (entry o l).1.length + 1)).sum ≤ (L.map (fun l => (entry o l).1.length + 1)).sum := by
        clear hmem hordl hp hso hL
        induction L with
        | nil => simp
        | cons x L ih =>
          rw [List.filter_cons]
          split
          · simp only [List.map_cons, List.sum_cons]; omega
          · simp only [List.map_cons, List.sum_cons]; omega
      have h2 : (L.map (fun l => (entry o l).1.length + 1)).sum = (lines.map (fun l => (entry o l).1.length + 1)).sum := (hp.map _).sum_nat
      have h3 : ((L.filter (fun l => l.length ≠ 0)).map ((fun e => e.1.length + 1) ∘ entry o)).sum =
        ((L.filter (fun l => l.length ≠ 0)).map (fun l => (entry o l).1.length + 1)).sum := rfl
      omega
  obtain ⟨b, d, hb⟩ := C07_build_returns 256 (by omega) (by omega) _ hadm
  have hv : ∀ ok ∈ verdicts [] ((L.filter (fun l => l.length ≠ 0)).map (entry o)), ok = true := by
    refine verdicts_sorted ?_ (by simp)
    rw [List.pairwise_map]
    have := (hso.sublist (List.filter_sublist (p := fun l => decide (l.length ≠ 0))))
    refine this.imp_of_mem ?_
    intro x y hx hy hxy
    obtain ⟨x1, x2⟩ := hmem x hx
    obtain ⟨y1, y2⟩ := hmem y hy
    rw [bytesLess_eq, decide_eq_false_iff_not] at hxy
    exact hord x x1 y y1 x2 y2 hxy
  refine ⟨d, L.filter (fun l => l.length ≠ 0), hp.filter _, ?_, _, b, hb, hv⟩
  unfold Client.build at hb
  obtain ⟨⟨b1, oks⟩, h1, h2⟩ := bind_eq_ok.1 hb
  obtain ⟨⟨b2, d2⟩, h3, h4⟩ := bind_eq_ok.1 h2
  simp only [pure_eq_ok, Except.ok.injEq, Prod.mk.injEq] at h4
  obtain ⟨rfl, rfl, rfl⟩ := h4
  have hpl := processLines_ok (o := o) (lines := L) (b := Builder.newWithSize 256) (by
    rw [List.map_map]
    apply List.map_congr_left
    intro l hl
    obtain ⟨l1, l2⟩ := hmem l hl
    obtain ⟨p, hp⟩ := hparse l l1 l2
    simp only [Function.comp, entry, hp]
    rfl) h1 hv
  unfold buildDawg
  rw [hordl]
  show (processLines o L (Builder.newWithSize 256) >>= _) = _
  rw [hpl]
  show (lift b1.finish >>= _) = _
  rw [h3]
  rfl

/-- **C42** without `-u` and `-t`: every lexicon of NUL-free lines gives the Dawg of its lines, with all insertions accepted; empty lines are
skipped and repeated lines do no harm. -/
theorem C42_sorted_partial {sorter : LineSorter} (hs : StableSort sorter) (grow : Nat → Nat) {lines : List (List UInt8)}
    (hnul : ∀ l ∈ lines, (0 : UInt8) ∉ l) (hsz : (lines.map (fun l => l.length + 1)).sum < 1073741824) :
    ∃ d, ∃ ls : List (List UInt8), ls.Perm (lines.filter (fun l => l.length ≠ 0)) ∧ buildDawg sorter grow { sort := true } lines = .ok d ∧
      ∃ oks b, Client.build 256 (ls.map (fun l => (l, 0))) = .ok (oks, b, d) ∧ (∀ ok ∈ oks, ok = true) :=
  build_sorted (o := { sort := true }) hs grow rfl rfl (fun l _ _ => ⟨_, rfl⟩) (fun l hl _ => hnul l hl) hsz (fun _ _ _ _ _ _ h => h)

/-! ### With `-t` -/

theorem splitTab_spec : ∀ (l : List UInt8) {k : List UInt8} {v : List UInt8} {r : List (List UInt8)}, splitTab l = k :: v :: r → (9 : UInt8) ∉ k ∧ ∃ t, l = k ++ 9 :: t
  | [], _, _, _, h => by simp [splitTab] at h
  | b :: bs, k, v, r, h => by
    rw [splitTab] at h
    cases hs : splitTab bs with
    | nil => rw [hs] at h; simp at h
    | cons p ps =>
      rw [hs] at h
      simp only at h
      split at h
      · next h9 =>
        simp only [List.cons.injEq] at h
        subst h9
        exact ⟨by simp [← h.1], bs, by simp [← h.1]⟩
      · next h9 =>
        simp only [List.cons.injEq] at h
        obtain ⟨rfl, rfl⟩ := h
        obtain ⟨h1, t, h2⟩ := splitTab_spec bs hs
        refine ⟨?_, t, by rw [h2]; rfl⟩
        simp only [List.mem_cons, not_or]
        exact ⟨fun h => h9 h.symm, h1⟩

theorem key_order {k k' t t' : List UInt8} (hk' : ∀ b ∈ k', 9 < b) (h : ¬ (k' ++ 9 :: t') < (k ++ 9 :: t)) (hk : ∀ b ∈ k, 9 < b) : ¬ k' < k := by
  induction k generalizing k' with
  | nil => simp
  | cons x k ih =>
    cases k' with
    | nil =>
      exfalso
      apply h
      rw [List.nil_append, List.cons_append, List.cons_lt_cons_iff]
      exact .inl (hk x (by simp))
    | cons y k' =>
      intro hlt
      rw [List.cons_lt_cons_iff] at hlt
      rw [List.cons_append, List.cons_append, List.cons_lt_cons_iff] at h
      rcases hlt with hlt | ⟨rfl, hlt⟩
      · exact h (.inl hlt)
      · exact ih (fun b hb => hk' b (by simp [hb])) (fun h' => h (.inr ⟨rfl, h'⟩)) (fun b hb => hk b (by simp [hb])) hlt

/-- **C42** with `-t`: when every line has a key with bytes above 9 (tab), a tab and a number. -/
theorem C42_tab_partial {sorter : LineSorter} (hs : StableSort sorter) (grow : Nat → Nat) {lines : List (List UInt8)}
    (hp : ∀ l ∈ lines, ∃ k n, parseLine true l = .ok (k, n) ∧ ∀ b ∈ k, 9 < b) (hsz : (lines.map (fun l => l.length + 1)).sum < 1073741824) :
    ∃ d, ∃ ls : List (List UInt8), ls.Perm (lines.filter (fun l => l.length ≠ 0)) ∧ buildDawg sorter grow { sort := true, tab := true } lines = .ok d ∧
      ∃ oks b, Client.build 256 (ls.map (entry { sort := true, tab := true })) = .ok (oks, b, d) ∧ (∀ ok ∈ oks, ok = true) := by
  have hent : ∀ l k n, parseLine true l = .ok (k, n) → entry { sort := true, tab := true } l = (k, n) ∧ ∃ t, l = k ++ 9 :: t := by
    intro l k n h
    refine ⟨by simp only [entry, h]; rfl, ?_⟩
    unfold parseLine at h
    simp only [Bool.not_true, Bool.false_eq_true, if_false] at h
    split at h
    · next k' v' r hsp =>
      split at h
      · cases h
      · simp only [Except.ok.injEq, Prod.mk.injEq] at h
        obtain ⟨rfl, _⟩ := h
        exact (splitTab_spec l hsp).2
    · cases h
  refine build_sorted (o := { sort := true, tab := true }) hs grow rfl rfl ?_ ?_ ?_ ?_
  · intro l hl _
    obtain ⟨k, n, h, _⟩ := hp l hl
    exact ⟨_, h⟩
  · intro l hl _ h0
    obtain ⟨k, n, h, h1⟩ := hp l hl
    rw [(hent l k n h).1] at h0
    exact absurd (h1 0 h0) (by decide)
  · refine Nat.lt_of_le_of_lt ?_ hsz
    clear hsz
    induction lines with
    | nil => simp
    | cons l lines ih =>
      have := ih (fun l hl => hp l (by simp [hl]))
      obtain ⟨k, n, h, _⟩ := hp l (by simp)
      obtain ⟨e1, t, e2⟩ := hent l k n h
      have hk : (entry { sort := true, tab := true } l).1.length ≤ l.length := by
        rw [e1, e2]; simp
      simp only [List.map_cons, List.sum_cons]
      omega
  · intro a ha b hb _ _ hab
    obtain ⟨k, n, h, h1⟩ := hp a ha
    obtain ⟨k', n', h', h1'⟩ := hp b hb
    obtain ⟨e1, t, e2⟩ := hent a k n h
    obtain ⟨e1', t', e2'⟩ := hent b k' n' h'
    rw [e1, e1']
    rw [e2, e2'] at hab
    exact key_order h1' hab h1

/-- Unsorted lines with values: "ba\t2", "b\t7", "é\t1". -/
example : ∃ lines : List (List UInt8), lines = ["ba\t2", "b\t7", "é\t1"].map (fun s => s.toUTF8.toList) ∧
    (∀ l ∈ lines, ∃ k n, parseLine true l = .ok (k, n) ∧ ∀ b ∈ k, 9 < b) := by
  refine ⟨[[98, 97, 9, 50], [98, 9, 55], [0xC3, 0xA9, 9, 49]], by decide +kernel, ?_⟩
  intro l hl
  simp only [List.mem_cons, List.not_mem_nil, or_false] at hl
  rcases hl with rfl | rfl | rfl
  · exact ⟨[98, 97], 2, by decide, by decide⟩
  · exact ⟨[98], 7, by decide, by decide⟩
  · exact ⟨[0xC3, 0xA9], 1, by decide, by decide⟩

/-- What the tool's own sorting routine would be given: lines out of order, one of them empty, one repeated. -/
example : ∃ sorter : LineSorter, StableSort sorter ∧ (∀ l ∈ [[98], [97, 97], [], [98]], (0 : UInt8) ∉ l) := ⟨_, exists_stableSort _, by decide⟩

/-! ## C47 -/

theorem filter_small (o : Opts) (lines : List (List UInt8)) :
    (((lines.filter (fun l => l.length ≠ 0)).map (entry o)).map (fun e => e.1.length + 1)).sum ≤ (lines.map (fun l => (entry o l).1.length + 1)).sum := by
  rw [List.map_map]
  induction lines with
  | nil => simp
  | cons x L ih =>
    rw [List.filter_cons]
    split
    · simp only [List.map_cons, List.sum_cons, Function.comp_apply] at ih ⊢; omega
    · simp only [List.map_cons, List.sum_cons] at ih ⊢; omega

/-- **C47.** Without `-s`, with or without `-t` and `-u`: a lexicon whose keys are in non-decreasing order (as bytes, after encoding) gives the Dawg of its lines;
any other lexicon ends the program with an error. -/
theorem C47_unsorted {o : Opts} (sorter : LineSorter) (grow : Nat → Nat) {lines : List (List UInt8)} (ho : o.sort = false)
    (hparse : ∀ l ∈ lines, l ≠ [] → ∃ p, parseLine o.tab l = .ok p) (hnul : ∀ l ∈ lines, l ≠ [] → (0 : UInt8) ∉ (entry o l).1)
    (hsz : (lines.map (fun l => (entry o l).1.length + 1)).sum < 1073741824) :
    (((lines.filter (fun l => l.length ≠ 0)).Pairwise (fun a b => ¬ (entry o b).1 < (entry o a).1)) → ∃ d oks b, buildDawg sorter grow o lines = .ok d ∧
      Client.build 256 ((lines.filter (fun l => l.length ≠ 0)).map (entry o)) = .ok (oks, b, d) ∧ ∀ ok ∈ oks, ok = true) ∧
    ((¬ (lines.filter (fun l => l.length ≠ 0)).Pairwise (fun a b => ¬ (entry o b).1 < (entry o a).1)) → buildDawg sorter grow o lines = .error .fatal) := by
  have hmem : ∀ l, l ∈ lines.filter (fun l => l.length ≠ 0) → l ∈ lines ∧ l ≠ [] := by
    intro l hl
    rw [List.mem_filter] at hl
    exact ⟨hl.1, by rintro rfl; simp at hl⟩
  have hadm : Admissible ((lines.filter (fun l => l.length ≠ 0)).map (entry o)) := by
    constructor
    · intro e he
      obtain ⟨l, hl, rfl⟩ := List.mem_map.1 he
      obtain ⟨h1, h2⟩ := hmem l hl
      exact hnul l h1 h2
    · have := filter_small o lines; omega
  have hmap : (lines.filter (fun l => l.length ≠ 0)).map (fun l => (fun p => (keyBytes o.utfc p.1, p.2)) <$> parseLine o.tab l) =
      ((lines.filter (fun l => l.length ≠ 0)).map (entry o)).map Except.ok := by
    rw [List.map_map]
    apply List.map_congr_left
    intro l hl
    obtain ⟨l1, l2⟩ := hmem l hl
    obtain ⟨p, hp⟩ := hparse l l1 l2
    simp only [Function.comp, entry, hp]
    rfl
  have hordl : orderLines sorter grow o lines = lines := by
    unfold orderLines
    rw [ho]
    rfl
  obtain ⟨b, d, hb⟩ := C07_build_returns 256 (by omega) (by omega) _ hadm
  have hb0 := hb
  unfold Client.build at hb
  obtain ⟨⟨b1, oks⟩, h1, h2⟩ := bind_eq_ok.1 hb
  obtain ⟨⟨b2, d2⟩, h3, h4⟩ := bind_eq_ok.1 h2
  simp only [pure_eq_ok, Except.ok.injEq, Prod.mk.injEq] at h4
  obtain ⟨rfl, rfl, rfl⟩ := h4
  constructor
  · intro hsort
    have hv := verdicts_sorted (acc := []) (List.pairwise_map.2 hsort) (by simp)
    refine ⟨d2, _, b2, ?_, hb0, hv⟩
    unfold buildDawg
    rw [hordl]
    show (processLines o lines (Builder.newWithSize 256) >>= _) = _
    rw [processLines_ok hmap h1 hv]
    show (lift b1.finish >>= _) = _
    rw [h3]
    rfl
  · intro hsort
    have hv : false ∈ verdicts [] ((lines.filter (fun l => l.length ≠ 0)).map (entry o)) := by
      refine Classical.byContradiction fun hn => hsort ?_
      have := (sorted_of_verdicts (acc := []) (hist := (lines.filter (fun l => l.length ≠ 0)).map (entry o)) (fun ok hok => by
        cases ok with
        | true => rfl
        | false => exact absurd hok hn)).1
      exact List.pairwise_map.1 this
    unfold buildDawg
    rw [hordl]
    show (processLines o lines (Builder.newWithSize 256) >>= _) = _
    rw [processLines_fatal hmap h1 hv]
    rfl

/-- Sorted, with an empty line and a repeated line; and not sorted. -/
example (sorter : LineSorter) (grow : Nat → Nat) : (∃ d, buildDawg sorter grow {} [[97], [], [97], [97, 98], [98]] = .ok d) ∧
    buildDawg sorter grow {} [[98], [97]] = .error .fatal := by
  obtain ⟨h1, _⟩ := C47_unsorted (o := {}) sorter grow (lines := [[97], [], [97], [97, 98], [98]]) rfl (fun l _ _ => ⟨_, rfl⟩) (by decide) (by decide)
  obtain ⟨d, _, _, h2, _⟩ := h1 (by decide)
  obtain ⟨_, h3⟩ := C47_unsorted (o := {}) sorter grow (lines := [[98], [97]]) rfl (fun l _ _ => ⟨_, rfl⟩) (by decide) (by decide)
  exact ⟨⟨d, h2⟩, h3 (by decide)⟩

end Dawg.Props
