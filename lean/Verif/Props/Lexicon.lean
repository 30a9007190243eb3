import Verif.Props.Query
import Verif.Props.Utfc
/-! # C52–C54: from the lexicon to the answers -/
namespace Dawg.Props
open Dawg Dawg.Spec Dawg.Client Dawg.Abs Dawg.Dict Dawg.Guided Dawg.Tool
attribute [-simp] List.length_flatten

theorem mem_add {acc : List (Key × Int)} {k : Key} {v : Int} {e : Key × Int} (h : e ∈ add acc k v) : e ∈ acc ∨ e = (k, v) := by
  unfold add at h
  split at h
  · exact .inr (by simpa using h)
  · split at h
    · exact .inl h
    · split at h
      · rcases List.mem_append.1 h with h | h
        · exact .inl (List.dropLast_subset _ h)
        · exact .inr (by simpa using h)
      · rcases List.mem_append.1 h with h | h
        · exact .inl h
        · exact .inr (by simpa using h)

theorem mem_foldl_add {hist acc : List (Key × Int)} {e : Key × Int} (h : e ∈ hist.foldl (fun acc e => add acc e.1 e.2) acc) : e ∈ acc ∨ e ∈ hist := by
  induction hist generalizing acc with
  | nil => exact .inl h
  | cons x hist ih =>
    rcases ih h with h | h
    · rcases mem_add h with h | h
      · exact .inl h
      · exact .inr (by simp [h])
    · exact .inr (by simp [h])

/-- Accepted pairs were inserted. -/
theorem mem_of_accepted {hist : List (Key × Int)} {e : Key × Int} (h : e ∈ accepted hist) : e ∈ hist := by
  rcases mem_foldl_add h with h | h
  · simp at h
  · exact h

theorem keys_add {acc : List (Key × Int)} {k : Key} {v : Int} (ha : accepts acc k = true) (x : Key) : (∃ e ∈ add acc k v, e.1 = x) ↔ (∃ e ∈ acc, e.1 = x) ∨ k = x := by
  unfold accepts at ha
  unfold add
  cases hl : acc.getLast? with
  | none =>
    rw [List.getLast?_eq_none_iff] at hl
    subst hl
    simp
  | some l =>
    rw [hl] at ha
    simp only [decide_eq_true_eq] at ha
    simp only [if_neg ha]
    obtain ⟨init, hi⟩ := List.getLast?_eq_some_iff.1 hl
    subst hi
    split
    · next hk =>
      subst hk
      simp only [List.dropLast_concat, List.mem_append, List.mem_singleton]
      constructor
      · rintro ⟨e, he | rfl, rfl⟩
        · exact .inl ⟨e, .inl he, rfl⟩
        · exact .inr rfl
      · rintro (⟨e, he | rfl, rfl⟩ | rfl)
        · exact ⟨e, .inl he, rfl⟩
        · exact ⟨_, .inr rfl, rfl⟩
        · exact ⟨_, .inr rfl, rfl⟩
    · simp only [List.mem_append, List.mem_singleton]
      constructor
      · rintro ⟨e, he | rfl, rfl⟩
        · exact .inl ⟨e, he, rfl⟩
        · exact .inr rfl
      · rintro (⟨e, he, rfl⟩ | rfl)
        · exact ⟨e, .inl he, rfl⟩
        · exact ⟨_, .inr rfl, rfl⟩

theorem keys_foldl_add {hist acc : List (Key × Int)} (h : ∀ ok ∈ verdicts acc hist, ok = true) (x : Key) :
    (∃ e ∈ hist.foldl (fun acc e => add acc e.1 e.2) acc, e.1 = x) ↔ (∃ e ∈ acc, e.1 = x) ∨ ∃ e ∈ hist, e.1 = x := by
  induction hist generalizing acc with
  | nil => simp
  | cons e hist ih =>
    rw [verdicts] at h
    rw [List.foldl_cons, ih (fun ok hok => h ok (by simp [hok])), keys_add (h _ (by simp))]
    simp only [List.mem_cons, exists_eq_or_imp, or_assoc]

/-- When every insertion is accepted, the keys are those inserted. -/
theorem keys_accepted {hist : List (Key × Int)} (h : ∀ ok ∈ verdicts [] hist, ok = true) (x : Key) : (∃ e ∈ accepted hist, e.1 = x) ↔ ∃ e ∈ hist, e.1 = x := by
  have := keys_foldl_add h x
  simpa [accepted] using this

theorem filterMap_congr' {α β : Type} {f g : α → Option β} {l : List α} (h : ∀ a ∈ l, f a = g a) : l.filterMap f = l.filterMap g := by
  induction l with
  | nil => rfl
  | cons a l ih => rw [List.filterMap_cons, List.filterMap_cons, h a (by simp), ih (fun a ha => h a (by simp [ha]))]

theorem processLines_congr {o o' : Opts} (h1 : o.tab = o'.tab) (h2 : o.utfc = o'.utfc) : ∀ (ls : List (List UInt8)) (b : Builder), processLines o ls b = processLines o' ls b
  | [], _ => rfl
  | l :: ls, b => by
    have : processLine o b l = processLine o' b l := by unfold processLine; rw [h1, h2]
    rw [processLines, processLines, this]
    cases processLine o' b l with
    | error e => rfl
    | ok r => exact processLines_congr h1 h2 ls r.1

/-- The options that matter for the Dawg. -/
theorem buildDawg_congr {o o' : Opts} (h1 : o.tab = o'.tab) (h2 : o.utfc = o'.utfc) (h3 : o.sort = o'.sort) (sorter : LineSorter) (grow : Nat → Nat) (lines : List (List UInt8)) :
    buildDawg sorter grow o lines = buildDawg sorter grow o' lines := by
  unfold buildDawg orderLines
  rw [h2, h3, processLines_congr h1 h2]

/-! ## C53 -/

/-- The keys of a lexicon: its lines, without the empty ones, each once, in increasing order. -/
def KeysOf (lines : List (List UInt8)) (ks : List Key) : Prop := ks.Pairwise (· < ·) ∧ ∀ k, k ∈ ks ↔ k ∈ lines ∧ k ≠ []

theorem lines_made {ls : List (List UInt8)} {oks b d} (hb : Client.build 256 (ls.map (fun l => (l, (0 : Int)))) = .ok (oks, b, d)) (hok : ∀ ok ∈ oks, ok = true)
    (hnul : ∀ l ∈ ls, (0 : UInt8) ∉ l) (hsz : (ls.map (fun l => l.length + 1)).sum < 2097152) :
    (∃ D, Made (ls.map (fun l => (l, (0 : Int)))) d D) ∧ (∀ k, (∃ e ∈ accepted (ls.map (fun l => (l, (0 : Int)))), e.1 = k) ↔ k ∈ ls) ∧
      ∀ e ∈ accepted (ls.map (fun l => (l, (0 : Int)))), e.2 = 0 := by
  have hadm : Admissible (ls.map (fun l => (l, (0 : Int)))) := by
    refine ⟨fun e he => ?_, ?_⟩
    · obtain ⟨l, hl, rfl⟩ := List.mem_map.1 he
      exact hnul l hl
    · rw [List.map_map, show (fun e : Key × Int => e.1.length + 1) ∘ (fun l => (l, (0 : Int))) = fun l => l.length + 1 from rfl]
      exact Nat.lt_trans hsz (by omega)
  refine ⟨?_, ?_, ?_⟩
  · obtain ⟨d', D, h1, oks', b', h2⟩ := C14_small_builds 256 (by omega) (by omega) (ls.map (fun l => (l, (0 : Int)))) hadm.nulFree (by
      rw [List.map_map, show (fun e : Key × Int => e.1.length + 1) ∘ (fun l => (l, (0 : Int))) = fun l => l.length + 1 from rfl]; exact hsz)
    rw [hb] at h2
    cases h2
    exact ⟨D, h1⟩
  · intro k
    obtain ⟨b', d', h1⟩ := C07_build_returns 256 (by omega) (by omega) _ hadm
    rw [hb] at h1
    simp only [Except.ok.injEq, Prod.mk.injEq] at h1
    rw [h1.1] at hok
    rw [keys_accepted hok]
    constructor
    · rintro ⟨e, he, rfl⟩
      obtain ⟨l, hl, rfl⟩ := List.mem_map.1 he
      exact hl
    · intro hk
      exact ⟨(k, 0), List.mem_map.2 ⟨k, hk, rfl⟩, rfl⟩
  · intro e he
    obtain ⟨l, _, rfl⟩ := List.mem_map.1 (mem_of_accepted he)
    rfl

theorem sorted_lexicon {sorter : LineSorter} (hs : StableSort sorter) (grow : Nat → Nat) {lines : List (List UInt8)} (hnul : ∀ l ∈ lines, (0 : UInt8) ∉ l)
    (hsz : (lines.map (fun l => l.length + 1)).sum < 2097152) : ∃ d D hist, buildDawg sorter grow { sort := true } lines = .ok d ∧ Made hist d D ∧
      (∀ k, (∃ e ∈ accepted hist, e.1 = k) ↔ k ∈ lines ∧ k ≠ []) ∧ ∀ e ∈ accepted hist, e.2 = 0 := by
  obtain ⟨d, ls, hp, h1, oks, b, h2, h3⟩ := C42_sorted_partial hs grow hnul (by omega)
  have hsub : ∀ l ∈ ls, l ∈ lines ∧ l ≠ [] := by
    intro l hl
    have := List.mem_filter.1 (hp.mem_iff.1 hl)
    exact ⟨this.1, by rintro rfl; simp at this⟩
  have hsum : (ls.map (fun l => l.length + 1)).sum ≤ (lines.map (fun l => l.length + 1)).sum := by
    rw [(hp.map _).sum_nat]
    clear hp hsub h1 h2 hsz hnul
    induction lines with
    | nil => simp
    | cons x L ih =>
      rw [List.filter_cons]
      split <;> simp only [List.map_cons, List.sum_cons] <;> omega
  obtain ⟨⟨D, h4⟩, h5, h6⟩ := lines_made h2 h3 (fun l hl => hnul l (hsub l hl).1) (by omega)
  refine ⟨d, D, _, h1, h4, fun k => ?_, h6⟩
  rw [h5]
  constructor
  · exact hsub k
  · rintro ⟨h7, h8⟩
    exact hp.mem_iff.2 (List.mem_filter.2 ⟨h7, by simp [h8]⟩)

/-- **C53**, without a guide: `dawgtool -b -s` on any lexicon of NUL-free lines (below 2 MB), then queries: every NUL-free query is answered with exactly those of its
prefixes that are lines of the lexicon, from short to long, with the value 0. -/
theorem C53_prefix_answers {sorter : LineSorter} (hs : StableSort sorter) (grow : Nat → Nat) (linkSorter : Sorter) (hls : StableSort linkSorter) {lines : List (List UInt8)}
    (hnul : ∀ l ∈ lines, (0 : UInt8) ∉ l) (hsz : (lines.map (fun l => l.length + 1)).sum < 2097152) :
    ∃ d file, buildDawg sorter grow { sort := true } lines = .ok d ∧ buildFile linkSorter { sort := true } d = .ok file ∧
      ∀ (qs : List Key), (∀ q ∈ qs, (0 : UInt8) ∉ q) → ∀ fuel, handleLoad {} fuel file qs = .ok
        (qs.map (fun q => ⟨q, none, ((List.range q.length).filter (fun i => decide (q.take (i + 1) ∈ lines))).map (fun i => (q.take (i + 1), 0))⟩), none) := by
  obtain ⟨d, D, hist, h1, h2, h3, h4⟩ := sorted_lexicon hs grow hnul hsz
  obtain ⟨file, h5⟩ := C45_tool_writes h2 hls { sort := true } (by simp)
  refine ⟨d, file, h1, h5, fun qs hqs fuel => ?_⟩
  have h5' : buildFile linkSorter {} d = .ok file := h5
  obtain ⟨l, k1, k2, _, _, k3, _, _⟩ := C45_tool_roundtrip h2 hls {} h5'
  obtain ⟨k4, k5⟩ := k3 rfl rfl
  have hans : ∀ q ∈ qs, queryPrefixes D q = .ok (((List.range q.length).filter (fun i => decide (q.take (i + 1) ∈ lines))).map (fun i => (q.take (i + 1), 0))) := by
    intro q hq
    rw [C48_no_values_partial h2 h4 (hqs q hq)]
    congr 1
    unfold prefixesOf
    rw [← List.filterMap_eq_map, List.filterMap_filter]
    refine filterMap_congr' fun i hi => ?_
    rw [List.mem_range] at hi
    have hne : q.take (i + 1) ≠ [] := by
      intro hc
      have := congrArg List.length hc
      rw [List.length_take, List.length_nil] at this
      omega
    by_cases hm : q.take (i + 1) ∈ lines
    · obtain ⟨e, e1, e2, e3⟩ := lookup_some ((h3 _).2 ⟨hm, hne⟩)
      rw [e3, h4 e e1]
      simp [hm, stored]
    · rw [lookup_none (fun hc => hm ((h3 _).1 hc).1)]
      simp [hm]
  have h6 := answers_map (o := {}) (l := l) (fuel := fuel) (qs := qs)
    (f := fun q => ⟨q, none, ((List.range q.length).filter (fun i => decide (q.take (i + 1) ∈ lines))).map (fun i => (q.take (i + 1), 0))⟩) (fun q hq c => by
      refine ⟨c, ?_⟩
      unfold answer
      rw [k4]
      simp only [k2]
      rw [hans q hq]
      simp only [ok_bind, pure_eq_ok, List.map_map]
      rfl) Completers.new
  unfold handleLoad
  rw [k1]
  change (lift (answers {} l fuel Completers.new qs) >>= _) = _
  rw [h6]
  rfl

/-- **C53**, with `-g`: every NUL-free query is answered with exactly the lines that start with it, in increasing order, each once (followed by a NUL byte). -/
theorem C53_completion_answers {sorter : LineSorter} (hs : StableSort sorter) (grow : Nat → Nat) (linkSorter : Sorter) (hls : StableSort linkSorter) {lines : List (List UInt8)}
    (hnul : ∀ l ∈ lines, (0 : UInt8) ∉ l) (hsz : (lines.map (fun l => l.length + 1)).sum < 2097152) :
    ∃ d file ks, buildDawg sorter grow { sort := true, guide := true } lines = .ok d ∧ buildFile linkSorter { sort := true, guide := true } d = .ok file ∧ KeysOf lines ks ∧
      ∀ (qs : List Key), (∀ q ∈ qs, (0 : UInt8) ∉ q) → ∀ fuel, ks.length < fuel → handleLoad { guide := true } fuel file qs = .ok
        (qs.map (fun q => ⟨q, none, (ks.filter (fun k => q.isPrefixOf k)).map (fun k => (k ++ [0], 0))⟩), none) := by
  obtain ⟨d, D, hist, h1, h2, h3, h4⟩ := sorted_lexicon hs grow hnul hsz
  obtain ⟨file, h5⟩ := C45_tool_writes h2 hls { guide := true } (by simp)
  refine ⟨d, file, (accepted hist).map (·.1), (buildDawg_congr (o := { sort := true, guide := true }) (o' := { sort := true }) rfl rfl rfl sorter grow lines).trans h1, h5, ⟨?_, ?_⟩, ?_⟩
  · rw [List.pairwise_map]
    exact accepted_sorted hist
  · intro k
    rw [← h3, List.mem_map]
  · intro qs hqs fuel hfuel
    rw [List.length_map] at hfuel
    rw [C49_completions_partial h2 hls rfl rfl h5 (fun q hq => noClash_of_values (fun e he => by rw [h4 e he]; rfl) (hqs q hq)) (fun hc => by
      obtain ⟨e, he, hk⟩ := hc.2
      exact ((h3 []).1 ⟨e, he, hk⟩).2 rfl) hfuel]
    congr 2
    apply List.map_congr_left
    intro q hq
    congr 1
    unfold withNul extensions
    rw [List.map_map, List.filter_map, List.map_map]
    apply List.map_congr_left
    intro e he
    simp only [Function.comp_apply]
    rw [h4 e (List.mem_filter.1 he).1]
    rfl

/-- Lines out of order, with a repetition and an empty line. -/
example : ∃ d file, buildDawg (fun less l => l.mergeSort (fun a b => !less b a)) (fun n => n) { sort := true } [[98], [97, 98], [], [97], [98]] = .ok d ∧
    buildFile insertionSort { sort := true } d = .ok file ∧ handleLoad {} 0 file [[97, 98, 99], [99]] = .ok ([⟨[97, 98, 99], none, [([97], 0), ([97, 98], 0)]⟩, ⟨[99], none, []⟩], none) := by
  obtain ⟨d, file, h1, h2, h3⟩ := C53_prefix_answers (exists_stableSort _) (fun n => n) insertionSort insertionSort_stableSort (lines := [[98], [97, 98], [], [97], [98]])
    (by decide) (by decide)
  exact ⟨d, file, h1, h2, h3 [[97, 98, 99], [99]] (by decide) 0⟩

/-! ## C52 -/

/-- The full claim C52: whatever is stored with `-u` is found by a query. -/
def C52_statement : Prop := ∀ (sorter : LineSorter) (grow : Nat → Nat) (linkSorter : Sorter), StableSort sorter → StableSort linkSorter → ∀ (lines : List (List UInt8)) d file,
  (∀ l ∈ lines, (0 : UInt8) ∉ l) → buildDawg sorter grow { utfc := true } lines = .ok d → buildFile linkSorter { utfc := true } d = .ok file →
  ∀ l ∈ lines, l ≠ [] → ∃ hits, handleLoad { utfc := true } 0 file [l] = .ok ([⟨l, none, hits⟩], none) ∧ (l, 0) ∈ hits

theorem load_none {hist d D} {linkSorter : Sorter} (h : Made hist d D) (hs : StableSort linkSorter) {o : Opts} (hr : o.ranked = false) (hgd : o.guide = false)
    (hi : o.index = false) {file : List UInt8} (hf : buildFile linkSorter o d = .ok file) {q : Key} (hc : NoClash hist q) (fuel : Nat) :
    handleLoad o fuel file [q] = .ok ([⟨q, none, (prefixesOf (accepted hist) q).map (fun e => (e.1, Int.ofNat e.2))⟩], none) := by
  obtain ⟨l, h1, h2, _, _, h3, _, _⟩ := C45_tool_roundtrip h hs o hf
  obtain ⟨h4, h5⟩ := h3 hr hgd
  have h6 := answers_map (o := o) (l := l) (fuel := fuel) (qs := [q])
    (f := fun q => ⟨q, none, (prefixesOf (accepted hist) q).map (fun e => (e.1, Int.ofNat e.2))⟩) (fun q' hq c => by
      refine ⟨c, ?_⟩
      rw [List.mem_singleton] at hq
      subst hq
      unfold answer
      rw [h4]
      simp only [h2]
      rw [C48_prefixes_partial h hc]
      rfl) Completers.new
  unfold handleLoad
  rw [h1]
  change (lift (answers o l fuel Completers.new [q]) >>= _) = _
  rw [h6]
  change (lift (totals o l) >>= _) = _
  unfold totals
  rw [hi]
  rfl

/-- **C52 is false**: `-u` encodes the keys of the lexicon but not the queries; with the lexicon "é", the query "é" finds nothing. -/
theorem C52_utfc_false : ¬ C52_statement := by
  intro hs
  obtain ⟨h1, _⟩ := C47_unsorted (o := { utfc := true }) (fun less l => l.mergeSort (fun a b => !less b a)) (fun n => n) (lines := [[0xC3, 0xA9]]) rfl (fun l _ _ => ⟨_, rfl⟩)
    (by decide +kernel) (by decide +kernel)
  obtain ⟨d, oks, b, h2, h3, _⟩ := h1 (by decide)
  rw [show ([[0xC3, 0xA9]].filter (fun l : List UInt8 => l.length ≠ 0)).map (entry { utfc := true }) = [([128, 233], 0)] by decide +kernel] at h3
  obtain ⟨d', D, h4, oks', b', h5⟩ := C14_small_builds 256 (by omega) (by omega) [([128, 233], 0)] (by decide) (by decide)
  rw [h3] at h5
  cases h5
  obtain ⟨file, h6⟩ := C45_tool_writes h4 insertionSort_stableSort { utfc := true } (by simp)
  obtain ⟨hits, h7, h8⟩ := hs _ _ _ (exists_stableSort _) insertionSort_stableSort _ d file (by decide) h2 h6 [0xC3, 0xA9] (by simp) (by simp)
  rw [load_none h4 insertionSort_stableSort rfl rfl rfl h6 (.of_bytes (by decide)) 0] at h7
  simp only [Except.ok.injEq, Prod.mk.injEq, List.cons.injEq, Answer.mk.injEq, true_and, and_true] at h7
  rw [← h7] at h8
  exact absurd h8 (by decide)

theorem encode_ascii_char : ∀ n < 128, n ≠ 0 → Utfc.encodeChar Utfc.State.init n = ([Utfc.byte n], Utfc.State.init) := by decide +kernel

theorem toNat_ofNat_ascii : ∀ n < 128, (Char.ofNat n).toNat = n := by decide

/-- ASCII strings are their own encodings. -/
theorem keyBytes_ascii {l : List UInt8} (h : ∀ b ∈ l, 0 < b ∧ b < 128) : keyBytes true l = l := by
  unfold keyBytes runes
  simp only [if_true]
  rw [Utfc.encode_eq]
  induction l with
  | nil => rfl
  | cons b l ih =>
    obtain ⟨h1, h2⟩ := h b (by simp)
    have h1' : b.toNat ≠ 0 := by
      intro hc
      rw [UInt8.lt_iff_toNat_lt, hc] at h1
      exact absurd h1 (by decide)
    have h2' : b.toNat < 128 := by simpa [UInt8.lt_iff_toNat_lt] using h2
    have hc : (Char.ofNat b.toNat).toNat = b.toNat := toNat_ofNat_ascii _ h2'
    have hr : runesLoop (l.length + 1) (b :: l) = Char.ofNat b.toNat :: runesLoop l.length l := by
      conv => lhs; unfold runesLoop
      exact if_pos h2'
    rw [List.length_cons, hr, Utfc.encFrom, hc, encode_ascii_char _ h2' h1']
    simp only
    rw [ih (fun b hb => h b (by simp [hb]))]
    simp [Utfc.byte]

/-- **C52**, for the ASCII lines of any lexicon. -/
theorem C52_ascii_partial (sorter : LineSorter) (grow : Nat → Nat) {linkSorter : Sorter} (hs : StableSort linkSorter) {lines : List (List UInt8)} {d file}
    (hsz : (lines.map (fun l => (entry { utfc := true } l).1.length + 1)).sum < 2097152) (hd : buildDawg sorter grow { utfc := true } lines = .ok d)
    (hf : buildFile linkSorter { utfc := true } d = .ok file) : ∀ l ∈ lines, l ≠ [] → (∀ b ∈ l, 0 < b ∧ b < 128) →
    ∀ fuel, ∃ hits, handleLoad { utfc := true } fuel file [l] = .ok ([⟨l, none, hits⟩], none) ∧ (l, 0) ∈ hits := by
  intro l hl hne hascii fuel
  obtain ⟨h1, h2⟩ := C47_unsorted (o := { utfc := true }) sorter grow (lines := lines) rfl (fun l _ _ => ⟨_, rfl⟩) (fun l _ _ => C37_no_nul _) (by omega)
  have hsort := Classical.byContradiction fun hn => by
    have := h2 hn
    rw [hd] at this
    cases this
  obtain ⟨d', oks, b, h3, h4, h5⟩ := h1 hsort
  rw [hd] at h3
  cases h3
  have hnul : ∀ e ∈ (lines.filter (fun l => l.length ≠ 0)).map (entry { utfc := true }), (0 : UInt8) ∉ e.1 := by
    intro e he
    obtain ⟨x, _, rfl⟩ := List.mem_map.1 he
    exact C37_no_nul _
  have hsum := filter_small { utfc := true } lines
  obtain ⟨d', D, h6, oks', b', h7⟩ := C14_small_builds 256 (by omega) (by omega) _ hnul (by omega)
  rw [h4] at h7
  cases h7
  have hent : entry { utfc := true } l = (l, 0) := by
    show (keyBytes true l, (0 : Int)) = (l, 0)
    rw [keyBytes_ascii hascii]
  have hmem : (l, (0 : Int)) ∈ (lines.filter (fun l => l.length ≠ 0)).map (entry { utfc := true }) :=
    List.mem_map.2 ⟨l, List.mem_filter.2 ⟨hl, by simp [hne]⟩, hent⟩
  have hverd : oks = verdicts [] ((lines.filter (fun l => l.length ≠ 0)).map (entry { utfc := true })) := by
    obtain ⟨b'', d'', k⟩ := C07_build_returns 256 (by omega) (by omega) _ h6.1
    rw [h4] at k
    simp only [Except.ok.injEq, Prod.mk.injEq] at k
    exact k.1
  rw [hverd] at h5
  have hkey := (keys_accepted h5 l).2 ⟨_, hmem, rfl⟩
  refine ⟨_, load_none h6 hs rfl rfl rfl hf (.of_key hkey) fuel, ?_⟩
  obtain ⟨e, e1, e2, e3⟩ := lookup_some hkey
  have he0 : e.2 = 0 := by
    obtain ⟨x, _, hx⟩ := List.mem_map.1 (mem_of_accepted e1)
    rw [← hx]
    rfl
  rw [List.mem_map]
  refine ⟨(l, 0), ?_, rfl⟩
  unfold prefixesOf
  rw [List.mem_filterMap]
  refine ⟨l.length - 1, List.mem_range.2 ?_, ?_⟩
  · cases l with
    | nil => exact absurd rfl hne
    | cons => simp
  · have : l.length - 1 + 1 = l.length := by
      cases l with
      | nil => exact absurd rfl hne
      | cons => simp
    rw [this, List.take_length, e3, he0]
    rfl

/-- "a" is found beside "é". -/
example : ∃ d file, buildDawg (fun _ l => l) (fun n => n) { utfc := true } [[97], [0xC3, 0xA9]] = .ok d ∧ buildFile insertionSort { utfc := true } d = .ok file ∧
    ∃ hits, handleLoad { utfc := true } 0 file [[97]] = .ok ([⟨[97], none, hits⟩], none) ∧ ([97], 0) ∈ hits := by
  obtain ⟨h1, _⟩ := C47_unsorted (o := { utfc := true }) (fun _ l => l) (fun n => n) (lines := [[97], [0xC3, 0xA9]]) rfl (fun l _ _ => ⟨_, rfl⟩)
    (by decide +kernel) (by decide +kernel)
  obtain ⟨d, oks, b, h2, h3, _⟩ := h1 (by decide +kernel)
  obtain ⟨d', D, h4, oks', b', h5⟩ := C14_small_builds 256 (by omega) (by omega)
    (([[97], [0xC3, 0xA9]].filter (fun l : List UInt8 => l.length ≠ 0)).map (entry { utfc := true })) (by decide +kernel) (by decide +kernel)
  rw [h3] at h5
  cases h5
  obtain ⟨file, h6⟩ := C45_tool_writes h4 insertionSort_stableSort { utfc := true } (by simp)
  exact ⟨d, file, h2, h6, C52_ascii_partial _ _ insertionSort_stableSort (by decide +kernel) h2 h6 [97] (by simp) (by simp) (by decide) 0⟩

/-! ## C54 -/

/-- The full claim C54: no lexicon makes `dawgtool -b` panic. -/
def C54_statement : Prop := ∀ (sorter : LineSorter) (grow : Nat → Nat) (o : Opts) (lines : List (List UInt8)), StableSort sorter →
  buildDawg sorter grow o lines ≠ .error (.fault .panic)

/-- **C54 is false**: with `-t`, a line without a tab. -/
theorem C54_malformed_false : ¬ C54_statement := by
  intro hs
  refine hs (fun less l => l.mergeSort (fun a b => !less b a)) (fun n => n) { tab := true } [[97]] (exists_stableSort _) ?_
  rfl

theorem processLines_returns {o : Opts} : ∀ (lines : List (List UInt8)) (hist : List (Key × Int)) (b : Builder), insertAll (Builder.newWithSize 256) hist = .ok (b, verdicts [] hist) →
    (∀ l ∈ lines, l ≠ [] → parseLine o.tab l ≠ .error (.fault .panic)) → Admissible (hist ++ lines.map (entry o)) →
    processLines o lines b = .error .fatal ∨ ∃ b' hist', processLines o lines b = .ok b' ∧ Admissible hist' ∧
      insertAll (Builder.newWithSize 256) hist' = .ok (b', verdicts [] hist') := by
  intro lines
  induction lines with
  | nil =>
    intro hist b hb _ hadm
    exact .inr ⟨b, hist, rfl, by simpa using hadm, hb⟩
  | cons l lines ih =>
    intro hist b hb hp hadm
    by_cases hl : l.length = 0
    · rw [processLines, processLine, if_pos hl]
      refine ih hist b hb (fun l hl => hp l (by simp [hl])) ?_
      have := hadm
      refine ⟨fun e he => this.nulFree e ?_, ?_⟩
      · rcases List.mem_append.1 he with he | he
        · exact List.mem_append_left _ he
        · exact List.mem_append_right _ (by rw [List.map_cons]; exact List.mem_cons_of_mem _ he)
      · have := this.small
        simp only [List.map_append, List.sum_append, List.map_cons, List.sum_cons] at this ⊢
        omega
    · have hne : l ≠ [] := by rintro rfl; simp at hl
      cases hpl : parseLine o.tab l with
      | error e =>
        left
        have he : e = .fatal := by
          unfold parseLine at hpl
          split at hpl
          · cases hpl
          · split at hpl
            · split at hpl
              · cases hpl; rfl
              · cases hpl
            · exfalso
              refine hp l (by simp) hne ?_
              unfold parseLine
              rw [if_neg (by assumption)]
              split
              · next h => exact absurd (by assumption) (by rintro h'; simp_all)
              · rfl
        subst he
        rw [processLines, processLine, if_neg hl, hpl]
        rfl
      | ok p =>
        have hent : entry o l = (keyBytes o.utfc p.1, p.2) := by
          unfold entry; rw [hpl]
        rw [List.map_cons, hent, List.append_cons] at hadm
        have hadm1 : Admissible (hist ++ [(keyBytes o.utfc p.1, p.2)]) := by
          refine ⟨fun e he => hadm.nulFree e (List.mem_append_left _ he), ?_⟩
          have := hadm.small
          rw [List.map_append, List.sum_append] at this
          omega
        obtain ⟨b1, b2, e1, e2⟩ := C01_accepts_in_order 256 (by omega) (by omega) hist (keyBytes o.utfc p.1) p.2 hadm1
        rw [hb] at e1
        simp only [Except.ok.injEq, Prod.mk.injEq, and_true] at e1
        subst e1
        have hpr : processLine o b l = if accepts (accepted hist) (keyBytes o.utfc p.1) then .ok (b2, true) else .error .fatal := by
          rw [processLine, if_neg hl, hpl]
          show (lift (b.insertKeyValue (keyBytes o.utfc p.1) (keyBytes o.utfc p.1).length p.2) >>= _) = _
          rw [show b.insertKeyValue (keyBytes o.utfc p.1) (keyBytes o.utfc p.1).length p.2 = _ from e2]
          cases accepts (accepted hist) (keyBytes o.utfc p.1) <;> rfl
        rw [processLines, hpr]
        cases ha : accepts (accepted hist) (keyBytes o.utfc p.1) with
        | false => exact .inl rfl
        | true =>
          refine ih _ b2 ?_ (fun l hl => hp l (by simp [hl])) hadm
          obtain ⟨b3, d3, h3⟩ := C07_build_returns 256 (by omega) (by omega) _ hadm1
          unfold Client.build at h3
          obtain ⟨⟨b4, oks⟩, h4, h5⟩ := bind_eq_ok.1 h3
          obtain ⟨⟨b5, d5⟩, h6, h7⟩ := bind_eq_ok.1 h5
          simp only [pure_eq_ok, Except.ok.injEq, Prod.mk.injEq] at h7
          obtain ⟨rfl, rfl, rfl⟩ := h7
          rw [h4]
          rw [insertAll_append, hb] at h4
          simp only [ok_bind, insertAll] at h4
          rw [show b.insertStringValue (keyBytes o.utfc p.1) p.2 = _ from e2] at h4
          simp only [ok_bind, pure_eq_ok, Except.ok.injEq, Prod.mk.injEq] at h4
          rw [h4.1]

/-- **C54**, when with `-t` every line has a tab: whatever the lines are otherwise (not sorted, numbers that are not numbers or out of range, …), the program
ends with a Dawg or with an error message. -/
theorem C54_no_panic_partial {o : Opts} {sorter : LineSorter} (hs : StableSort sorter) (grow : Nat → Nat) {lines : List (List UInt8)}
    (hp : o.tab = true → ∀ l ∈ lines, l ≠ [] → 9 ∈ l) (hnul : ∀ l ∈ lines, (0 : UInt8) ∉ (entry o l).1)
    (hsz : (lines.map (fun l => (entry o l).1.length + 1)).sum < 1073741824) :
    buildDawg sorter grow o lines = .error .fatal ∨ ∃ d, buildDawg sorter grow o lines = .ok d := by
  have hperm : (orderLines sorter grow o lines).Perm lines := by
    unfold orderLines
    split
    · exact hs.perm _ _
    · exact .refl _
  have hparse : ∀ l ∈ orderLines sorter grow o lines, l ≠ [] → parseLine o.tab l ≠ .error (.fault .panic) := by
    intro l hl hne
    unfold parseLine
    cases ht : o.tab with
    | false => simp
    | true =>
      have h9 := hp ht l (hperm.mem_iff.1 hl) hne
      simp only [Bool.not_true, Bool.false_eq_true, if_false]
      split
      · split <;> simp
      · next h =>
        exfalso
        clear hnul hsz hp hperm hl
        suffices ∀ l : List UInt8, 9 ∈ l → ∃ k v r, splitTab l = k :: v :: r by
          obtain ⟨k, v, r, e⟩ := this l h9
          exact h k v r e
        intro l
        induction l with
        | nil => simp
        | cons b l ih =>
          intro h
          have hne : ∃ p ps, splitTab l = p :: ps := by
            cases l with
            | nil => exact ⟨_, _, rfl⟩
            | cons c l =>
              rw [splitTab]
              cases splitTab l with
              | nil => exact ⟨_, _, rfl⟩
              | cons => simp only; split <;> exact ⟨_, _, rfl⟩
          rw [splitTab]
          obtain ⟨p, ps, hps⟩ := hne
          rw [hps]
          simp only
          split
          · exact ⟨_, _, _, rfl⟩
          · next hb =>
            obtain ⟨k, v, r, e⟩ := ih (by
              rcases List.mem_cons.1 h with h | h
              · exact absurd h.symm hb
              · exact h)
            rw [hps] at e
            cases e
            exact ⟨_, _, _, rfl⟩
  have hadm : Admissible ([] ++ (orderLines sorter grow o lines).map (entry o)) := by
    refine ⟨fun e he => ?_, ?_⟩
    · obtain ⟨l, hl, rfl⟩ := List.mem_map.1 he
      exact hnul l (hperm.mem_iff.1 hl)
    · rw [List.nil_append, List.map_map]
      exact (hperm.map (fun l => (entry o l).1.length + 1)).sum_nat ▸ hsz
  rcases processLines_returns (orderLines sorter grow o lines) [] (Builder.newWithSize 256) rfl hparse hadm with h | ⟨b, hist, h1, h2, h3⟩
  · left
    unfold buildDawg
    rw [show processLines o (orderLines sorter grow o lines) Builder.new = _ from h]
    rfl
  · right
    obtain ⟨b3, d3, h4⟩ := C07_build_returns 256 (by omega) (by omega) _ h2
    unfold Client.build at h4
    rw [h3] at h4
    simp only [ok_bind] at h4
    obtain ⟨⟨b5, d5⟩, h6, h7⟩ := bind_eq_ok.1 h4
    refine ⟨d5, ?_⟩
    unfold buildDawg
    rw [show processLines o (orderLines sorter grow o lines) Builder.new = _ from h1]
    change (lift b.finish >>= _) = _
    rw [h6]
    rfl

/-- A number that is not a number. -/
example : buildDawg (fun less l => l.mergeSort (fun a b => !less b a)) (fun n => n) { tab := true } [[97, 9, 49], [98, 9, 120]] = .error .fatal := by decide +kernel

end Dawg.Props
