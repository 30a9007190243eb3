import Verif.Props.TabSort
import Verif.Props.Canonical
/-! # C108: which value a repeated key keeps in dawgtool -t -/
namespace Dawg.Props
open Dawg Dawg.Spec Dawg.Client Dawg.Abs Dawg.Dict Dawg.Guided Dawg.Tool
attribute [-simp] List.length_flatten

/-- Later insertions of other keys leave an accepted pair alone. -/
theorem foldl_keeps {k : Key} {v : Int} : ∀ (post acc : List (Key × Int)), (k, v) ∈ acc → (∀ e ∈ post, e.1 ≠ k) → (k, v) ∈ post.foldl (fun acc e => add acc e.1 e.2) acc
  | [], _, h, _ => h
  | e :: post, acc, h, hk => by
    refine foldl_keeps post _ ?_ (fun x hx => hk x (by simp [hx]))
    have he := hk e (by simp)
    rcases List.eq_nil_or_concat acc with rfl | ⟨init, ⟨l, w⟩, rfl⟩
    · simp at h
    · simp only [add, List.concat_eq_append, List.getLast?_append, List.getLast?_singleton, Option.some_or] at h ⊢
      split
      · exact h
      · split
        · next h1 h2 =>
          rw [List.dropLast_concat]
          rcases List.mem_append.1 h with h | h
          · simp [h]
          · simp only [List.mem_singleton, Prod.mk.injEq] at h
            exact absurd (h2.trans h.1.symm) he
        · exact List.mem_append_left _ h

/-- The last insertion of a key decides. -/
theorem foldl_last {k : Key} {v : Int} {post : List (Key × Int)} (hk : ∀ e ∈ post, e.1 ≠ k) : ∀ (pre acc : List (Key × Int)), (∀ ok ∈ verdicts acc (pre ++ (k, v) :: post), ok = true) →
    (k, v) ∈ (pre ++ (k, v) :: post).foldl (fun acc e => add acc e.1 e.2) acc
  | [], acc, h => by
    have h1 : accepts acc k = true := h _ (by simp [verdicts])
    refine foldl_keeps post _ ?_ hk
    rcases List.eq_nil_or_concat acc with rfl | ⟨init, ⟨l, w⟩, rfl⟩
    · simp [add]
    · simp only [accepts, add, List.concat_eq_append, List.getLast?_append, List.getLast?_singleton, Option.some_or, decide_eq_true_eq] at h1 ⊢
      rw [if_neg h1]
      split <;> simp
  | e :: pre, acc, h => foldl_last hk pre _ (fun ok hok => h ok (by simp [verdicts, hok]))

/-- What has been inserted when dawgtool has built a Dawg, in order. -/
theorem ordered_history {sorter : LineSorter} {grow : Nat → Nat} {o : Opts} {lines : List (List UInt8)} {d : Dawg} (h : buildDawg sorter grow o lines = .ok d) :
    (∃ oks b, Client.build 256 (entries o (orderLines sorter grow o lines)) = .ok (oks, b, d) ∧ ∀ ok ∈ oks, ok = true) ∧
      ∀ l ∈ orderLines sorter grow o lines, l ≠ [] → ∃ p, parseLine o.tab l = .ok p := by
  unfold buildDawg at h
  obtain ⟨b, h1, h2⟩ := bind_ok.1 h
  obtain ⟨oks, k1, k2, k3⟩ := processLines_insertAll h1
  obtain ⟨⟨b', d'⟩, h3, h4⟩ := bind_ok.1 h2
  cases h4
  have h3' : b.finish = .ok (b', d) := by
    revert h3
    cases b.finish with
    | error f => intro h3; cases h3
    | ok r => intro h3; cases h3; rfl
  refine ⟨⟨oks, b', ?_, k2⟩, k3⟩
  unfold Client.build entries
  change (insertAll Builder.new _ >>= _) = _
  rw [k1]
  simp only [ok_bind, h3', pure_eq_ok]

theorem ordered_perm {sorter : LineSorter} (hs : StableSort sorter) (grow : Nat → Nat) (o : Opts) (lines : List (List UInt8)) : (orderLines sorter grow o lines).Perm lines := by
  unfold orderLines
  split
  · exact hs.perm _ _
  · exact List.Perm.refl _

/-- The last of the ordered lines with a key decides about its value. -/
theorem last_decides {sorter : LineSorter} (hs : StableSort sorter) {grow : Nat → Nat} {o : Opts} {lines : List (List UInt8)} {d : Dawg} {D : Dictionary}
    (h : buildDawg sorter grow o lines = .ok d) (hb : d.build = .ok (some D)) (hadm : Admissible (entries o lines)) {pre post : List (List UInt8)} {l k : List UInt8} {v : Int}
    (hm : orderLines sorter grow o lines = pre ++ l :: post) (hl : l ≠ []) (hp : parseLine o.tab l = .ok (k, v))
    (hlast : ∀ x ∈ post, ∀ k' w, parseLine o.tab x = .ok (k', w) → x ≠ [] → keyBytes o.utfc k' ≠ keyBytes o.utfc k) : D.findString (keyBytes o.utfc k) = .ok v := by
  obtain ⟨⟨oks, b, h1, h2⟩, hall⟩ := ordered_history h
  have hperm : (entries o (orderLines sorter grow o lines)).Perm (entries o lines) := ((ordered_perm hs grow o lines).filter _).map _
  have hadm' : Admissible (entries o (orderLines sorter grow o lines)) := ⟨fun e he => hadm.nulFree e (hperm.mem_iff.1 he), by rw [(hperm.map _).sum_nat]; exact hadm.small⟩
  have hmade : Made (entries o (orderLines sorter grow o lines)) d D := ⟨hadm', 256, oks, b, by omega, by omega, h1, hb⟩
  obtain ⟨b'', d'', k3⟩ := C07_build_returns 256 (by omega) (by omega) _ hadm'
  rw [h1] at k3
  simp only [Except.ok.injEq, Prod.mk.injEq] at k3
  rw [k3.1] at h2
  have he : entry o l = (keyBytes o.utfc k, v) := by simp only [entry, hp]
  have hsplit : entries o (orderLines sorter grow o lines) = entries o pre ++ (keyBytes o.utfc k, v) :: entries o post := by
    unfold entries
    rw [hm, List.filter_append, List.filter_cons_of_pos (by simpa using hl), List.map_append, List.map_cons, he]
  have hin : (keyBytes o.utfc k, v) ∈ accepted (entries o (orderLines sorter grow o lines)) := by
    rw [hsplit] at h2 ⊢
    refine foldl_last ?_ _ _ h2
    intro e he
    obtain ⟨x, hx, rfl⟩ := List.mem_map.1 he
    rw [List.mem_filter] at hx
    have hx2 : x ≠ [] := by simpa using hx.2
    obtain ⟨p, hp'⟩ := hall x (by rw [hm]; simp [hx.1]) hx2
    have : (entry o x).1 = keyBytes o.utfc p.1 := by simp only [entry, hp']
    rw [this]
    exact hlast x hx.1 p.1 p.2 hp' hx2
  have hv : 0 ≤ v ∧ v < 2147483648 := by
    unfold parseLine at hp
    split at hp
    · cases hp
      omega
    · split at hp
      · split at hp
        · cases hp
        · cases hp
          unfold clamp
          split <;> (try split) <;> omega
      · cases hp
  have := (C10_inserted_found hmade _ hin).2.1
  rw [this, stored_of_nonneg hv.1 hv.2]

/-- Small lexicons give a dictionary. -/
theorem small_dictionary {sorter : LineSorter} (hs : StableSort sorter) {grow : Nat → Nat} {o : Opts} {lines : List (List UInt8)} {d : Dawg} (h : buildDawg sorter grow o lines = .ok d)
    (hnul : ∀ e ∈ entries o lines, (0 : UInt8) ∉ e.1) (hsz : ((entries o lines).map (fun e => e.1.length + 1)).sum < 2097152) : ∃ D, d.build = .ok (some D) := by
  obtain ⟨⟨oks, b, h1, _⟩, _⟩ := ordered_history h
  have hperm : (entries o (orderLines sorter grow o lines)).Perm (entries o lines) := ((ordered_perm hs grow _ lines).filter _).map _
  obtain ⟨d', D, ⟨_, _, _, _, _, _, _, hD⟩, oks', b', h2⟩ := C14_small_builds 256 (by omega) (by omega) (entries o (orderLines sorter grow o lines))
    (fun e he => hnul e (hperm.mem_iff.1 he)) (by rw [(hperm.map _).sum_nat]; exact hsz)
  rw [h1] at h2
  cases h2
  exact ⟨D, hD⟩

/-- **C108.** The claim for the options `o`: of several lines with a key, the last one in the lexicon decides about the value that the dictionary has for it. -/
def C108_statement (o : Opts) : Prop := ∀ (sorter : LineSorter), StableSort sorter → ∀ (grow : Nat → Nat) (lines : List (List UInt8)) (d : Dawg) (D : Dictionary),
  buildDawg sorter grow o lines = .ok d → d.build = .ok (some D) → Admissible (entries o lines) → ∀ (pre post : List (List UInt8)) (l k : List UInt8) (v : Int),
    lines = pre ++ l :: post → l ≠ [] → parseLine o.tab l = .ok (k, v) → (∀ x ∈ post, ∀ k' w, parseLine o.tab x = .ok (k', w) → x ≠ [] → keyBytes o.utfc k' ≠ keyBytes o.utfc k) →
      D.findString (keyBytes o.utfc k) = .ok v

/-- The lines "a\t9" and "a\t10". -/
def linesA : List (List UInt8) := [[97, 9, 57], [97, 9, 49, 48]]

/-- **C108** without `-s`: the claim is true for all other options. -/
theorem C108_unsorted_partial {o : Opts} (ho : o.sort = false) : C108_statement o := by
  intro sorter hs grow lines d D h hb hadm pre post l k v he hl hp hlast
  refine last_decides hs h hb hadm (pre := pre) (post := post) ?_ hl hp hlast
  unfold orderLines
  rw [if_neg (by simp [ho]), he]

/-- Without `-s`, the lines "a\t9" and "a\t10" give "a" the value 10. -/
example (sorter : LineSorter) (hs : StableSort sorter) (grow : Nat → Nat) : ∃ d D, buildDawg sorter grow { tab := true } linesA = .ok d ∧ d.build = .ok (some D) ∧ D.findString [97] = .ok 10 := by
  have hd : ∃ d, buildDawg sorter grow { tab := true } linesA = .ok d := by
    have h : (processLines { tab := true } linesA Builder.new >>= fun b => lift b.finish).isOk = true := by decide +kernel
    have e : buildDawg sorter grow { tab := true } linesA = (do
      let (_, d) ← processLines { tab := true } linesA Builder.new >>= fun b => lift b.finish
      return d) := by
      unfold buildDawg
      rw [bind_assoc]
      rfl
    rw [e]
    revert h
    cases (processLines { tab := true } linesA Builder.new >>= fun b => lift b.finish) with
    | error x => intro h; cases h
    | ok r => intro _; exact ⟨r.2, rfl⟩
  obtain ⟨d, hd⟩ := hd
  obtain ⟨D, hD⟩ := small_dictionary hs hd (by decide) (by decide)
  exact ⟨d, D, hd, hD, C108_unsorted_partial (o := { tab := true }) rfl sorter hs grow linesA d D hd hD ⟨by decide, by decide⟩ [[97, 9, 57]] [] [97, 9, 49, 48] [97] 10 rfl (by simp)
    (show parseLine true _ = _ by decide) (by simp)⟩

theorem split_last {α : Type} [DecidableEq α] {l : List α} {x : α} (h : x ∈ l) : ∃ pre post, l = pre ++ x :: post ∧ x ∉ post := by
  obtain ⟨a, b, h1, h2⟩ := List.eq_append_cons_of_mem (List.mem_reverse.2 h)
  refine ⟨b.reverse, a.reverse, ?_, by simpa using h2⟩
  rw [← List.reverse_reverse l, h1]
  simp

theorem last_split {α : Type} {a b c d : List α} {x : α} (h : a ++ x :: b = c ++ x :: d) (hb : x ∉ b) (hd : x ∉ d) : b = d := by
  rcases List.append_eq_append_iff.1 h with ⟨e, _, h2⟩ | ⟨e, _, h2⟩
  · cases e with
    | nil => simpa using h2
    | cons y e =>
      simp only [List.cons_append, List.cons.injEq] at h2
      exact absurd (by rw [h2.2]; simp) hb
  · cases e with
    | nil => simpa using h2.symm
    | cons y e =>
      simp only [List.cons_append, List.cons.injEq] at h2
      exact absurd (by rw [h2.2]; simp) hd

/-- **C108** with `-s`, without `-u`: the line whose text is the greatest decides, wherever it is. -/
theorem C108_sorted_partial {sorter : LineSorter} (hs : StableSort sorter) {grow : Nat → Nat} {o : Opts} (ho : o.sort = true) (hu : o.utfc = false) {lines : List (List UInt8)} {d : Dawg}
    {D : Dictionary} (h : buildDawg sorter grow o lines = .ok d) (hb : d.build = .ok (some D)) (hadm : Admissible (entries o lines)) {l k : List UInt8} {v : Int} (hin : l ∈ lines)
    (hl : l ≠ []) (hp : parseLine o.tab l = .ok (k, v)) (hmax : ∀ x ∈ lines, ∀ w, parseLine o.tab x = .ok (k, w) → ¬ l < x) : D.findString k = .ok v := by
  have hord : orderLines sorter grow o lines = sorter bytesLess lines := by
    unfold orderLines
    rw [if_pos ho, hu]
    rfl
  have hk : ∀ k, keyBytes o.utfc k = k := fun k => by rw [hu]; rfl
  obtain ⟨pre, post, h1, h2⟩ := split_last ((hs.perm bytesLess lines).mem_iff.2 hin)
  have hso := hs.sorted bytesLess lines bytesLess_weak
  rw [h1] at hso
  rw [← hk k]
  refine last_decides hs h hb hadm (hord.trans h1) hl hp ?_
  intro x hx k' w hx1 _ he
  rw [hk, hk] at he
  subst he
  have h3 := (List.pairwise_cons.1 (List.pairwise_append.1 hso).2.1).1 x hx
  rw [bytesLess_eq, decide_eq_false_iff_not] at h3
  have h4 := hmax x ((hs.perm bytesLess lines).mem_iff.1 (by rw [h1]; simp [hx])) w hx1
  have : x = l := List.le_antisymm (List.not_lt.1 h4) (List.not_lt.1 h3)
  exact h2 (this ▸ hx)

/-- **C108** with `-s` and `-u`: of the lines with the longest encoding, the last one in the lexicon decides. -/
theorem C108_sorted_utfc_partial {sorter : LineSorter} (hs : StableSort sorter) {grow : Nat → Nat} {o : Opts} (ho : o.sort = true) (hu : o.utfc = true) {lines : List (List UInt8)} {d : Dawg}
    {D : Dictionary} (h : buildDawg sorter grow o lines = .ok d) (hb : d.build = .ok (some D)) (hadm : Admissible (entries o lines)) {pre post : List (List UInt8)} {l k : List UInt8} {v : Int}
    (he : lines = pre ++ l :: post) (hl : l ≠ []) (hp : parseLine o.tab l = .ok (k, v))
    (hpre : ∀ x ∈ pre, ∀ k' w, parseLine o.tab x = .ok (k', w) → keyBytes true k' = keyBytes true k → (keyBytes true x).length ≤ (keyBytes true l).length)
    (hpost : ∀ x ∈ post, ∀ k' w, parseLine o.tab x = .ok (k', w) → keyBytes true k' = keyBytes true k → (keyBytes true x).length < (keyBytes true l).length) :
    D.findString (keyBytes true k) = .ok v := by
  have hord : orderLines sorter grow o lines = sorter (fun a b => decide ((keyBytes true a).length < (keyBytes true b).length)) lines := by
    unfold orderLines
    rw [if_pos ho, hu]
    congr 1
    funext a b
    exact lessMem_utfc Utfc.Mem.OK.init grow a b
  have hw := weak_of_nat (fun a : List UInt8 => (keyBytes true a).length)
  have hperm := hs.perm (fun a b => decide ((keyBytes true a).length < (keyBytes true b).length)) lines
  have hst := hs.stable _ lines hw l
  have hso := hs.sorted _ lines hw
  obtain ⟨p, q, h1, h2⟩ := split_last (hperm.mem_iff.2 (show l ∈ lines by rw [he]; simp))
  rw [h1] at hso hst
  rw [← hu]
  refine last_decides hs h hb hadm (hord.trans h1) hl hp ?_
  intro x hx k' w hx1 _ hke
  rw [hu] at hke
  have h3 := (List.pairwise_cons.1 (List.pairwise_append.1 hso).2.1).1 x hx
  simp only [decide_eq_false_iff_not] at h3
  have hxin : x ∈ lines := hperm.mem_iff.1 (by rw [h1]; simp [hx])
  have hxl : x ≠ l := fun hc => h2 (hc ▸ hx)
  have h4 : (keyBytes true x).length ≤ (keyBytes true l).length := by
    rw [he] at hxin
    rcases List.mem_append.1 hxin with hm | hm
    · exact hpre x hm k' w hx1 hke
    · rcases List.mem_cons.1 hm with hm | hm
      · exact absurd hm hxl
      · exact Nat.le_of_lt (hpost x hm k' w hx1 hke)
  rw [he] at hst
  rw [List.filter_append, List.filter_append, List.filter_cons_of_pos (by simp), List.filter_cons_of_pos (by simp)] at hst
  have h5 := last_split hst (fun hc => h2 (List.mem_filter.1 hc).1) (fun hc => absurd (hpost l (List.mem_filter.1 hc).1 k v hp rfl) (Nat.lt_irrefl _))
  have h6 := List.mem_filter.1 (h5 ▸ List.mem_filter.2 ⟨hx, by simp only [Bool.and_eq_true, Bool.not_eq_true', decide_eq_false_iff_not]; omega⟩)
  have := hpost x h6.1 k' w hx1 hke
  omega

/-- With `-s` and `-u`, the lines "a\t10" and "a\t9" give "a" the value 10. -/
example (sorter : LineSorter) (hs : StableSort sorter) (grow : Nat → Nat) :
    ∃ d D, buildDawg sorter grow { sort := true, tab := true, utfc := true } linesA.reverse = .ok d ∧ d.build = .ok (some D) ∧ D.findString [97] = .ok 10 := by
  obtain ⟨d, hd⟩ := (C42_utfc_tab_partial hs grow (lines := linesA.reverse) (by
    intro l hl _
    simp only [linesA, List.reverse_cons, List.reverse_nil, List.nil_append, List.cons_append, List.mem_cons, List.not_mem_nil, or_false] at hl
    rcases hl with rfl | rfl
    · exact ⟨([97], 10), by decide⟩
    · exact ⟨([97], 9), by decide⟩) (by decide) (by decide)).1.2 (by decide)
  obtain ⟨D, hD⟩ := small_dictionary hs hd (by decide) (by decide)
  refine ⟨d, D, hd, hD, C108_sorted_utfc_partial hs rfl rfl hd hD ⟨by decide, by decide⟩ (pre := []) (l := [97, 9, 49, 48]) (k := [97]) (post := [[97, 9, 57]]) rfl (by simp)
    (show parseLine true _ = _ by decide) (by simp) ?_⟩
  intro x hx _ _ _ _
  simp only [List.mem_cons, List.not_mem_nil, or_false] at hx
  subst hx
  decide

/-- **C108** is false with `-s`: for the lines "a\t9" and "a\t10", in this order, the value of "a" is 9, the value neither of the last line nor of the greatest number. -/
theorem C108_sorted_false : ¬ C108_statement { sort := true, tab := true } ∧ ∀ (sorter : LineSorter), StableSort sorter → ∀ (grow : Nat → Nat),
    ∃ d D, buildDawg sorter grow { sort := true, tab := true } linesA = .ok d ∧ d.build = .ok (some D) ∧ D.findString [97] = .ok 9 := by
  have hadm : Admissible (entries { sort := true, tab := true } linesA) := ⟨by decide, by decide⟩
  have key : ∀ (sorter : LineSorter), StableSort sorter → ∀ (grow : Nat → Nat),
      ∃ d D, buildDawg sorter grow { sort := true, tab := true } linesA = .ok d ∧ d.build = .ok (some D) ∧ D.findString [97] = .ok 9 := by
    intro sorter hs grow
    obtain ⟨d, hd⟩ := (C42_tab_exact_partial hs grow (lines := linesA) (by
      intro l hl _
      simp only [linesA, List.mem_cons, List.not_mem_nil, or_false] at hl
      rcases hl with rfl | rfl
      · exact ⟨[97], 9, by decide, by decide⟩
      · exact ⟨[97], 10, by decide, by decide⟩) (by decide)).1.2 (by
      have hk : ∀ a ∈ linesA, ∀ k n, parseLine true a = .ok (k, n) → k = [97] := by
        intro a ha k n h
        simp only [linesA, List.mem_cons, List.not_mem_nil, or_false] at ha
        rcases ha with rfl | rfl
        · rw [show parseLine true [97, 9, 57] = .ok ([97], 9) by decide] at h; cases h; rfl
        · rw [show parseLine true [97, 9, 49, 48] = .ok ([97], 10) by decide] at h; cases h; rfl
      intro a ha b hb k n c s m h1 h2
      have := hk a ha k n h1
      subst this
      simpa using hk b hb _ _ h2)
    obtain ⟨D, hD⟩ := small_dictionary hs hd hadm.nulFree (by decide)
    refine ⟨d, D, hd, hD, C108_sorted_partial hs rfl rfl hd hD hadm (l := [97, 9, 57]) (by simp [linesA]) (by simp) (show parseLine true _ = _ by decide) ?_⟩
    intro x hx w _
    simp only [linesA, List.mem_cons, List.not_mem_nil, or_false] at hx
    rcases hx with rfl | rfl <;> decide
  refine ⟨fun h => ?_, key⟩
  obtain ⟨d, D, h1, h2, h3⟩ := key _ (exists_stableSort _) (fun n => n)
  have h4 := h _ (exists_stableSort _) (fun n => n) linesA d D h1 h2 hadm [[97, 9, 57]] [] [97, 9, 49, 48] [97] 10 rfl (by simp) (show parseLine true _ = _ by decide) (by simp)
  rw [show keyBytes (Opts.utfc { sort := true, tab := true }) [97] = [97] from rfl, h3] at h4
  cases h4

end Dawg.Props
