import Verif.Props.Lookup
import Verif.Proof.Dict.WitnessNul
import Verif.Props.Builder
/-! # C10–C15, C35: the dictionary of a history of insertions -/
namespace Dawg.Props
open Dawg Dawg.Spec Dawg.Client Dawg.Abs Dawg.Dict
attribute [-simp] List.length_flatten

/-! ## Auxiliary facts -/

theorem Made.unfold' {hist d D} (h : Made hist d D) : ∃ n oks b num, 1 ≤ n ∧ n < 4294967296 ∧ Admissible hist ∧ Client.build n hist = .ok (oks, b, d) ∧
    d.buildWithUnused = .ok (some (D, num)) := by
  obtain ⟨hadm, n, oks, b, h1, h2, h3, h4⟩ := h
  obtain ⟨num, h5⟩ := unused_of_build h4
  exact ⟨n, oks, b, num, h1, h2, hadm, h3, h5⟩

theorem Made.sem {hist d D} (h : Made hist d D) (hne : accepted hist ≠ []) :
    ∃ c r B G num, DawgIs d c r ∧ d.buildWithUnused = .ok (some (D, num)) ∧ DSem c r ((accepted hist).map wordE) D B G num := by
  obtain ⟨n, oks, b, num, h1, h2, hadm, h3, h4⟩ := Made.unfold' h
  obtain ⟨c, r, B, G, e1, e2⟩ := dict_sem h1 h2 hadm h3 h4 hne
  exact ⟨c, r, B, G, num, e1, h4, e2⟩

theorem Made.empty {hist d D} (h : Made hist d D) (he : accepted hist = []) :
    ∃ c r num, d.buildWithUnused = .ok (some (D, num)) ∧ Built c r [] D.units num := by
  obtain ⟨n, oks, b, num, h1, h2, hadm, h3, h4⟩ := Made.unfold' h
  obtain ⟨c, r, _, _, e3⟩ := dict_built h1 h2 hadm h3 h4
  rw [he] at e3
  exact ⟨c, r, num, h4, e3⟩

theorem mem_wordE {hist : List (Key × Int)} {e : Key × Int} (he : e ∈ accepted hist) : (e.1, stored e.2) ∈ (accepted hist).map wordE :=
  List.mem_map.2 ⟨e, he, rfl⟩

theorem residual_wordE_ne {acc : List (Key × Int)} {q : Key} : residual (acc.map wordE) q ≠ [] ↔ ∃ e ∈ acc, q <+: e.1 := by
  constructor
  · intro h
    obtain ⟨e, he⟩ := List.exists_mem_of_ne_nil _ h
    rw [mem_residual] at he
    obtain ⟨x, hx, hxe⟩ := List.mem_map.1 he
    refine ⟨x, hx, e.1, ?_⟩
    have := congrArg Prod.fst hxe
    exact this.symm
  · rintro ⟨e, he, t, ht⟩ hc
    have : (t, stored e.2) ∈ residual (acc.map wordE) q := by
      rw [mem_residual, ht]; exact List.mem_map.2 ⟨e, he, rfl⟩
    rw [hc] at this; simp at this

/-- The hypothesis of the `_partial` theorems: if the query leaves the key set, that is, if it has a prefix `p` that is a prefix of a key while the next byte `b`
continues no key, then `b` is not the low byte of a stored value.  Nothing is required of the other bytes of the query. -/
def NoClash (hist : List (Key × Int)) (q : Key) : Prop := ∀ p b, p ++ [b] <+: q → (∃ e ∈ accepted hist, p <+: e.1) → (¬ ∃ e ∈ accepted hist, p ++ [b] <+: e.1) →
  ∀ e ∈ accepted hist, stored e.2 % 256 ≠ b.toNat

/-- It holds for all queries without such bytes. -/
theorem NoClash.of_bytes {hist : List (Key × Int)} {q : Key} (h : ∀ b ∈ q, ∀ e ∈ accepted hist, stored e.2 % 256 ≠ b.toNat) : NoClash hist q :=
  fun p b hp _ _ => h b (hp.subset (by simp))

/-- It holds for prefixes of keys. -/
theorem NoClash.of_prefix {hist : List (Key × Int)} {q : Key} (h : ∃ e ∈ accepted hist, q <+: e.1) : NoClash hist q := by
  intro p b hp _ hn
  obtain ⟨e, he, hq⟩ := h
  exact absurd ⟨e, he, hp.trans hq⟩ hn

/-- It holds for keys. -/
theorem NoClash.of_key {hist : List (Key × Int)} {q : Key} (h : ∃ e ∈ accepted hist, e.1 = q) : NoClash hist q :=
  let ⟨e, he, hq⟩ := h; .of_prefix ⟨e, he, hq ▸ List.prefix_rfl⟩

theorem NoClash.clean {hist q} (h : NoClash hist q) : Clean ((accepted hist).map wordE) ((accepted hist).map wordE) q := by
  intro p b hp h1 h2
  have := h p b hp (residual_wordE_ne.1 h1) (fun hn => residual_wordE_ne.2 hn h2)
  intro e he
  obtain ⟨x, hx, rfl⟩ := List.mem_map.1 he
  exact this x hx

theorem prefix_or_not {acc : List (Key × Int)} (q : Key) : (∃ e ∈ acc, q <+: e.1) ∨ residual (acc.map wordE) q = [] := by
  by_cases h : residual (acc.map wordE) q = []
  · exact .inr h
  · exact .inl (residual_wordE_ne.1 h)

/-- Following a prefix of a key, in any dictionary with keys. -/
theorem follow_prefix {hist d D} (h : Made hist d D) {q : Key} (hq : ∃ e ∈ accepted hist, q <+: e.1) :
    ∃ i, D.followString q D.root = .ok (true, i, q.length) ∧ D.hasValue i = .ok (decide (∃ e ∈ accepted hist, e.1 = q)) ∧
      ∀ e ∈ accepted hist, e.1 = q → D.value i = .ok (stored e.2) := by
  have hne : accepted hist ≠ [] := by
    obtain ⟨e, he, _⟩ := hq; exact List.ne_nil_of_mem he
  obtain ⟨c, r, B, G, num, e1, e2, e3⟩ := Made.sem h hne
  obtain ⟨o, g, hr⟩ := e3.root (by simpa using hne)
  obtain ⟨v, o', s', g', k1, k2⟩ := followString_hit e3 hr (residual_wordE_ne.2 hq)
  refine ⟨v, k1, ?_, ?_⟩
  · rw [k2.hasValue e3]
    congr 1
    rw [Bool.eq_iff_iff, List.any_eq_true, decide_eq_true_eq]
    constructor
    · rintro ⟨e, he, h0⟩
      rw [mem_residual] at he
      obtain ⟨x, hx, hxe⟩ := List.mem_map.1 he
      refine ⟨x, hx, ?_⟩
      have := congrArg Prod.fst hxe
      simp only [beq_iff_eq] at h0
      rw [h0] at this
      simpa [wordE] using this
    · rintro ⟨e, he, rfl⟩
      exact ⟨([], stored e.2), by rw [mem_residual]; simpa using mem_wordE he, by simp⟩
  · rintro e he rfl
    exact k2.value e3 (by rw [mem_residual]; simpa using mem_wordE he)

/-- Following anything else. -/
theorem follow_other {hist d D} (h : Made hist d D) {q : Key} (hne : accepted hist ≠ []) (hq : ¬ ∃ e ∈ accepted hist, q <+: e.1) (hc : NoClash hist q) :
    ∃ i k, D.followString q D.root = .ok (false, i, k) := by
  obtain ⟨c, r, B, G, num, e1, e2, e3⟩ := Made.sem h hne
  obtain ⟨o, g, hr⟩ := e3.root (by simpa using hne)
  obtain ⟨v, k1, _⟩ := followString_miss e3 hr (Classical.byContradiction fun hn => hq (residual_wordE_ne.1 hn)) hc.clean
  exact ⟨v, _, k1⟩

theorem follow_empty {hist d D} (h : Made hist d D) (he : accepted hist = []) (q : Key) :
    ∃ ok i k, D.followString q D.root = .ok (ok, i, k) ∧ D.hasValue i = .ok false := by
  obtain ⟨c, r, num, _, e2⟩ := Made.empty h he
  obtain ⟨_, _, h3, h4⟩ := empty_follow e2
  obtain ⟨ok, i, k, h5, h6⟩ := empty_followString h4 q D.root (show 0 < 256 by omega)
  exact ⟨ok, i, k, h5, h3 i h6⟩

/-! ## C10 -/

/-- **C10.** Every accepted pair is found with its value. -/
theorem C10_inserted_found {hist d D} (h : Made hist d D) : ∀ e ∈ accepted hist,
    D.containsString e.1 = .ok true ∧ D.findString e.1 = .ok (stored e.2) ∧ ∀ out, D.findStringValue e.1 out = .ok (true, (stored e.2 : Int)) := by
  intro e he
  obtain ⟨i, h1, h2, h3⟩ := follow_prefix h ⟨e, he, List.prefix_rfl⟩
  have h2' : D.hasValue i = .ok true := by rw [h2, decide_eq_true ⟨e, he, rfl⟩]
  have h3' := h3 e he rfl
  refine ⟨?_, ?_, fun out => ?_⟩
  · simp only [Dictionary.containsString, h1, ok_bind, Bool.not_true, Bool.false_eq_true, if_false, h2']
  · simp only [Dictionary.findString, h1, ok_bind, Bool.not_true, Bool.false_eq_true, if_false, h2', if_true, h3', pure_eq_ok]
    rfl
  · simp only [Dictionary.findStringValue, h1, ok_bind, Bool.not_true, Bool.false_eq_true, if_false, h2', h3', pure_eq_ok]
    rfl

/-- **C10**, for non-negative `int32` values: the value itself comes back. -/
theorem C10_nonnegative_value_found {hist d D} (h : Made hist d D) : ∀ e ∈ accepted hist, 0 ≤ e.2 → e.2 < 2147483648 →
    D.findString e.1 = .ok e.2 := by
  intro e he h0 h1
  rw [(C10_inserted_found h e he).2.1, stored_of_nonneg h0 h1]

/-- **C10**, for negative `int32` values: the value comes back modulo 2^31. -/
theorem C10_negative_value_found {hist d D} (h : Made hist d D) : ∀ e ∈ accepted hist, -2147483648 ≤ e.2 → e.2 < 0 →
    D.findString e.1 = .ok (e.2 + 2147483648) := by
  intro e he h0 h1
  rw [(C10_inserted_found h e he).2.1]
  congr 1
  unfold stored; omega

/-- A dictionary that was computed by the kernel: "a" with value 354. -/
theorem sampleMade : ∃ d, Made Witness.histA d Witness.dictA :=
  let ⟨d, h, _⟩ := Witness.made_of_run Witness.admA Witness.runA; ⟨d, h⟩

example : ∃ hist d D, Made hist d D ∧ (([97] : Key), (354 : Int)) ∈ accepted hist ∧ D.findString [97] = .ok 354 :=
  let ⟨d, h⟩ := sampleMade; ⟨_, d, _, h, by decide, by decide +kernel⟩

/-! ## C14 -/

/-- **C14.** `Build` (and `BuildWithUnused`) never panics and never runs forever; it returns `nil` only when the unit array has reached 2^29
units, the largest size that unit offsets can express.  This needs at least 2^21 bytes of keys. -/
theorem C14_build_total (n : Nat) (h1 : 1 ≤ n) (h2 : n < 4294967296) (hist : List (Key × Int)) (hadm : Admissible hist) :
    ∃ oks b d, Client.build n hist = .ok (oks, b, d) ∧
      ((∃ D num, d.build = .ok (some D) ∧ d.buildWithUnused = .ok (some (D, num))) ∨
       (d.build = .ok none ∧ d.buildWithUnused = .ok none ∧
        (∃ db, DictBuilder.buildDictionary d = .ok (db, false) ∧ db.units.length = 536870912) ∧
        2097152 ≤ ((accepted hist).map (fun e => e.1.length + 1)).sum)) := by
  obtain ⟨d, c, r, e1, _, _, e4⟩ := dict_spec n h1 h2 hist hadm
  refine ⟨_, _, d, e1, ?_⟩
  rcases e4 with ⟨db, a1, a2, a3, a4⟩ | ⟨D, num, a1, _⟩
  · exact .inr ⟨build_of_unused a3, a3, ⟨db, a1, a2⟩, a4⟩
  · exact .inl ⟨D, num, build_of_unused a1, a1⟩

theorem add_total (acc : List (Key × Int)) (k : Key) (v : Int) :
    ((add acc k v).map (fun e => e.1.length + 1)).sum ≤ (acc.map (fun e => e.1.length + 1)).sum + (k.length + 1) := by
  unfold add
  rcases List.eq_nil_or_concat acc with rfl | ⟨l, e, rfl⟩
  · simp
  · simp only [List.concat_eq_append, List.getLast?_append, List.getLast?_singleton, Option.some_or, List.dropLast_concat]
    split
    · omega
    · split
      · simp only [List.map_append, List.sum_append, List.map_cons, List.map_nil, List.sum_cons, List.sum_nil]; omega
      · simp only [List.map_append, List.sum_append, List.map_cons, List.map_nil, List.sum_cons, List.sum_nil]; omega

theorem accepted_total (hist : List (Key × Int)) :
    ((accepted hist).map (fun e => e.1.length + 1)).sum ≤ (hist.map (fun e => e.1.length + 1)).sum := by
  suffices ∀ acc : List (Key × Int), ((hist.foldl (fun acc e => add acc e.1 e.2) acc).map (fun e => e.1.length + 1)).sum ≤
      (acc.map (fun e => e.1.length + 1)).sum + (hist.map (fun e => e.1.length + 1)).sum by
    simpa [accepted] using this []
  induction hist with
  | nil => simp
  | cons e hist ih =>
    intro acc
    have h1 := ih (add acc e.1 e.2)
    have h2 := add_total acc e.1 e.2
    simp only [List.foldl_cons, List.map_cons, List.sum_cons]
    omega

/-- **C14**, the positive part: histories of fewer than 2^21 bytes always get a dictionary. -/
theorem C14_small_builds (n : Nat) (h1 : 1 ≤ n) (h2 : n < 4294967296) (hist : List (Key × Int)) (hnul : ∀ e ∈ hist, (0 : UInt8) ∉ e.1)
    (hs : (hist.map (fun e => e.1.length + 1)).sum < 2097152) : ∃ d D, Made hist d D ∧ ∃ oks b, Client.build n hist = .ok (oks, b, d) := by
  have hadm : Admissible hist := ⟨hnul, by omega⟩
  obtain ⟨oks, b, d, e1, e2⟩ := C14_build_total n h1 h2 hist hadm
  rcases e2 with ⟨D, num, e2, _⟩ | ⟨_, _, _, e3⟩
  · exact ⟨d, D, ⟨hadm, n, oks, b, h1, h2, e1, e2⟩, oks, b, e1⟩
  · have := accepted_total hist; omega

example : ∃ d D, Made sample d D := by
  obtain ⟨d, D, h, _⟩ := C14_small_builds 1 (by omega) (by omega) sample (by decide) (by decide)
  exact ⟨d, D, h⟩

/-! ## C11 -/

/-- The full claim C11. -/
def C11_statement : Prop := ∀ hist d D, Made hist d D → ∀ q : Key, (0 : UInt8) ∉ q → (∀ e ∈ accepted hist, e.1 ≠ q) →
  D.containsString q = .ok false ∧ D.findString q = .ok (-1) ∧ ∀ out, D.findStringValue q out = .ok (false, out)

/-- **C11 is false.** With the only key "a" and value 354, `ContainsString("b")` is true: the label of a value unit is the low byte of the value. -/
theorem C11_nothing_else_false : ¬ C11_statement := by
  intro h
  obtain ⟨d, hm⟩ := sampleMade
  have := (h _ d _ hm [98] (by decide) (by decide)).1
  rw [show Witness.dictA.containsString [98] = .ok true by decide +kernel] at this
  cases this

/-- **C11**, for queries that do not leave the key set with the low byte of a stored value. -/
theorem C11_nothing_else_partial {hist d D} (h : Made hist d D) {q : Key} (hc : NoClash hist q) (hq : ∀ e ∈ accepted hist, e.1 ≠ q) :
    D.containsString q = .ok false ∧ D.findString q = .ok (-1) ∧ ∀ out, D.findStringValue q out = .ok (false, out) := by
  have main : ∃ ok i k, D.followString q D.root = .ok (ok, i, k) ∧ (ok = true → D.hasValue i = .ok false) := by
    by_cases he : accepted hist = []
    · obtain ⟨ok, i, k, h1, h2⟩ := follow_empty h he q
      exact ⟨ok, i, k, h1, fun _ => h2⟩
    · by_cases hp : ∃ e ∈ accepted hist, q <+: e.1
      · obtain ⟨i, h1, h2, _⟩ := follow_prefix h hp
        refine ⟨true, i, _, h1, fun _ => ?_⟩
        rw [h2, decide_eq_false]
        rintro ⟨e, he, rfl⟩
        exact hq e he rfl
      · obtain ⟨i, k, h1⟩ := follow_other h he hp hc
        exact ⟨false, i, k, h1, by simp⟩
  obtain ⟨ok, i, k, h1, h2⟩ := main
  cases ok with
  | false =>
    refine ⟨?_, ?_, fun out => ?_⟩
    · simp only [Dictionary.containsString, h1, ok_bind, Bool.not_false, if_true, pure_eq_ok]
    · simp only [Dictionary.findString, h1, ok_bind, Bool.not_false, if_true, pure_eq_ok]
    · simp only [Dictionary.findStringValue, h1, ok_bind, Bool.not_false, if_true, pure_eq_ok]
  | true =>
    have h2 := h2 rfl
    refine ⟨?_, ?_, fun out => ?_⟩
    · simp only [Dictionary.containsString, h1, ok_bind, Bool.not_true, Bool.false_eq_true, if_false, h2]
    · simp only [Dictionary.findString, h1, ok_bind, Bool.not_true, Bool.false_eq_true, if_false, h2, pure_eq_ok]
    · simp only [Dictionary.findStringValue, h1, ok_bind, Bool.not_true, Bool.false_eq_true, if_false, h2, Bool.not_false, if_true, pure_eq_ok]

/-- The hypothesis holds for every NUL-free query when all values are multiples of 256. -/
theorem noClash_of_values {hist : List (Key × Int)} (hv : ∀ e ∈ accepted hist, stored e.2 % 256 = 0) {q : Key} (hq : (0 : UInt8) ∉ q) : NoClash hist q := by
  refine .of_bytes fun b hb e he => ?_
  have hb0 : b ≠ 0 := fun h => hq (h ▸ hb)
  rw [hv e he]
  intro h0
  exact hb0 (UInt8.toNat_inj.1 h0.symm)

example : ∃ hist d D, Made hist d D ∧ NoClash hist [97, 97] ∧ (∀ e ∈ accepted hist, e.1 ≠ [97, 97]) ∧ D.containsString [97, 97] = .ok false :=
  let ⟨d, h⟩ := sampleMade; ⟨_, d, _, h, (.of_bytes (by decide)), by decide, by decide +kernel⟩

/-! ## C12 -/

/-- The full claim C12. -/
def C12_statement : Prop := ∀ hist d D, Made hist d D → ∀ q : Key, (0 : UInt8) ∉ q → ∃ ok i k, D.followString q D.root = .ok (ok, i, k) ∧
  (ok = true ↔ ∃ e ∈ accepted hist, q <+: e.1) ∧ (ok = true → D.hasValue i = .ok (decide (∃ e ∈ accepted hist, e.1 = q)))

/-- **C12 is false**, with the same dictionary: `FollowString("b")` succeeds. -/
theorem C12_prefixes_false : ¬ C12_statement := by
  intro h
  obtain ⟨d, hm⟩ := sampleMade
  obtain ⟨ok, i, k, h1, h2, _⟩ := h _ d _ hm [98] (by decide)
  rw [show Witness.dictA.followString [98] Witness.dictA.root = .ok (true, 2, 1) by decide +kernel] at h1
  cases h1
  exact absurd (h2.1 rfl) (by decide)

/-- **C12**, one direction without any restriction: every prefix of a key can be followed, byte by byte, and `HasValue` then tells whether the
prefix is itself a key. -/
theorem C12_prefixes_followed_partial {hist d D} (h : Made hist d D) {q : Key} (hq : ∃ e ∈ accepted hist, q <+: e.1) :
    ∃ i, D.followString q D.root = .ok (true, i, q.length) ∧ D.hasValue i = .ok (decide (∃ e ∈ accepted hist, e.1 = q)) := by
  obtain ⟨i, h1, h2, _⟩ := follow_prefix h hq
  exact ⟨i, h1, h2⟩

/-- **C12**, for a non-empty dictionary and queries that do not leave the key set with the low byte of a stored value. -/
theorem C12_prefixes_partial {hist d D} (h : Made hist d D) (hne : accepted hist ≠ []) {q : Key} (hc : NoClash hist q) :
    ∃ ok i k, D.followString q D.root = .ok (ok, i, k) ∧
      (ok = true ↔ ∃ e ∈ accepted hist, q <+: e.1) ∧ (ok = true → D.hasValue i = .ok (decide (∃ e ∈ accepted hist, e.1 = q))) := by
  by_cases hp : ∃ e ∈ accepted hist, q <+: e.1
  · obtain ⟨i, h1, h2, _⟩ := follow_prefix h hp
    exact ⟨true, i, _, h1, by simpa using hp, fun _ => h2⟩
  · obtain ⟨i, k, h1⟩ := follow_other h hne hp hc
    exact ⟨false, i, k, h1, by simpa using hp, by simp⟩

example : ∃ hist d D, Made hist d D ∧ accepted hist ≠ [] ∧ NoClash hist [97] ∧ D.followString [97] D.root = .ok (true, 1, 1) :=
  let ⟨d, h⟩ := sampleMade; ⟨_, d, _, h, by decide, (.of_bytes (by decide)), by decide +kernel⟩

/-! ## C13 -/

/-- The full claim C13. -/
def C13_statement : Prop := ∀ hist d D, Made hist d D → ∀ q : Key, (0 : UInt8) ∉ q → D.followString q D.root ≠ .error .panic ∧ D.containsString q ≠ .error .panic ∧
  D.findString q ≠ .error .panic

/-- **C13 is false.** With the same dictionary `FindString("b")` and `ContainsString("bb")` index out of range. -/
theorem C13_no_panic_false : ¬ C13_statement := by
  intro h
  obtain ⟨d, hm⟩ := sampleMade
  exact (h _ d _ hm [98, 98] (by decide)).1 (by decide +kernel)

theorem C13_find_panics : ∃ d, Made Witness.histA d Witness.dictA ∧ Witness.dictA.findString [98] = .error .panic :=
  let ⟨d, h⟩ := sampleMade; ⟨d, h, by decide +kernel⟩

/-- **C13**, for queries that do not leave the key set with the low byte of a stored value: no look-up panics. -/
theorem C13_no_panic_partial {hist d D} (h : Made hist d D) {q : Key} (hc : NoClash hist q) :
    (∃ r, D.followString q D.root = .ok r) ∧ (∃ r, D.containsString q = .ok r) ∧ (∃ r, D.findString q = .ok r) ∧
      ∀ out, ∃ r, D.findStringValue q out = .ok r := by
  have hf : ∃ r, D.followString q D.root = .ok r := by
    by_cases he : accepted hist = []
    · obtain ⟨ok, i, k, h1, _⟩ := follow_empty h he q
      exact ⟨_, h1⟩
    · obtain ⟨ok, i, k, h1, _⟩ := C12_prefixes_partial h he hc
      exact ⟨_, h1⟩
  by_cases hq : ∃ e ∈ accepted hist, e.1 = q
  · obtain ⟨e, he, rfl⟩ := hq
    obtain ⟨h1, h2, h3⟩ := C10_inserted_found h e he
    exact ⟨hf, ⟨_, h1⟩, ⟨_, h2⟩, fun out => ⟨_, h3 out⟩⟩
  · obtain ⟨h1, h2, h3⟩ := C11_nothing_else_partial h hc (fun e he hek => hq ⟨e, he, hek⟩)
    exact ⟨hf, ⟨_, h1⟩, ⟨_, h2⟩, fun out => ⟨_, h3 out⟩⟩

example : ∃ hist d D, Made hist d D ∧ NoClash hist [97, 255, 1] :=
  let ⟨d, h⟩ := sampleMade; ⟨_, d, _, h, (.of_bytes (by decide))⟩

/-! ## C16, for built dictionaries -/

/-- The literal reading of C16 is false for built dictionaries, too: with "a" = 354, `ContainsString("b")` is true while `FindString("b")` panics. -/
theorem C16_built_counterexample : ∃ d, Made Witness.histA d Witness.dictA ∧ Witness.dictA.containsString [98] = .ok true ∧ Witness.dictA.findString [98] = .error .panic :=
  let ⟨d, h⟩ := sampleMade; ⟨d, h, by decide +kernel, by decide +kernel⟩

/-- **C16** for built dictionaries and queries that do not leave the key set with the low byte of a stored value: all three calls return, and agree. -/
theorem C16_built_partial {hist d D} (h : Made hist d D) {q : Key} (hc : NoClash hist q) (out : Int) : ∃ v : Int, D.findString q = .ok v ∧ (v = -1 ∨ 0 ≤ v) ∧
    D.containsString q = .ok (decide (v ≠ -1)) ∧ D.findStringValue q out = .ok (if v = -1 then (false, out) else (true, v)) := by
  obtain ⟨_, _, ⟨v, hv⟩, _⟩ := C13_no_panic_partial h hc
  exact ⟨v, hv, C16_findString_decides_partial D q out v hv⟩

example : ∃ d D, Made Witness.histA d D ∧ NoClash Witness.histA [97] ∧ NoClash Witness.histA [99] :=
  let ⟨d, h⟩ := sampleMade; ⟨d, _, h, .of_bytes (by decide), .of_bytes (by decide)⟩

/-! ## C15 -/

/-- **C15.** The reported number of unused units is the number of units that belong to no key; the size is a positive multiple of 256. -/
theorem C15_unused_exact {hist d D} (h : Made hist d D) : ∃ num, d.buildWithUnused = .ok (some (D, num)) ∧
    HasCard (fun i => i < D.size ∧ i ≠ D.root ∧ ∀ e ∈ accepted hist, ¬ PartOf D e.1 i) num ∧ D.size % 256 = 0 ∧ 256 ≤ D.size := by
  by_cases he : accepted hist = []
  · obtain ⟨c, r, num, e1, e2⟩ := Made.empty h he
    obtain ⟨h1, h2, _⟩ := empty_follow e2
    refine ⟨num, e1, ⟨List.range' 1 255, List.nodup_range', ?_, by simp [h2]⟩, by unfold Dictionary.size; omega, by unfold Dictionary.size; omega⟩
    intro i
    rw [he, List.mem_range'_1]
    unfold Dictionary.size Dictionary.root
    simp only [List.not_mem_nil, false_imp_iff, implies_true, and_true]
    omega
  · obtain ⟨c, r, B, G, num, _, e2, e3⟩ := Made.sem h he
    have hne : (accepted hist).map wordE ≠ [] := by simpa using he
    have hlen : D.size = 256 * B := e3.u.len
    have hpos := e3.pos
    refine ⟨num, e2, ?_, by omega, by omega⟩
    classical
    refine ⟨(List.range (256 * B)).filter (fun i => decide (Unplaced c G i)), List.nodup_range.sublist List.filter_sublist, ?_, ?_⟩
    · intro i
      rw [List.mem_filter, List.mem_range, hlen, decide_eq_true_eq]
      have hk := isKid_iff e3 hne (i := i)
      have hex : (∃ e ∈ (accepted hist).map wordE, PartOf D e.1 i) ↔ ∃ e ∈ accepted hist, PartOf D e.1 i := by
        constructor
        · rintro ⟨e, he, hp⟩
          obtain ⟨x, hx, rfl⟩ := List.mem_map.1 he
          exact ⟨x, hx, hp⟩
        · rintro ⟨e, he, hp⟩
          exact ⟨wordE e, List.mem_map.2 ⟨e, he, rfl⟩, hp⟩
      rw [hex] at hk
      constructor
      · rintro ⟨h1, h2⟩
        refine ⟨h1, fun h3 => hk.2 (.inl h3) h2, fun e he hp => hk.2 (.inr ⟨e, he, hp⟩) h2⟩
      · rintro ⟨h1, h2, h3⟩
        refine ⟨h1, Classical.byContradiction fun hn => ?_⟩
        rcases hk.1 hn with h4 | ⟨e, he, hp⟩
        · exact h2 h4
        · exact h3 e he hp
    · rw [e3.u.num, unplacedBelow, List.countP_eq_length_filter]

example : ∃ hist d D, Made hist d D ∧ d.buildWithUnused = .ok (some (D, 253)) ∧ accepted hist ≠ [] :=
  let ⟨d, h, h'⟩ := Witness.made_of_run Witness.admA Witness.runA; ⟨_, d, _, h, h', by decide⟩

/-! ## C35 -/

/-- The full claim C35: accepted keys are found, whatever bytes they contain, and nothing is found that was not inserted. -/
def C35_statement : Prop := ∀ hist D num, Witness.run hist = .ok (some (D, num)) →
  (∀ e ∈ accepted hist, D.containsString e.1 = .ok true) ∧ (∀ q, (∀ e ∈ accepted hist, e.1 ≠ q) → D.containsString q ≠ .ok true)

/-- **C35 is false.** The key "a\0b" is accepted but not found; instead "a", which was not inserted, is found. -/
theorem C35_nul_keys_false : ¬ C35_statement ∧
    ∃ b d, Client.build 1 Witness.histN = .ok ([true], b, d) ∧ d.build = .ok (some Witness.dictN) ∧
      Witness.dictN.containsString [97, 0, 98] = .ok false ∧ Witness.dictN.containsString [97] = .ok true := by
  have h1 : Witness.dictN.containsString [97, 0, 98] = .ok false := by decide +kernel
  have h2 : Witness.dictN.containsString [97] = .ok true := by decide +kernel
  refine ⟨?_, ?_⟩
  · intro h
    have := (h _ _ _ Witness.runN).1 ([97, 0, 98], 5) (by decide)
    rw [h1] at this
    cases this
  · have hr := Witness.runN
    unfold Witness.run at hr
    have hv : (Client.build 1 Witness.histN).toOption.map (fun x => x.1) = some [true] := by decide +kernel
    cases hb : Client.build 1 Witness.histN with
    | error e => rw [hb] at hv; cases hv
    | ok x =>
      obtain ⟨oks, b, d⟩ := x
      rw [hb] at hr hv
      simp only [ok_bind] at hr
      simp only [Except.toOption, Option.map_some, Option.some.injEq] at hv
      subst hv
      exact ⟨b, d, rfl, build_of_unused hr, h1, h2⟩

/-- **C35**, for histories of NUL-free keys: every accepted key is found. -/
theorem C35_nul_free_partial {hist d D} (h : Made hist d D) : ∀ e ∈ accepted hist, D.containsString e.1 = .ok true :=
  fun e he => (C10_inserted_found h e he).1

example : ∃ hist d D, Made hist d D ∧ accepted hist ≠ [] := let ⟨d, h⟩ := sampleMade; ⟨_, d, _, h, by decide⟩

end Dawg.Props
