import Verif.Props.Pipeline
/-! # C48–C52: the answers of dawgtool to queries -/
namespace Dawg.Props
open Dawg Dawg.Spec Dawg.Client Dawg.Abs Dawg.Dict Dawg.Guided Dawg.Tool
attribute [-simp] List.length_flatten

/-! ## C48: without a guide -/

/-- The pair that is stored for a key. -/
def lookup (acc : List (Key × Int)) (k : Key) : Option (Key × Nat) := (acc.find? (fun e => e.1 == k)).map (fun e => (k, stored e.2))

/-- The stored non-empty prefixes of `q`, from short to long, with their values. -/
def prefixesOf (acc : List (Key × Int)) (q : Key) : List (Key × Nat) := (List.range q.length).filterMap (fun i => lookup acc (q.take (i + 1)))

theorem lookup_none {acc : List (Key × Int)} {k : Key} (h : ¬ ∃ e ∈ acc, e.1 = k) : lookup acc k = none := by
  unfold lookup
  rw [List.find?_eq_none.2 (fun e he hk => h ⟨e, he, by simpa using hk⟩)]
  rfl

theorem lookup_some {acc : List (Key × Int)} {k : Key} (h : ∃ e ∈ acc, e.1 = k) : ∃ e ∈ acc, e.1 = k ∧ lookup acc k = some (k, stored e.2) := by
  obtain ⟨e, he, hk⟩ := h
  cases hf : acc.find? (fun e => e.1 == k) with
  | none => exact absurd (by simpa using hk) (List.find?_eq_none.1 hf e he)
  | some x =>
    refine ⟨x, List.mem_of_find?_eq_some hf, by simpa using List.find?_some hf, ?_⟩
    unfold lookup
    rw [hf]
    rfl

/-- One step of a walk along a query. -/
theorem walk_step {hist d D} (h : Made hist d D) {p : Key} {b : UInt8} {u n : Nat} (hf : D.followString p D.root = .ok (true, u, n)) (hp : ∃ e ∈ accepted hist, p <+: e.1)
    (hc : NoClash hist (p ++ [b])) :
    (D.follow b u = .ok none ∧ ¬ ∃ e ∈ accepted hist, p ++ [b] <+: e.1) ∨
    ∃ v, D.follow b u = .ok (some v) ∧ (∃ e ∈ accepted hist, p ++ [b] <+: e.1) ∧ D.followString (p ++ [b]) D.root = .ok (true, v, p.length + 1) ∧
      D.hasValue v = .ok (decide (∃ e ∈ accepted hist, e.1 = p ++ [b])) ∧ ∀ e ∈ accepted hist, e.1 = p ++ [b] → D.value v = .ok (stored e.2) := by
  have happ := Dictionary.followString_append D p [b] D.root
  rw [hf] at happ
  simp only [ok_bind, if_true, Dictionary.followString] at happ
  by_cases hb : ∃ e ∈ accepted hist, p ++ [b] <+: e.1
  · right
    obtain ⟨v, h1, h2, h3⟩ := follow_prefix h hb
    refine ⟨v, ?_, hb, by simpa using h1, h2, h3⟩
    rw [h1] at happ
    cases hx : D.follow b u with
    | error e => rw [hx] at happ; cases happ
    | ok r =>
      rw [hx] at happ
      cases r with
      | none => cases happ
      | some w =>
        simp only [ok_bind, pure_eq_ok, Except.ok.injEq, Prod.mk.injEq] at happ
        rw [happ.2.1]
  · left
    refine ⟨?_, hb⟩
    have hne : accepted hist ≠ [] := by
      obtain ⟨e, he, _⟩ := hp; exact List.ne_nil_of_mem he
    obtain ⟨i, k, h1⟩ := follow_other h hne hb hc
    rw [h1] at happ
    cases hx : D.follow b u with
    | error e => rw [hx] at happ; cases happ
    | ok r =>
      rw [hx] at happ
      cases r with
      | none => rfl
      | some w => cases happ

theorem NoClash.prefix {hist : List (Key × Int)} {p q : Key} (h : NoClash hist q) (hp : p <+: q) : NoClash hist p :=
  fun a b hab => h a b (hab.trans hp)

theorem prefixLoop_spec {hist d D} (h : Made hist d D) {q : Key} (hc : NoClash hist q) : ∀ (r p : Key) (u n : Nat), q = p ++ r →
    D.followString p D.root = .ok (true, u, n) → (∃ e ∈ accepted hist, p <+: e.1) →
    prefixLoop D q r p.length u = .ok ((List.range' p.length r.length).filterMap (fun i => lookup (accepted hist) (q.take (i + 1)))) := by
  intro r
  induction r with
  | nil => intros; rfl
  | cons b r ih =>
    intro p u n hq hf hp
    have hpre : p ++ [b] <+: q := ⟨r, by simp [hq]⟩
    have htake : q.take (p.length + 1) = p ++ [b] := by rw [hq]; simp [List.take_append, List.take_of_length_le]
    rw [prefixLoop, List.length_cons, List.range'_succ, List.filterMap_cons, htake]
    rcases walk_step h hf hp (hc.prefix hpre) with ⟨h1, h2⟩ | ⟨v, h1, h2, h3, h4, h5⟩
    · rw [h1]
      simp only [ok_bind, pure_eq_ok]
      rw [lookup_none (fun ⟨e, he, hk⟩ => h2 ⟨e, he, hk ▸ List.prefix_rfl⟩)]
      simp only
      rw [List.filterMap_eq_nil_iff.2]
      intro i hi
      rw [List.mem_range'_1] at hi
      refine lookup_none (fun ⟨e, he, hk⟩ => h2 ⟨e, he, ?_⟩)
      rw [hk, ← htake]
      exact List.take_prefix_take_left (by omega)
    · rw [h1]
      simp only [ok_bind]
      have := ih (p ++ [b]) v _ (by simp [hq]) h3 h2
      rw [List.length_append, List.length_singleton] at this
      rw [this, h4]
      simp only [ok_bind]
      by_cases hk : ∃ e ∈ accepted hist, e.1 = p ++ [b]
      · obtain ⟨e, he, he1, he2⟩ := lookup_some hk
        rw [decide_eq_true hk, he2, h5 e he he1]
        rfl
      · rw [decide_eq_false hk, lookup_none hk]
        rfl

theorem prefixLoop_empty {D : Dictionary} (h1 : ∀ u, u < 256 → D.hasValue u = .ok false)
    (h2 : ∀ l u, u < 256 → ∃ res, D.follow l u = .ok res ∧ ∀ v, res = some v → v < 256) (q : Key) :
    ∀ (r : Key) (pos u : Nat), u < 256 → prefixLoop D q r pos u = .ok [] := by
  intro r
  induction r with
  | nil => intros; rfl
  | cons b r ih =>
    intro pos u hu
    obtain ⟨res, e1, e2⟩ := h2 b u hu
    rw [prefixLoop, e1]
    cases res with
    | none => rfl
    | some v =>
      simp only [ok_bind]
      rw [ih _ v (e2 v rfl), h1 v (e2 v rfl)]
      rfl

/-- The full claim C48. -/
def C48_statement : Prop := ∀ hist d D, Made hist d D → ∀ q : Key, (0 : UInt8) ∉ q → queryPrefixes D q = .ok (prefixesOf (accepted hist) q)

/-- **C48 is false**: with the lexicon line "a\t354", the query "b" panics. -/
theorem C48_prefixes_false : ¬ C48_statement := by
  intro hs
  obtain ⟨d, h⟩ := sampleMade
  have := hs _ d _ h [98] (by decide)
  rw [show queryPrefixes Witness.dictA [98] = .error .panic by decide +kernel] at this
  cases this

/-- **C48**, for queries that do not leave the key set with the low byte of a stored value. -/
theorem C48_prefixes_partial {hist d D} (h : Made hist d D) {q : Key} (hc : NoClash hist q) : queryPrefixes D q = .ok (prefixesOf (accepted hist) q) := by
  unfold queryPrefixes
  by_cases he : accepted hist = []
  · obtain ⟨c, r, num, _, e2⟩ := Made.empty h he
    obtain ⟨_, _, h3, h4⟩ := Dict.empty_follow e2
    rw [prefixLoop_empty h3 h4 q q 0 D.root (show 0 < 256 by omega)]
    congr 1
    unfold prefixesOf
    symm
    rw [List.filterMap_eq_nil_iff]
    intro i _
    exact lookup_none (by simp [he])
  · obtain ⟨e, he'⟩ := List.exists_mem_of_ne_nil _ he
    have := prefixLoop_spec h hc q [] D.root 0 rfl rfl ⟨e, he', by simp⟩
    rw [List.length_nil, ← List.range_eq_range'] at this
    exact this

/-- **C48** without `-t`: all values are 0, and every NUL-free query is answered correctly. -/
theorem C48_no_values_partial {hist d D} (h : Made hist d D) (hv : ∀ e ∈ accepted hist, e.2 = 0) {q : Key} (hq : (0 : UInt8) ∉ q) :
    queryPrefixes D q = .ok (prefixesOf (accepted hist) q) :=
  C48_prefixes_partial h (noClash_of_values (fun e he => by rw [hv e he]; rfl) hq)

example : ∃ d D, Made keysG d D ∧ queryPrefixes D [97, 98, 99] = .ok [([97], 5), ([97, 98], 3)] := by
  obtain ⟨d, D, h⟩ := madeG
  exact ⟨d, D, h, C48_prefixes_partial h (.of_bytes (by decide))⟩

/-! ## C49: with a guide -/

/-- The keys that start with `q`, in increasing order, with their values. -/
def extensions (acc : List (Key × Int)) (q : Key) : List (Key × Int) := (acc.filter (fun e => q.isPrefixOf e.1)).map (fun e => (e.1, (stored e.2 : Int)))

/-- What is printed for them: every key is followed by a NUL byte. -/
def withNul (l : List (Key × Int)) : List (Key × Int) := l.map (fun e => (e.1 ++ [0], e.2))

/-- The number of a key, or `NotFound`. -/
def rankOf (acc : List (Key × Int)) (q : Key) : Nat := if ∃ e ∈ acc, e.1 = q then acc.countP (fun e => decide (e.1 < q)) else 4294967295

theorem residual_extensions (acc : List (Key × Int)) (q : Key) :
    (residual (words acc) q).map (fun e => (q ++ ([] ++ e.1 ++ [0]), (e.2 : Int))) = withNul (extensions acc q) := by
  unfold residual words extensions withNul
  rw [List.filter_map, List.map_map, List.map_map, List.map_map]
  have hfun : ((fun e : Key × Nat => q.isPrefixOf e.1) ∘ fun e : Key × Int => (e.1, stored e.2)) = fun e => q.isPrefixOf e.1 := rfl
  rw [hfun]
  apply List.map_congr_left
  intro e he
  obtain ⟨t, ht⟩ := List.isPrefixOf_iff_prefix.1 (List.mem_filter.1 he).2
  simp [← ht]

theorem extensions_length (acc : List (Key × Int)) (q : Key) : (residual (words acc) q).length = (extensions acc q).length := by
  have := congrArg List.length (residual_extensions acc q)
  simpa [withNul] using this

theorem extensions_nil {acc : List (Key × Int)} {q : Key} (h : ¬ ∃ e ∈ acc, q <+: e.1) : extensions acc q = [] := by
  unfold extensions
  rw [List.filter_eq_nil_iff.2]
  · rfl
  · intro e he hq
    exact h ⟨e, he, List.isPrefixOf_iff_prefix.1 hq⟩

theorem completeLoop_listing {D : Dictionary} {gd : Guide} {key : Key} : ∀ {m c xs c'}, listing D gd m c = .ok (xs, c') →
    completeLoop D gd key m c = .ok (xs.map (fun e => (key ++ e.1, (e.2.2 : Int))), c') := by
  intro m
  induction m with
  | zero => intro c xs c' h; cases h
  | succ m ih =>
    intro c xs c' h
    rw [listing] at h
    rw [completeLoop]
    cases hn : Completer.next D gd c with
    | error e => rw [hn] at h; cases h
    | ok r =>
      obtain ⟨c1, ok⟩ := r
      rw [hn] at h
      simp only [ok_bind] at h ⊢
      cases ok with
      | false =>
        simp only [Bool.not_false, if_true, pure_eq_ok] at h ⊢
        cases h
        rfl
      | true =>
        simp only [Bool.not_true, Bool.false_eq_true, if_false] at h ⊢
        cases hv : c1.value D with
        | error e => rw [hv] at h; cases h
        | ok v =>
          rw [hv] at h
          simp only [ok_bind] at h ⊢
          cases hl : listing D gd m c1 with
          | error e => rw [hl] at h; cases h
          | ok r =>
            rw [hl] at h
            simp only [ok_bind, pure_eq_ok] at h
            cases h
            rw [ih hl]
            rfl

theorem start_eq (gd : Guide) (c : Completer) (u : Nat) : Completer.start gd c u = Completer.startString gd c u [] := rfl

/-- What the tool knows after loading a file of the options `o`. -/
structure Loads (o : Opts) (d : Dawg) (D : Dictionary) (g : Guide) (l : Loaded) : Prop where
  dict : l.dict = D
  guide : l.guide = some g
  index : o.index = true → ∃ x, l.index = some x ∧ buildIndex D g = .ok (some x)
  noIndex : o.index = false → l.index = none

/-- The second part of an answer. -/
theorem plain_hits {hist d D g} (h : Made hist d D) (hg : buildGuide d D = .ok (some g)) {q : Key} (hc : NoClash hist q)
    (hx : ¬ (q = [] ∧ ∃ e ∈ accepted hist, e.1 = [])) (c : Completer) {fuel : Nat} (hfuel : (extensions (accepted hist) q).length < fuel) :
    ∃ ok i k, D.followString q D.root = .ok (ok, i, k) ∧ (ok = false → extensions (accepted hist) q = []) ∧
      (ok = true → ∃ c0 c', Completer.start g c i = .ok c0 ∧ completeLoop D g q fuel c0 = .ok (withNul (extensions (accepted hist) q), c')) := by
  by_cases he : accepted hist = []
  · obtain ⟨ok, i, k, h1, _⟩ := follow_empty h he q
    have hn : extensions (accepted hist) q = [] := extensions_nil (by simp [he])
    refine ⟨ok, i, k, h1, fun _ => hn, fun _ => ?_⟩
    have hz : g.size = 0 := by
      obtain ⟨g', e1, e2, _⟩ := C26_guide h
      rw [hg] at e1
      cases e1
      rw [e2, if_pos he]
    refine ⟨{ c with path := [0], indexStack := [] }, { c with path := [0], indexStack := [] }, ?_, ?_⟩
    · unfold Completer.start Completer.startStringLen Completer.takeLen
      simp [hz, ok_bind, pure_eq_ok]
    · rw [hn]
      obtain ⟨fuel, rfl⟩ : ∃ f, fuel = f + 1 := ⟨fuel - 1, by omega⟩
      rw [completeLoop, next_ended rfl]
      rfl
  · by_cases hp : ∃ e ∈ accepted hist, q <+: e.1
    · obtain ⟨i, h1, _⟩ := follow_prefix h hp
      refine ⟨true, i, _, h1, by simp, fun _ => ?_⟩
      obtain ⟨c0, h2, h3⟩ := C22_completions_partial h hg hp h1 hx c []
      obtain ⟨c', h4, _⟩ := h3 fuel (by rw [extensions_length]; exact hfuel)
      refine ⟨c0, c', h2, ?_⟩
      rw [completeLoop_listing h4, List.map_map, ← residual_extensions]
      rfl
    · obtain ⟨i, k, h1⟩ := follow_other h he hp hc
      exact ⟨false, i, k, h1, fun _ => extensions_nil hp, by simp⟩

theorem rank_eq {hist d D g x} (h : Made hist d D) (hg : buildGuide d D = .ok (some g)) (hi : buildIndex D g = .ok (some x)) {q : Key} (hc : NoClash hist q) :
    Indexer.bytesToIndex D g x q = .ok (rankOf (accepted hist) q) := by
  unfold rankOf
  split
  · next hk => exact (C31_rank_partial h hg hi q).1 hk
  · next hk => exact (C31_rank_partial h hg hi q).2 hc (fun e he hq => hk ⟨e, he, hq⟩)

theorem queryRank_eq {hist d D g l} {o : Opts} (h : Made hist d D) (hg : buildGuide d D = .ok (some g)) (hl : Loads o d D g l) {q : Key} (hc : NoClash hist q) :
    queryRank l g q = .ok (if o.index then some (rankOf (accepted hist) q) else none) := by
  unfold queryRank
  cases hi : o.index with
  | false => rw [hl.noIndex hi]; rfl
  | true =>
    obtain ⟨x, e1, e2⟩ := hl.index hi
    rw [e1]
    simp only [hl.dict]
    rw [rank_eq h hg e2 hc]
    rfl

/-- One answer with `-g`. -/
theorem answer_plain {hist d D g l} {o : Opts} (h : Made hist d D) (hg : buildGuide d D = .ok (some g)) (hl : Loads o d D g l) (hr : o.ranked = false) {q : Key}
    (hc : NoClash hist q) (hx : ¬ (q = [] ∧ ∃ e ∈ accepted hist, e.1 = [])) (c : Completers) {fuel : Nat} (hfuel : (extensions (accepted hist) q).length < fuel) :
    ∃ c', answer o l fuel c q = .ok (⟨q, if o.index then some (rankOf (accepted hist) q) else none, withNul (extensions (accepted hist) q)⟩, c') := by
  obtain ⟨ok, i, k, h1, h2, h3⟩ := plain_hits h hg hc hx c.plain hfuel
  have hrank := queryRank_eq h hg hl hc
  unfold answer
  rw [hl.guide]
  simp only [hl.dict]
  rw [hrank]
  simp only [ok_bind]
  rw [h1]
  simp only [ok_bind]
  cases ok with
  | false =>
    rw [h2 rfl]
    exact ⟨c, rfl⟩
  | true =>
    obtain ⟨c0, c', h4, h5⟩ := h3 rfl
    simp only [Bool.not_true, Bool.false_eq_true, if_false, hr]
    rw [h4]
    simp only [ok_bind]
    rw [h5]
    exact ⟨{ c with plain := c' }, rfl⟩

theorem answers_map {o : Opts} {l : Loaded} {fuel : Nat} {f : Key → Answer} {qs : List Key} (h : ∀ q ∈ qs, ∀ c, ∃ c', answer o l fuel c q = .ok (f q, c')) (c : Completers) :
    answers o l fuel c qs = .ok (qs.map f) := by
  induction qs generalizing c with
  | nil => rfl
  | cons q qs ih =>
    obtain ⟨c', h1⟩ := h q (by simp) c
    rw [answers, h1]
    simp only [ok_bind]
    rw [ih (fun q hq => h q (by simp [hq]))]
    rfl

/-- The full claim C49: with `-g` every query is answered with the keys that start with it, in increasing order and with their values. -/
def C49_statement : Prop := ∀ hist d D g l (o : Opts), Made hist d D → buildGuide d D = .ok (some g) → Loads o d D g l → o.ranked = false → o.index = false →
  ∀ q : Key, (0 : UInt8) ∉ q → ∃ N, ∀ fuel, N ≤ fuel → ∃ c', answer o l fuel Completers.new q = .ok (⟨q, none, extensions (accepted hist) q⟩, c')

/-- **C49 is false**: the printed keys end with a NUL byte. -/
theorem C49_completions_false : ¬ C49_statement := by
  intro hs
  obtain ⟨d, D, h⟩ := madeG
  obtain ⟨g, hg, _⟩ := C26_guide h
  have hl : Loads {} d D g ⟨D, some g, none⟩ := ⟨rfl, rfl, by simp, by simp⟩
  obtain ⟨N, h1⟩ := hs _ d D g _ {} h hg hl rfl rfl [98] (by decide)
  obtain ⟨c', h2⟩ := h1 (N + 2) (by omega)
  obtain ⟨c'', h3⟩ := answer_plain h hg hl rfl (q := [98]) (.of_bytes (by decide)) (by simp) Completers.new (fuel := N + 2)
    (by rw [show (extensions (accepted keysG) [98]).length = 1 by decide]; omega)
  rw [h2] at h3
  simp only [Except.ok.injEq, Prod.mk.injEq, Answer.mk.injEq] at h3
  exact absurd h3.1.2.2 (by decide)

/-- A completer that starts at the root of a dictionary with the empty key: `Next` succeeds without a change. -/
theorem empty_key_step {hist d D g} (h : Made hist d D) (hg : buildGuide d D = .ok (some g)) {e : Key × Int} (he1 : e ∈ accepted hist) (he2 : e.1 = []) :
    g.size ≠ 0 ∧ Completer.next D g ⟨[0], [D.root], 0⟩ = .ok (⟨[0], [D.root], 0⟩, true) ∧ D.value 0 = .ok (stored e.2) := by
  have hne : accepted hist ≠ [] := List.ne_nil_of_mem he1
  have hz : g.size ≠ 0 := by
    obtain ⟨g', e1, e2, _⟩ := C26_guide h
    rw [hg] at e1
    cases e1
    simp only [e2, hne, if_false]
    obtain ⟨At, kid, DAt, V, h0, W, hd0⟩ := Made.view h hne
    have := V.lt h0
    change 0 < D.size at this
    omega
  obtain ⟨c0, h1, h2⟩ := C24_empty_key_repeats h hg ⟨e, he1, he2⟩ Completer.new []
  rw [startString_eq hz] at h1
  cases h1
  have hstep := h2 0
  rw [nextN] at hstep
  cases hn : Completer.next D g ⟨[] ++ [0], [D.root], 0⟩ with
  | error x => rw [hn] at hstep; cases hstep
  | ok r =>
    rw [hn] at hstep
    simp only [ok_bind, Nat.zero_add, if_true, pure_eq_ok, Except.ok.injEq] at hstep
    have hr' : r = (⟨[] ++ [0], [D.root], 0⟩, true) := hstep
    subst hr'
    obtain ⟨i, k1, _, k2⟩ := follow_prefix h (q := []) ⟨e, he1, by simp⟩
    cases k1
    exact ⟨hz, hn, k2 e he1 he2⟩

/-- **C49 fails otherwise, too**: with the empty key in the dictionary (the line "\t1" with `-t`), the empty query makes the tool print for ever. -/
theorem C49_empty_query_hangs {hist d D g l} {o : Opts} (h : Made hist d D) (hg : buildGuide d D = .ok (some g)) (hl : Loads o d D g l) (hr : o.ranked = false)
    (he : ∃ e ∈ accepted hist, e.1 = []) (c : Completers) (fuel : Nat) : answer o l fuel c [] = .error .hang := by
  obtain ⟨e, he1, he2⟩ := he
  obtain ⟨hz, hn, hv⟩ := empty_key_step h hg he1 he2
  have hloop : ∀ f, completeLoop D g [] f ⟨[] ++ [0], [D.root], 0⟩ = .error .hang := by
    intro f
    induction f with
    | zero => rfl
    | succ f ih =>
      rw [completeLoop, show Completer.next D g ⟨[] ++ [0], [D.root], 0⟩ = .ok (⟨[] ++ [0], [D.root], 0⟩, true) from hn]
      simp only [ok_bind, Bool.not_true, Bool.false_eq_true, if_false, Completer.value]
      rw [hv]
      simp only [ok_bind]
      rw [ih]
      rfl
  have hrank := queryRank_eq h hg hl (q := []) (.of_prefix ⟨e, he1, by simp⟩)
  unfold answer
  rw [hl.guide]
  simp only [hl.dict]
  rw [hrank]
  simp only [ok_bind, Dictionary.followString, Bool.not_true, Bool.false_eq_true, if_false, hr]
  rw [start_eq, startString_eq hz]
  simp only [ok_bind]
  rw [hloop]
  rfl

theorem extensions_le (acc : List (Key × Int)) (q : Key) : (extensions acc q).length ≤ acc.length := by
  unfold extensions
  rw [List.length_map]
  exact List.length_filter_le _ _

theorem mapM_ok {α β : Type} {f : α → Go β} {g : α → β} {l : List α} (h : ∀ a ∈ l, f a = .ok (g a)) : l.mapM f = .ok (l.map g) := by
  induction l with
  | nil => rfl
  | cons a l ih =>
    rw [List.mapM_cons, h a (by simp)]
    simp only [ok_bind]
    rw [ih (fun a ha => h a (by simp [ha]))]
    rfl

/-- What is printed after the last query. -/
theorem totals_eq {hist d D g l} {o : Opts} (h : Made hist d D) (hg : buildGuide d D = .ok (some g)) (hl : Loads o d D g l) :
    totals o l = .ok (if o.index then some ((accepted hist).map (·.1)) else none) := by
  unfold totals
  cases hi : o.index with
  | false => rfl
  | true =>
    obtain ⟨x, e1, e2⟩ := hl.index hi
    simp only [if_true, hl.guide, e1, hl.dict]
    obtain ⟨x', e3, _, e4, _⟩ := C30_counts_partial h (Made.nonempty h hg e2) hg
    rw [e2] at e3
    cases e3
    have hsz := accepted_length_lt h.1
    rw [show Indexer.totalCount x = .ok (accepted hist).length from e4]
    simp only [ok_bind]
    rw [mapM_ok (g := fun i => (((accepted hist)[i]?).map (fun e => e.1)).getD [])]
    · show Except.ok (some _) = Except.ok (some _)
      congr 2
      apply List.ext_getElem
      · simp
      · intro i h1 h2
        simp only [List.length_map, List.length_range] at h1
        simp [h1]
    · intro i hi
      rw [List.mem_range] at hi
      have : u32 i = i := Nat.mod_eq_of_lt (by omega)
      rw [this]
      exact (C32_select h hg e2).2.1 i

/-- Loading what was written gives `Loads`. -/
theorem load_guide {hist d D} {linkSorter : Sorter} (h : Made hist d D) (hs : StableSort linkSorter) {o : Opts} (hr : o.ranked = false) (hgd : o.guide = true)
    {file : List UInt8} (hf : buildFile linkSorter o d = .ok file) : ∃ g l, load o file = .ok l ∧ buildGuide d D = .ok (some g) ∧ Loads o d D g l := by
  obtain ⟨l, h1, h2, _, h3, _, h4, h5⟩ := C45_tool_roundtrip h hs o hf
  obtain ⟨g, h6, h7⟩ := h3 hr hgd
  exact ⟨g, l, h1, h7, h2, h6, h4 g h6, h5⟩

/-- **C49**, for queries that do not leave the key set with the low byte of a stored value, and without the empty query when there is an empty key: from the
file that dawgtool wrote with `-g` (and possibly `-i`) to all answers, in any order of queries. -/
theorem C49_completions_partial {hist d D} {linkSorter : Sorter} (h : Made hist d D) (hs : StableSort linkSorter) {o : Opts} (hr : o.ranked = false) (hgd : o.guide = true)
    {file : List UInt8} (hf : buildFile linkSorter o d = .ok file) {qs : List Key} (hc : ∀ q ∈ qs, NoClash hist q)
    (hx : ¬ ([] ∈ qs ∧ ∃ e ∈ accepted hist, e.1 = [])) {fuel : Nat} (hfuel : (accepted hist).length < fuel) :
    handleLoad o fuel file qs = .ok
      (qs.map (fun q => ⟨q, if o.index then some (rankOf (accepted hist) q) else none, withNul (extensions (accepted hist) q)⟩),
       if o.index then some ((accepted hist).map (·.1)) else none) := by
  obtain ⟨g, l, h1, h2, h3⟩ := load_guide h hs hr hgd hf
  have h4 := answers_map (o := o) (l := l) (fuel := fuel) (qs := qs)
    (f := fun q => ⟨q, if o.index then some (rankOf (accepted hist) q) else none, withNul (extensions (accepted hist) q)⟩)
    (fun q hq c => answer_plain h h2 h3 hr (hc q hq) (fun hn => hx ⟨hn.1 ▸ hq, hn.2⟩) c (by have := extensions_le (accepted hist) q; omega)) Completers.new
  unfold handleLoad
  rw [h1]
  change (lift (answers o l fuel Completers.new qs) >>= _) = _
  rw [h4]
  change (lift (totals o l) >>= _) = _
  rw [totals_eq h h2 h3]
  rfl

/-- The keys "a", "ab", "b": all their numbers, the keys that start with "a", and nothing for "aa". -/
example : ∃ d D file, Made keysG d D ∧ buildFile insertionSort { guide := true, index := true } d = .ok file ∧
    handleLoad { guide := true, index := true } 9 file [[97], [97, 97], []] = .ok
      ([⟨[97], some 0, [([97, 0], 5), ([97, 98, 0], 3)]⟩, ⟨[97, 97], some 4294967295, []⟩,
        ⟨[], some 4294967295, [([97, 0], 5), ([97, 98, 0], 3), ([98, 0], 7)]⟩], some [[97], [97, 98], [98]]) := by
  obtain ⟨d, D, h⟩ := madeG
  obtain ⟨file, h1⟩ := C45_tool_writes h insertionSort_stableSort { guide := true, index := true } (fun _ => ⟨rfl, by decide⟩)
  have h2 := C49_completions_partial (qs := [[97], [97, 97], []]) (fuel := 9) h insertionSort_stableSort rfl rfl h1
    (fun q hq => .of_bytes (by revert q; decide)) (by decide) (by decide)
  refine ⟨d, D, file, h, h1, h2.trans ?_⟩
  decide

/-- The hanging query, from the file on. -/
example : ∃ d D file, Made keysE d D ∧ buildFile insertionSort { guide := true } d = .ok file ∧ ∀ fuel, handleLoad { guide := true } fuel file [[]] = .error (.fault .hang) := by
  obtain ⟨d, D, h⟩ := madeE
  obtain ⟨file, h1⟩ := C45_tool_writes h insertionSort_stableSort { guide := true } (by simp)
  obtain ⟨g, l, h2, h3, h4⟩ := load_guide h insertionSort_stableSort rfl rfl h1
  refine ⟨d, D, file, h, h1, fun fuel => ?_⟩
  unfold handleLoad
  rw [h2]
  change (lift (answers _ l fuel Completers.new [[]]) >>= _) = _
  rw [answers, C49_empty_query_hangs h h3 h4 rfl ⟨([], 1), by decide, rfl⟩]
  rfl

/-! ## C50: with a ranked guide -/

theorem rankedLoop_listing {D : Dictionary} {gd : Guide} {key : Key} : ∀ {m rc xs rc'}, rlisting D gd m rc = .ok (xs, rc') →
    rankedLoop D gd key m rc = .ok (xs.map (fun e => (key ++ e.1, e.2.2)), rc') := by
  intro m
  induction m with
  | zero => intro c xs c' h; cases h
  | succ m ih =>
    intro c xs c' h
    rw [rlisting] at h
    rw [rankedLoop]
    cases hn : RankedCompleter.next D gd c with
    | error e => rw [hn] at h; cases h
    | ok r =>
      obtain ⟨c1, ok⟩ := r
      rw [hn] at h
      simp only [ok_bind] at h ⊢
      cases ok with
      | false =>
        simp only [Bool.not_false, if_true, pure_eq_ok] at h ⊢
        cases h
        rfl
      | true =>
        simp only [Bool.not_true, Bool.false_eq_true, if_false] at h ⊢
        cases hl : rlisting D gd m c1 with
        | error e => rw [hl] at h; cases h
        | ok r =>
          rw [hl] at h
          simp only [ok_bind, pure_eq_ok] at h
          cases h
          rw [ih hl]
          rfl

/-- An answer that lists the keys that start with `q`, each once, the values never increasing. -/
def RankedHits (acc : List (Key × Int)) (q : Key) (hits : List (Key × Int)) : Prop :=
  ∃ xs, xs.Perm (extensions acc q) ∧ xs.Pairwise (fun a b => a.2 ≥ b.2) ∧ hits = withNul xs

theorem ranked_hits {hist d D g} {linkSorter : Sorter} (h : Made hist d D) (hs : StableSort linkSorter) (hg : buildRankedGuide linkSorter d D = .ok (some g)) {q : Key}
    (hc : NoClash hist q) (rc : RankedCompleter) {fuel : Nat} (hfuel : (extensions (accepted hist) q).length < fuel) :
    ∃ ok i k, D.followString q D.root = .ok (ok, i, k) ∧ (ok = false → extensions (accepted hist) q = []) ∧
      (ok = true → ∃ rc0 rc' hits, RankedCompleter.start D g rc i = .ok rc0 ∧ rankedLoop D g q fuel rc0 = .ok (hits, rc') ∧ RankedHits (accepted hist) q hits) := by
  by_cases he : accepted hist = []
  · obtain ⟨ok, i, k, h1, _⟩ := follow_empty h he q
    have hn : extensions (accepted hist) q = [] := extensions_nil (by simp [he])
    refine ⟨ok, i, k, h1, fun _ => hn, fun _ => ?_⟩
    have hz : g.size = 0 := by
      obtain ⟨g', e1, e2⟩ := C27_ranked_guide h hs.perm (fun lhs rhs => decide (lhs < rhs))
      rw [show buildRankedGuideCmp linkSorter d D (fun lhs rhs => decide (lhs < rhs)) = .ok (some g) from hg] at e1
      cases e1
      rw [e2, if_pos he]
    refine ⟨⟨[], 0, -1, [], [], []⟩, ⟨[], 0, -1, [], [], []⟩, [], ?_, ?_, [], by rw [hn], by simp, rfl⟩
    · unfold RankedCompleter.start RankedCompleter.startStringLen Completer.takeLen
      simp [hz, ok_bind, pure_eq_ok]
    · obtain ⟨fuel, rfl⟩ : ∃ f, fuel = f + 1 := ⟨fuel - 1, by omega⟩
      rw [rankedLoop, rnext_ended rfl rfl]
      rfl
  · by_cases hp : ∃ e ∈ accepted hist, q <+: e.1
    · obtain ⟨i, h1, _⟩ := follow_prefix h hp
      refine ⟨true, i, _, h1, by simp, fun _ => ?_⟩
      obtain ⟨rc0, xs, h2, h3, h4, h5⟩ := C28_values_never_increase h hs hg hp h1 rc []
      obtain ⟨rc', h6, _⟩ := h5 fuel (by rw [h3.length_eq, extensions_length]; exact hfuel)
      refine ⟨rc0, _, _, h2, rankedLoop_listing h6, xs.map (fun e => (q ++ e.1, (e.2 : Int))), ?_, ?_, ?_⟩
      · have := h3.map (fun e => (q ++ e.1, (e.2 : Int)))
        refine this.trans (List.Perm.of_eq ?_)
        have := congrArg (List.map (fun e : Key × Int => (e.1.dropLast, e.2))) (residual_extensions (accepted hist) q)
        unfold withNul at this
        rw [List.map_map, List.map_map] at this
        simpa [Function.comp_def, ← List.append_assoc] using this
      · rw [List.pairwise_map]
        exact h4.imp (fun h => by simpa using h)
      · unfold withNul
        rw [List.map_map, List.map_map]
        simp [Function.comp_def]
    · obtain ⟨i, k, h1⟩ := follow_other h he hp hc
      exact ⟨false, i, k, h1, fun _ => extensions_nil hp, by simp⟩

/-- One answer with `-r`. -/
theorem answer_ranked {hist d D g l} {linkSorter : Sorter} {o : Opts} (h : Made hist d D) (hs : StableSort linkSorter) (hg : buildRankedGuide linkSorter d D = .ok (some g))
    (hl : Loads o d D g l) (hr : o.ranked = true) (hi : o.index = false) {q : Key} (hc : NoClash hist q) (c : Completers) {fuel : Nat}
    (hfuel : (extensions (accepted hist) q).length < fuel) :
    ∃ hits c', answer o l fuel c q = .ok (⟨q, none, hits⟩, c') ∧ RankedHits (accepted hist) q hits := by
  obtain ⟨ok, i, k, h1, h2, h3⟩ := ranked_hits h hs hg hc c.ranked hfuel
  unfold answer
  rw [hl.guide]
  simp only [queryRank, hl.noIndex hi, ok_bind, hl.dict]
  rw [h1]
  simp only [ok_bind]
  cases ok with
  | false => exact ⟨[], c, rfl, [], by rw [h2 rfl], by simp, rfl⟩
  | true =>
    obtain ⟨rc, rc', hits, h4, h5, h6⟩ := h3 rfl
    simp only [Bool.not_true, Bool.false_eq_true, if_false, hr, if_true]
    rw [h4]
    simp only [ok_bind]
    rw [h5]
    exact ⟨hits, { c with ranked := rc' }, rfl, h6⟩

theorem answers_ranked {o : Opts} {l : Loaded} {fuel : Nat} {P : Key → List (Key × Int) → Prop} {qs : List Key}
    (h : ∀ q ∈ qs, ∀ c, ∃ hits c', answer o l fuel c q = .ok (⟨q, none, hits⟩, c') ∧ P q hits) (c : Completers) :
    ∃ as, answers o l fuel c qs = .ok as ∧ as.map (·.query) = qs ∧ ∀ a ∈ as, a.rank = none ∧ P a.query a.hits := by
  induction qs generalizing c with
  | nil => exact ⟨[], rfl, rfl, by simp⟩
  | cons q qs ih =>
    obtain ⟨hits, c', h1, h2⟩ := h q (by simp) c
    obtain ⟨as, h3, h4, h5⟩ := ih (fun q hq => h q (by simp [hq])) c'
    refine ⟨⟨q, none, hits⟩ :: as, ?_, by simp [h4], ?_⟩
    · rw [answers, h1]
      simp only [ok_bind]
      rw [h3]
      rfl
    · intro a ha
      rcases List.mem_cons.1 ha with rfl | ha
      · exact ⟨rfl, h2⟩
      · exact h5 a ha

/-- The full claim C50: with `-r` every query is answered with the keys that start with it, the values never increasing. -/
def C50_statement : Prop := ∀ hist d D g l (linkSorter : Sorter) (o : Opts), Made hist d D → StableSort linkSorter → buildRankedGuide linkSorter d D = .ok (some g) →
  Loads o d D g l → o.ranked = true → o.index = false → ∀ q : Key, (0 : UInt8) ∉ q → ∃ N, ∀ fuel, N ≤ fuel → ∃ c' xs, answer o l fuel Completers.new q = .ok (⟨q, none, xs⟩, c') ∧
    xs.Perm (extensions (accepted hist) q) ∧ xs.Pairwise (fun a b => a.2 ≥ b.2)

/-- **C50 is false**: the printed keys end with a NUL byte. -/
theorem C50_ranked_false : ¬ C50_statement := by
  intro hs
  obtain ⟨d, D, h⟩ := madeG
  obtain ⟨g, hg, _⟩ := C27_ranked_guide h insertionSort_stableSort.perm (fun lhs rhs => decide (lhs < rhs))
  have hl : Loads { ranked := true } d D g ⟨D, some g, none⟩ := ⟨rfl, rfl, by simp, by simp⟩
  obtain ⟨N, h1⟩ := hs _ d D g _ insertionSort { ranked := true } h insertionSort_stableSort hg hl rfl rfl [98] (by decide)
  obtain ⟨c', xs, h2, h3, _⟩ := h1 (N + 2) (by omega)
  obtain ⟨hits, _, h4, ys, h5, _, h6⟩ := answer_ranked h insertionSort_stableSort hg hl rfl rfl (q := [98]) (.of_bytes (by decide)) Completers.new (fuel := N + 2)
    (by rw [show (extensions (accepted keysG) [98]).length = 1 by decide]; omega)
  rw [h2] at h4
  simp only [Except.ok.injEq, Prod.mk.injEq, Answer.mk.injEq] at h4
  obtain ⟨⟨_, _, rfl⟩, _⟩ := h4
  have h7 : (([98], 7) : Key × Int) ∈ xs := h3.mem_iff.2 (by decide)
  rw [h6] at h7
  obtain ⟨e, _, he⟩ := List.mem_map.1 h7
  have := congrArg (fun e : Key × Int => (0 : UInt8) ∈ e.1) he
  simp at this

/-- **C50**, for queries that do not leave the key set with the low byte of a stored value: from the file that dawgtool wrote with `-r` to all answers, in any
order of queries.  Nothing is excluded for the empty key. -/
theorem C50_ranked_partial {hist d D} {linkSorter : Sorter} (h : Made hist d D) (hs : StableSort linkSorter) {o : Opts} (hr : o.ranked = true) (hi : o.index = false)
    {file : List UInt8} (hf : buildFile linkSorter o d = .ok file) {qs : List Key} (hc : ∀ q ∈ qs, NoClash hist q) {fuel : Nat} (hfuel : (accepted hist).length < fuel) :
    ∃ as, handleLoad o fuel file qs = .ok (as, none) ∧ as.map (·.query) = qs ∧ ∀ a ∈ as, a.rank = none ∧ RankedHits (accepted hist) a.query a.hits := by
  obtain ⟨l, h1, h2, h3, _, _, h4, h5⟩ := C45_tool_roundtrip h hs o hf
  obtain ⟨g, h6, h7⟩ := h3 hr
  have hl : Loads o d D g l := ⟨h2, h6, h4 g h6, h5⟩
  obtain ⟨as, h8, h9, h10⟩ := answers_ranked (o := o) (l := l) (fuel := fuel) (P := RankedHits (accepted hist)) (qs := qs)
    (fun q hq c => answer_ranked h hs h7 hl hr hi (hc q hq) c (by have := extensions_le (accepted hist) q; omega)) Completers.new
  refine ⟨as, ?_, h9, h10⟩
  unfold handleLoad
  rw [h1]
  change (lift (answers o l fuel Completers.new qs) >>= _) = _
  rw [h8]
  change (lift (totals o l) >>= _) = _
  unfold totals
  rw [hi]
  rfl

example : ∃ d D file as, Made keysG d D ∧ buildFile insertionSort { ranked := true } d = .ok file ∧
    handleLoad { ranked := true } 9 file [[97], []] = .ok (as, none) ∧
    as = [⟨[97], none, [([97, 0], 5), ([97, 98, 0], 3)]⟩, ⟨[], none, [([98, 0], 7), ([97, 0], 5), ([97, 98, 0], 3)]⟩] := by
  obtain ⟨d, D, h⟩ := madeG
  obtain ⟨file, h1⟩ := C45_tool_writes h insertionSort_stableSort { ranked := true } (by simp)
  obtain ⟨as, h2, h3, h4⟩ := C50_ranked_partial (qs := [[97], []]) (fuel := 9) h insertionSort_stableSort rfl rfl h1
    (fun q hq => .of_bytes (by revert q; decide)) (by decide)
  refine ⟨d, D, file, as, h, h1, h2, ?_⟩
  have key : ∀ (l : List (Key × Int)) (q : Key) (hits : List (Key × Int)), l.Pairwise (fun a b => a.2 > b.2) → (extensions (accepted keysG) q).Perm l →
      RankedHits (accepted keysG) q hits → hits = withNul l := by
    rintro l q hits hl hp ⟨xs, k1, k2, rfl⟩
    have : xs = l := by
      refine (k1.trans hp).eq_of_pairwise (le := fun a b => a.2 ≥ b.2) ?_ k2 (hl.imp (fun h => Int.le_of_lt h))
      intro a b ha hb hab hba
      obtain ⟨i, hi, rfl⟩ := List.mem_iff_getElem.1 ((k1.trans hp).mem_iff.1 ha)
      obtain ⟨j, hj, rfl⟩ := List.mem_iff_getElem.1 hb
      rcases Nat.lt_trichotomy i j with hij | rfl | hij
      · have := List.pairwise_iff_getElem.1 hl i j hi hj hij; omega
      · rfl
      · have := List.pairwise_iff_getElem.1 hl j i hj hi hij; omega
    rw [this]
  match as, h3, h4 with
  | [⟨q1, r1, x1⟩, ⟨q2, r2, x2⟩], h3, h4 =>
    simp only [List.map_cons, List.map_nil, List.cons.injEq, and_true] at h3
    obtain ⟨rfl, rfl⟩ := h3
    obtain ⟨e1, e2⟩ := h4 ⟨[97], r1, x1⟩ (by simp)
    obtain ⟨e3, e4⟩ := h4 ⟨[], r2, x2⟩ (by simp)
    simp only at e1 e2 e3 e4
    rw [e1, e3, key [([97], 5), ([97, 98], 3)] _ _ (by decide) (by decide) e2, key [([98], 7), ([97], 5), ([97, 98], 3)] _ _ (by decide) (by decide) e4]
    rfl
  | [], h3, _ => simp at h3
  | [_], h3, _ => simp at h3
  | _ :: _ :: _ :: _, h3, _ => simp at h3

/-! ## C51: the final listing with `-i` -/

/-- The full claim C51: with `-i`, after the answers, the tool lists all keys by their numbers. -/
def C51_statement : Prop := ∀ hist d D (linkSorter : Sorter) (o : Opts) (file : List UInt8), Made hist d D → StableSort linkSorter → o.index = true → o.ranked = false →
  buildFile linkSorter o d = .ok file → ∃ as, handleLoad o 0 file [] = .ok (as, some ((accepted hist).map (·.1)))

/-- **C51**, with `-g`. -/
theorem C51_listing_partial {hist d D} {linkSorter : Sorter} (h : Made hist d D) (hs : StableSort linkSorter) {o : Opts} (hr : o.ranked = false) (hgd : o.guide = true)
    (hi : o.index = true) {file : List UInt8} (hf : buildFile linkSorter o d = .ok file) {l : Loaded} (hl : load o file = .ok l) :
    totals o l = .ok (some ((accepted hist).map (·.1))) := by
  obtain ⟨g, l', h1, h2, h3⟩ := load_guide h hs hr hgd hf
  rw [hl] at h1
  cases h1
  rw [totals_eq h h2 h3, hi]
  rfl

/-- Without a guide, `-i` makes every run end with a panic, after all queries have been answered. -/
theorem C51_no_guide_panics {hist d D} {linkSorter : Sorter} (h : Made hist d D) (hs : StableSort linkSorter) {o : Opts} (hr : o.ranked = false) (hgd : o.guide = false)
    (hi : o.index = true) {file : List UInt8} (hf : buildFile linkSorter o d = .ok file) {qs : List Key} (hc : ∀ q ∈ qs, NoClash hist q) (fuel : Nat) :
    handleLoad o fuel file qs = .error (.fault .panic) := by
  obtain ⟨l, h1, h2, _, _, h3, _, _⟩ := C45_tool_roundtrip h hs o hf
  obtain ⟨h4, h5⟩ := h3 hr hgd
  have h6 := answers_map (o := o) (l := l) (fuel := fuel) (qs := qs)
    (f := fun q => ⟨q, none, (prefixesOf (accepted hist) q).map (fun e => (e.1, Int.ofNat e.2))⟩) (fun q hq c => by
      refine ⟨c, ?_⟩
      unfold answer
      rw [h4]
      simp only [h2]
      rw [C48_prefixes_partial h (hc q hq)]
      rfl) Completers.new
  unfold handleLoad
  rw [h1]
  change (lift (answers o l fuel Completers.new qs) >>= _) = _
  rw [h6]
  change (lift (totals o l) >>= _) = _
  unfold totals
  rw [hi, h4]
  rfl

/-- **C51 is false**, as just seen. -/
theorem C51_listing_false : ¬ C51_statement := by
  intro hst
  obtain ⟨d, D, h⟩ := madeG
  obtain ⟨file, h1⟩ := C45_tool_writes h insertionSort_stableSort { index := true } (fun _ => ⟨rfl, by decide⟩)
  obtain ⟨as, h2⟩ := hst _ d D insertionSort { index := true } file h insertionSort_stableSort rfl rfl h1
  rw [C51_no_guide_panics h insertionSort_stableSort rfl rfl rfl h1 (by simp) 0] at h2
  cases h2

example : ∃ d D file l, Made keysG d D ∧ buildFile insertionSort { guide := true, index := true } d = .ok file ∧ load { guide := true, index := true } file = .ok l ∧
    totals { guide := true, index := true } l = .ok (some [[97], [97, 98], [98]]) := by
  obtain ⟨d, D, h⟩ := madeG
  obtain ⟨file, h1⟩ := C45_tool_writes h insertionSort_stableSort { guide := true, index := true } (fun _ => ⟨rfl, by decide⟩)
  obtain ⟨g, l, h2, _, _⟩ := load_guide h insertionSort_stableSort rfl rfl h1
  exact ⟨d, D, file, l, h, h1, h2, C51_listing_partial h insertionSort_stableSort rfl rfl rfl h1 h2⟩

end Dawg.Props
