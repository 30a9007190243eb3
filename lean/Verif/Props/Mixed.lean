import Verif.Props.RankedList
import Verif.Proof.Guide.CutCompleter
/-! # C87: dictionary files queried with other options than those they were built with -/
namespace Dawg.Props
open Dawg Dawg.Spec Dawg.Client Dawg.Abs Dawg.Dict Dawg.Guided Dawg.Tool
attribute [-simp] List.length_flatten

/-! ## What is loaded -/

theorem guide_empty : (Guide.readNew []).1 = none := by decide
theorem index_empty : (Index.readNew []).1 = none := by decide

/-- **C87**, what is loaded, for all options `o` of the build and `o'` of the query: without `-g` and `-r` the dictionary alone; with one of them the guide that is in the file, of
whichever kind it is, and with `-i` its index; the tool stops with an error if the file does not have what is asked for. -/
theorem C87_load {hist d D} {linkSorter : Sorter} (h : Made hist d D) (hs : StableSort linkSorter) (o o' : Opts) {file : List UInt8} (hf : buildFile linkSorter o d = .ok file) :
    ((o'.ranked || o'.guide) = false → load o' file = .ok ⟨D, none, none⟩) ∧
    ((o'.ranked || o'.guide) = true → (o.ranked || o.guide) = false → load o' file = .error .fatal) ∧
    ((o'.ranked || o'.guide) = true → (o.ranked || o.guide) = true →
      ∃ g, (if o.ranked then buildRankedGuide linkSorter d D else buildGuide d D) = .ok (some g) ∧
        (o'.index = false → load o' file = .ok ⟨D, some g, none⟩) ∧
        (o'.index = true → o.index = false → load o' file = .error .fatal) ∧
        (o'.index = true → o.index = true → ∃ x, buildIndex D g = .ok (some x) ∧ load o' file = .ok ⟨D, some g, some x⟩)) := by
  obtain ⟨n, oks, b, num, h1, h2, hadm, h3, h4⟩ := Made.unfold' h
  have hD := Made.units32 h
  have hDs : D.size = D.units.length := rfl
  obtain ⟨g1, r1, r2⟩ := C27_ranked_guide h hs.perm (fun lhs rhs => decide (lhs < rhs))
  have r1 : buildRankedGuide linkSorter d D = .ok (some g1) := r1
  obtain ⟨g2, p1, p2, _⟩ := C26_guide h
  rw [buildFile_eq o h4 r1 p1] at hf
  simp only at hf
  have hsz : ∀ g : Guide, g.size = (if accepted hist = [] then 0 else D.size) → g.units.length < 4294967296 := by
    intro g hg
    have : g.units.length = g.size := rfl
    rw [this, hg]
    have := hD.1
    split <;> omega
  have first : ∀ rest, Dictionary.readNew (D.write ++ rest) = (some D, rest) := fun rest => (C19_dictionary_roundtrip D D hD rest).2
  have dict : ∀ rest, (o'.ranked || o'.guide) = false → load o' (D.write ++ rest) = .ok ⟨D, none, none⟩ := by
    intro rest ho
    unfold load
    rw [first]
    simp only [ho, Bool.false_eq_true, if_false]
    rfl
  have main : ∀ g : Guide, g.units.length < 4294967296 →
      (if o.index = true then (do
        match ← lift (buildIndex D g) with
        | none => .error .fatal
        | some x => return D.write ++ g.write ++ x.write) else (return D.write ++ g.write : Except Stop (List UInt8))) = .ok file →
      ((o'.ranked || o'.guide) = false → load o' file = .ok ⟨D, none, none⟩) ∧
      ((o'.ranked || o'.guide) = true →
        (o'.index = false → load o' file = .ok ⟨D, some g, none⟩) ∧
        (o'.index = true → o.index = false → load o' file = .error .fatal) ∧
        (o'.index = true → o.index = true → ∃ x, buildIndex D g = .ok (some x) ∧ load o' file = .ok ⟨D, some g, some x⟩)) := by
    intro g hg hf
    by_cases hi : o.index = true
    · rw [if_pos hi] at hf
      cases hx : buildIndex D g with
      | error e => rw [hx] at hf; cases hf
      | ok x =>
        rw [hx] at hf
        cases x with
        | none => cases hf
        | some x =>
          change Except.ok (D.write ++ g.write ++ x.write) = .ok file at hf
          cases hf
          have k2 := (C19_guide_roundtrip g g hg x.write).2
          have k3 := (C19_index_roundtrip x x (index_units32 hD.1 hx) []).2
          rw [List.append_nil] at k3
          rw [List.append_assoc]
          refine ⟨dict _, fun ho => ⟨fun hi' => ?_, fun _ hc => (by rw [hi] at hc; cases hc), fun hi' _ => ⟨x, rfl, ?_⟩⟩⟩
          · unfold load
            rw [first]
            simp only [ho, if_true, k2, hi']
            rfl
          · unfold load
            rw [first]
            simp only [ho, if_true, k2, hi', k3]
            rfl
    · rw [if_neg hi] at hf
      change Except.ok (D.write ++ g.write) = .ok file at hf
      cases hf
      have k2 := (C19_guide_roundtrip g g hg []).2
      rw [List.append_nil] at k2
      refine ⟨dict _, fun ho => ⟨fun hi' => ?_, fun hi' _ => ?_, fun _ hc => absurd hc hi⟩⟩
      · unfold load
        rw [first]
        simp only [ho, if_true, k2, hi']
        rfl
      · unfold load
        rw [first]
        simp only [ho, if_true, k2, hi']
        rfl
  by_cases hr : o.ranked = true
  · rw [if_pos hr] at hf
    obtain ⟨e1, e2⟩ := main g1 (hsz g1 r2) hf
    refine ⟨e1, fun _ hc => by simp [hr] at hc, fun ho _ => ⟨g1, by rw [if_pos hr]; exact r1, e2 ho⟩⟩
  · rw [if_neg hr] at hf
    have hr' : o.ranked = false := by simpa using hr
    by_cases hgd : o.guide = true
    · rw [if_pos hgd] at hf
      obtain ⟨e1, e2⟩ := main g2 (hsz g2 p2) hf
      refine ⟨e1, fun _ hc => by simp [hgd] at hc, fun ho _ => ⟨g2, by rw [if_neg hr]; exact p1, e2 ho⟩⟩
    · rw [if_neg hgd] at hf
      have hgd' : o.guide = false := by simpa using hgd
      change Except.ok D.write = .ok file at hf
      cases hf
      have k1 := first []
      rw [List.append_nil] at k1
      refine ⟨fun ho => ?_, fun ho _ => ?_, fun _ hc => by simp [hr', hgd'] at hc⟩
      · have := dict [] ho
        rwa [List.append_nil] at this
      · unfold load
        rw [k1]
        simp only [ho, if_true]
        rfl

/-- Loading a file with a guide. -/
theorem load_mixed {hist d D} {linkSorter : Sorter} (h : Made hist d D) (hs : StableSort linkSorter) {o o' : Opts} (ho : (o.ranked || o.guide) = true) (ho' : (o'.ranked || o'.guide) = true)
    (hi : o'.index = true → o.index = true) {file : List UInt8} (hf : buildFile linkSorter o d = .ok file) :
    ∃ g l, load o' file = .ok l ∧ (if o.ranked then buildRankedGuide linkSorter d D else buildGuide d D) = .ok (some g) ∧ Loads o' d D g l := by
  obtain ⟨g, h1, h2, _, h3⟩ := (C87_load h hs o o' hf).2.2 ho' ho
  cases hc : o'.index with
  | false => exact ⟨g, _, h2 hc, h1, rfl, rfl, by simp [hc], fun _ => rfl⟩
  | true =>
    obtain ⟨x, h4, h5⟩ := h3 hc (hi hc)
    exact ⟨g, _, h5, h1, rfl, rfl, fun _ => ⟨x, rfl, h4⟩, by simp [hc]⟩

/-! ## A plain guide under a ranked completer -/

/-- The terminal transition last. -/
def lastly (L : Lang) : List UInt8 := heads L ++ if L.any (fun e => e.1 == []) then [0] else []

theorem lastly_perm {At : Nat → Lang → Prop} : OrdPerm At lastly := by
  intro u L _
  unfold lastly arcs
  exact List.perm_append_comm

/-- A plain guide does not tell that the terminal transition is not listed last. -/
theorem guide_lastly {D : Dictionary} {At : Nat → Lang → Prop} {kid : Nat → UInt8 → Nat} {gd : Guide} (hg : GuideIs D At kid heads gd)
    (hz : ∀ {u L}, At u L → (L.any fun e => e.1 == []) = true → gd.sibling (kid u 0) = .ok 0) : GuideIs D At kid lastly gd where
  size := hg.size
  child {u L} h := by
    rw [hg.child h]
    unfold lastly
    cases heads L with
    | nil => split <;> rfl
    | cons a X => rfl
  sibling {u L pre l post} h hL := by
    unfold lastly at hL
    by_cases hany : (L.any fun e => e.1 == []) = true
    · rw [if_pos hany] at hL
      rcases List.eq_nil_or_concat post with rfl | ⟨Q, x, rfl⟩
      · have h1 := congrArg List.getLast? hL
        simp only [List.getLast?_append, List.getLast?_singleton] at h1
        have h2 : l = 0 := by simpa using h1.symm
        subst h2
        rw [hz h hany]
        rfl
      · have h1 : heads L ++ [0] = (pre ++ l :: Q) ++ [x] := by rw [hL]; simp
        obtain ⟨h2, h3⟩ := List.append_inj' h1 rfl
        rw [hg.sibling h h2]
        simp only [List.cons.injEq, and_true] at h3
        subst h3
        cases Q <;> rfl
    · rw [if_neg hany, List.append_nil] at hL
      exact hg.sibling h hL

/-- The units of values have no sibling in a plain guide. -/
theorem buildGuide_zero {D : Dictionary} {At : Nat → Lang → Prop} {kid : Nat → UInt8 → Nat} {clean : UInt8 → Prop} {d : Dawg} {DAt : Nat → Lang → Prop} (V : View D At kid clean)
    (W : DView d DAt) {acc : Lang} (h0 : At 0 acc) (hd0 : DAt 0 acc) {gd : Guide} (hg : buildGuide d D = .ok (some gd)) {u L} (h : At u L)
    (hany : (L.any fun e => e.1 == []) = true) : gd.sibling (kid u 0) = .ok 0 := by
  have hdep := W.depth hd0
  obtain ⟨e, he⟩ := List.exists_mem_of_ne_nil _ (V.ne h0)
  have h2 := hdep e he
  obtain ⟨us, t, e1, w, _, _, f⟩ := guide_call V W (d.size + 1) (Walk.start (ord := heads) V) h0 hd0 (by simp)
    (fun e he => by have := hdep e he; omega)
  have h3 : buildGuide d D = .ok (some ⟨us⟩) := by
    unfold buildGuide GuideBuilder.build
    simp only
    rw [if_neg (by omega), show d.root = 0 from rfl, show D.root = 0 from rfl, e1]
    rfl
  rw [hg] at h3
  cases h3
  obtain ⟨e, he, hk⟩ := List.any_eq_true.1 hany
  have hk : e.1 = [] := by simpa using hk
  have ha : (0 : UInt8) ∈ arcs L := mem_arcs.2 (.inl ⟨rfl, e.2, hk ▸ he⟩)
  have hu : kid u 0 < us.length := by rw [w.ulen]; exact V.kid_lt h ha
  have : (us[kid u 0]).sibling = 0 := by
    rcases w.zero.sibling (i := kid u 0) (g := ⟨0, 0⟩) (by simp [V.kid_lt h ha]) (List.getElem?_eq_getElem hu) with e | ⟨u', L', A, l', post, k1, k2, k3, _⟩
    · exact e
    · have hl : l' ∈ heads L' := by rw [k2]; simp
      obtain ⟨hz, _⟩ := V.uniq h k1 ha (heads_arcs hl) k3
      exact absurd hz.symm (V.heads_ne_zero k1 hl)
  unfold Guide.sibling
  rw [rd_lt hu]
  simp only [ok_bind, pure_eq_ok]
  rw [this]

/-- Values that do not fall from a key to a greater one, except from a key to those that start with it, where they do not rise. -/
def Rising (L : List (Key × Nat)) : Prop := ∀ e ∈ L, ∀ f ∈ L, e.1 < f.1 → (e.1 <+: f.1 → f.2 ≤ e.2) ∧ (¬ e.1 <+: f.1 → e.2 ≤ f.2)

theorem Rising.reach {kid : Nat → UInt8 → Nat} {acc : Lang} (h : Rising acc) {u L} (hr : Reach kid acc u L) : Rising L := by
  induction hr with
  | root => exact h
  | @step u L l _ _ ih =>
    intro e he f hf hlt
    rw [mem_residual] at he hf
    have h1 := ih ([l] ++ e.1, e.2) he ([l] ++ f.1, f.2) hf (by simpa using hlt)
    simpa using h1

theorem Rising.desc {D : Dictionary} {At : Nat → Lang → Prop} {kid : Nat → UInt8 → Nat} {clean : UInt8 → Prop} (V : View D At kid clean) (h : ∀ {u L}, At u L → Rising L) :
    Desc (fun a b => b ≤ a) At lastly := by
  intro u L A l post hat hL e he
  have hR := h hat
  have hasc : (heads L).Pairwise (· < ·) := heads_asc L
  -- the transition `l` is not the terminal one
  have hl : l ∈ heads L ∧ ∀ m ∈ post, m = 0 ∨ (m ∈ heads L ∧ l < m) := by
    unfold lastly at hL
    by_cases hany : (L.any fun e => e.1 == []) = true
    · rw [if_pos hany] at hL
      rcases List.eq_nil_or_concat post with rfl | ⟨Q, x, rfl⟩
      · simp [underT] at he
      · have h1 : heads L ++ [0] = (A ++ l :: Q) ++ [x] := by rw [hL]; simp
        obtain ⟨h2, h3⟩ := List.append_inj' h1 rfl
        simp only [List.cons.injEq, and_true] at h3
        subst h3
        rw [h2] at hasc ⊢
        refine ⟨by simp, fun m hm => ?_⟩
        rw [List.concat_eq_append] at hm
        rcases List.mem_append.1 hm with hm | hm
        · exact .inr ⟨by simp [hm], (List.pairwise_cons.1 (List.pairwise_append.1 hasc).2.1).1 m hm⟩
        · exact .inl (by simpa using hm)
    · rw [if_neg hany, List.append_nil] at hL
      rw [hL] at hasc ⊢
      exact ⟨by simp, fun m hm => .inr ⟨by simp [hm], (List.pairwise_cons.1 (List.pairwise_append.1 hasc).2.1).1 m hm⟩⟩
  obtain ⟨hl, hpost⟩ := hl
  have hl0 := V.heads_ne_zero hat hl
  obtain ⟨f, hf⟩ := List.exists_mem_of_ne_nil _ (mem_heads.1 hl)
  have hfL := hf
  rw [mem_residual] at hfL
  refine ⟨pre [l] f, by rw [underT_one L hl0]; exact List.mem_map_of_mem hf, ?_⟩
  obtain ⟨m, hm, hem⟩ := List.mem_flatMap.1 he
  rcases hpost m hm with rfl | ⟨hm1, hm2⟩
  · rw [if_pos rfl] at hem
    obtain ⟨h1, h2⟩ := List.mem_filter.1 hem
    have h2 : e.1 = [] := by simpa using h2
    exact (hR e h1 _ hfL (by rw [h2]; simp)).1 (by rw [h2]; simp)
  · have hm0 := V.heads_ne_zero hat hm1
    rw [if_neg hm0] at hem
    obtain ⟨g, hg, rfl⟩ := List.mem_map.1 hem
    rw [mem_residual] at hg
    refine (hR _ hfL _ hg ?_).2 ?_
    · simp only [List.cons_append, List.nil_append]
      exact List.Lex.rel hm2
    · simp only [List.cons_append, List.nil_append, List.cons_prefix_cons, not_and]
      intro hc
      subst hc
      exact absurd hm2 (UInt8.lt_irrefl _)

/-- **C87**, the library: a ranked completer over a plain guide lists the keys with the prefix `p`, each once with its value, and then `Next` returns false for ever.  The order is
not that of the values: for `Rising` values the least is listed first. -/
theorem C87_ranked_completer {hist d D gd p u n} (h : Made hist d D) (hg : buildGuide d D = .ok (some gd)) (hpre : ∃ e ∈ accepted hist, p <+: e.1)
    (hf : D.followString p D.root = .ok (true, u, n)) (rc : RankedCompleter) (P : Key) :
    ∃ (rc0 : RankedCompleter) (xs : List (Key × Nat)), RankedCompleter.startString D gd rc u P = .ok rc0 ∧ xs.Perm (residual (words (accepted hist)) p) ∧
      (Rising (words (accepted hist)) → ∀ x ys, xs = x :: ys → ∀ e ∈ residual (words (accepted hist)) p, x.2 ≤ e.2) ∧
      ∀ m, (residual (words (accepted hist)) p).length < m → ∃ rc', rlisting D gd m rc0 = .ok (xs.map
        (fun e => (P ++ e.1 ++ [0], ((P.length + e.1.length : Nat) : Int), (e.2 : Int))), rc') ∧ RankedCompleter.next D gd rc' = .ok (rc', false) := by
  have hne : accepted hist ≠ [] := by
    obtain ⟨e, he, _⟩ := hpre; exact List.ne_nil_of_mem he
  obtain ⟨At, kid, DAt, V, h0, WW, hd0⟩ := Made.view h hne
  obtain ⟨gd', e1, e2⟩ := buildGuide_spec V WW h0 hd0
  rw [hg] at e1
  cases e1
  have V' := V.reach h0
  have hu := Made.index h V h0 hpre hf
  have hz : gd.size ≠ 0 := by
    have h1 := e2.size
    have h2 := V'.lt hu
    show gd.units.length ≠ 0
    omega
  have hW : 1 + W (residual (words (accepted hist)) p) ≤ 1073741824 := by
    have h1 := W_residual_le (words (accepted hist)) p
    have h2 := W_words_lt h.1
    omega
  have e3 := guide_lastly e2 (fun {u L} hr hany => buildGuide_zero V WW h0 hd0 hg (hr.at V h0) hany)
  obtain ⟨xs, f1, f2, _, f4⟩ := RReady.listing (R := fun a b => b ≤ a) (S := Rising (words (accepted hist))) (P := P) V' lastly_perm e3 (fun a => Nat.le_refl a)
    (fun {a b c} h1 h2 => Nat.le_trans h2 h1) (fun hr => Rising.desc V' (fun h => hr.reach h)) hu hW (by omega) _ .fresh rfl
  exact ⟨_, xs, rstartString_eq V' hz hu rc P, f1, fun hr x ys hx => f2 hr x ys hx rfl, f4⟩

/-! ## A ranked guide under a plain completer -/

theorem CutReady.listing {D : Dictionary} {At kid clean ord} (V : View D At kid clean) {gd : Guide} (hg : GuideIs D At kid ord gd) (ho : OrdPerm At ord) {u0 L0} (h0 : At u0 L0) {P : Key} :
    ∀ {T c} (n : Nat), CutReady D kid ord P u0 L0 c T → T.length < n →
    ∃ c', Client.listing D gd n c = .ok (T.map (fun e => (P ++ e.1 ++ [0], ((P.length + e.1.length : Nat) : Int), e.2)), c') ∧ c'.indexStack = []
  | T, c, 0, _, hn => absurd hn (by omega)
  | T, c, n + 1, hr, hn => by
    rcases cut_next V hg ho h0 hr with ⟨rfl, c', e1, e2⟩ | ⟨k, v, T', c', rfl, e1, e2, e3, e4⟩
    · refine ⟨c', ?_, e2⟩
      rw [Client.listing, e1]
      rfl
    · obtain ⟨c'', f1, f2⟩ := CutReady.listing V hg ho h0 n e4 (by simp only [List.length_cons] at hn; omega)
      refine ⟨c'', ?_, f2⟩
      have hlen : c'.length = ((P.length + k.length : Nat) : Int) := by
        have : c'.path = P ++ k ++ [0] := e2
        unfold Completer.length
        rw [this]
        simp only [List.length_append, List.length_singleton]; omega
      rw [Client.listing, e1]
      simp only [ok_bind, Bool.not_true, Bool.false_eq_true, if_false, e3, f1, e2, hlen, pure_eq_ok, List.map_cons]

/-- Every key `e` that starts with `q` and is a proper prefix of `k` has a smaller value than some key that goes on with the same byte as `k`. -/
def ShownFrom (acc : List (Key × Int)) (q k : Key) : Prop :=
  ∀ e ∈ acc, q <+: e.1 → ∀ b t, k = e.1 ++ b :: t → ∃ f ∈ acc, e.1 ++ [b] <+: f.1 ∧ stored e.2 < stored f.2

theorem shownFrom_nil {acc : List (Key × Int)} {k : Key} : ShownFrom acc [] k ↔ Shown acc k :=
  ⟨fun h e he => h e he (by simp), fun h e he _ => h e he⟩

theorem mem_words_int {acc : List (Key × Int)} {k : Key} {v : Nat} : (k, v) ∈ words acc ↔ ∃ e ∈ acc, e.1 = k ∧ stored e.2 = v := by
  unfold words
  rw [List.mem_map]
  constructor
  · rintro ⟨e, he, hk⟩
    cases hk
    exact ⟨e, he, rfl, rfl⟩
  · rintro ⟨e, he, rfl, rfl⟩
    exact ⟨e, he, rfl⟩

theorem shownFrom_words {acc : List (Key × Int)} {q k : Key} : Listed (residual (words acc) q) k ↔ ShownFrom acc q (q ++ k) := by
  constructor
  · intro h e he hq b t hk
    obtain ⟨s, hs⟩ := hq
    obtain ⟨f, hf, h1, h2⟩ := h (s, stored e.2) (by rw [mem_residual, mem_words_int]; exact ⟨e, he, hs.symm, rfl⟩) b t (by
      rw [← hs, List.append_assoc] at hk
      exact List.append_cancel_left hk)
    rw [mem_residual, mem_words_int] at hf
    obtain ⟨f', hf', h3, h4⟩ := hf
    refine ⟨f', hf', ?_, by rw [h4]; exact h2⟩
    rw [h3, ← hs, List.append_assoc, List.prefix_append_right_inj]
    exact h1
  · intro h e he b t hk
    rw [mem_residual, mem_words_int] at he
    obtain ⟨e', he', h3, h4⟩ := he
    obtain ⟨f, hf, h1, h2⟩ := h e' he' (by rw [h3]; simp) b t (by rw [h3, hk]; simp)
    rw [h3, List.append_assoc] at h1
    obtain ⟨s, hs⟩ := h1
    refine ⟨(e.1 ++ [b] ++ s, stored f.2), ?_, by simp, by rw [← h4]; exact h2⟩
    rw [mem_residual, mem_words_int]
    exact ⟨f, hf, by rw [← hs]; simp, rfl⟩

theorem shownBefore_residual {acc : List (Key × Int)} {q k k' : Key} (h : ListedBefore (residual (words acc) q) k k') : ShownBefore acc (q ++ k) (q ++ k') := by
  rcases h with h | ⟨p, b, b', t, t', h1, h2, h3, f, hf, h4, h5⟩
  · exact .inl (by rw [List.prefix_append_right_inj]; exact h)
  · rw [mem_residual, mem_words_int] at hf
    obtain ⟨f', hf', h6, h7⟩ := hf
    refine .inr ⟨q ++ p, b, b', t, t', by rw [h1]; simp, by rw [h2]; simp, h3, f', hf', ?_, ?_⟩
    · rw [h6, List.append_assoc, List.prefix_append_right_inj]
      exact h4
    · intro g hg hp
      obtain ⟨s, hs⟩ := hp
      rw [h7]
      refine h5 (p ++ [b'] ++ s, stored g.2) ?_ (by simp)
      rw [mem_residual, mem_words_int]
      exact ⟨g, hg, by rw [← hs]; simp, rfl⟩

/-- **C87**, the library: a plain completer over a ranked guide lists exactly the keys with the prefix `p` that are `ShownFrom` it, each once with its value and in the order
`ShownBefore`, and then `Next` returns false for ever; except for the empty prefix in a dictionary with the empty key. -/
theorem C87_plain_completer {hist d D gd p u n} {sorter : Sorter} (h : Made hist d D) (hs : StableSort sorter) (hg : buildRankedGuide sorter d D = .ok (some gd))
    (hp : ∃ e ∈ accepted hist, p <+: e.1) (hf : D.followString p D.root = .ok (true, u, n)) (hx : ¬ (p = [] ∧ ∃ e ∈ accepted hist, e.1 = [])) (c : Completer) (P : Key) :
    ∃ (c0 : Completer) (xs : List (Key × Nat)), Completer.startString gd c u P = .ok c0 ∧ (xs.map (·.1)).Nodup ∧
      (∀ e, e ∈ xs ↔ e ∈ residual (words (accepted hist)) p ∧ ShownFrom (accepted hist) p (p ++ e.1)) ∧ (xs.map (fun e => p ++ e.1)).Pairwise (ShownBefore (accepted hist)) ∧
      ∀ m, xs.length < m → ∃ c', listing D gd m c0 = .ok (xs.map (fun e => (P ++ e.1 ++ [0], ((P.length + e.1.length : Nat) : Int), e.2)), c') ∧ Completer.next D gd c' = .ok (c', false) := by
  have hne : accepted hist ≠ [] := by
    obtain ⟨e, he, _⟩ := hp; exact List.ne_nil_of_mem he
  obtain ⟨At, kid, DAt, V, h0, WW, hd0⟩ := Made.view h hne
  obtain ⟨g', f1, f2⟩ := buildRanked_spec (cmp := ltCmp) hs.perm V WW h0 hd0
  rw [show buildRankedGuideCmp sorter d D ltCmp = .ok (some gd) from hg] at f1
  cases f1
  have V' := V.reach h0
  have ho : OrdPerm (Reach kid (words (accepted hist))) (rord D sorter ltCmp) := fun h => rord_perm (cmp := ltCmp) hs.perm V' h
  have hu := Made.index h V h0 hp hf
  have hz : gd.size ≠ 0 := by
    have h1 := f2.size
    have h2 := V'.lt hu
    show gd.units.length ≠ 0
    omega
  have hkeys := listed_keys V' ho (D.size + 1) hu
  have hdep := V'.small hu
  have hmem : ∀ k, k ∈ findable (rord D sorter ltCmp) (D.size + 1) (residual (words (accepted hist)) p) ↔
      (∃ v, (k, v) ∈ residual (words (accepted hist)) p) ∧ ShownFrom (accepted hist) p (p ++ k) := by
    intro k
    rw [mem_findable V' ho (D.size + 1) k hu (fun e he => Nat.lt_succ_of_lt (hdep e he)), ← shownFrom_words]
    constructor
    · rintro ⟨h1, h2⟩
      exact ⟨h1, (seen_rord hs V' k hu h1).1 h2⟩
    · rintro ⟨h1, h2⟩
      exact ⟨h1, (seen_rord hs V' k hu h1).2 h2⟩
  have hr : CutReady D kid (rord D sorter ltCmp) P u (residual (words (accepted hist)) p) ⟨P ++ [0], [u], 0⟩
      (listed (rord D sorter ltCmp) (D.size + 1) (residual (words (accepted hist)) p)) := by
    refine .fresh ?_
    intro hu0 v hv
    subst hu0
    have := V'.func hu Reach.root
    rw [this] at hv
    refine hx ⟨?_, mem_words.1 ⟨v, hv⟩⟩
    -- only the empty prefix leads to the root
    cases hp' : p with
    | nil => rfl
    | cons l q =>
      exfalso
      rw [hp', show l :: q = [l] ++ q from rfl] at this
      obtain ⟨m, hm, hall⟩ := exists_longest (V'.ne Reach.root)
      have h2 := hm
      rw [← this, mem_residual] at h2
      have := hall _ h2
      simp only [List.length_append, List.length_cons] at this; omega
  have hinj : ∀ {a b : Key × Nat}, a ∈ residual (words (accepted hist)) p → b ∈ residual (words (accepted hist)) p → a.1 = b.1 → a = b := by
    intro a b ha hb hab
    have hnd := residual_nodup (words_sorted hist) p
    obtain ⟨i, hi, rfl⟩ := List.mem_iff_getElem.1 ha
    obtain ⟨j, hj, rfl⟩ := List.mem_iff_getElem.1 hb
    have h1 : i = j := by
      refine (List.getElem_inj (h₀ := by simpa using hi) (h₁ := by simpa using hj) hnd).1 ?_
      simpa using hab
    subst h1
    rfl
  refine ⟨_, listed (rord D sorter ltCmp) (D.size + 1) (residual (words (accepted hist)) p), startString_eq hz c u P, ?_, ?_, ?_, ?_⟩
  · rw [hkeys]
    exact findable_nodup V' ho _ hu
  · intro e
    constructor
    · intro he
      refine ⟨mem_listed _ he, ((hmem e.1).1 ?_).2⟩
      rw [← hkeys]
      exact List.mem_map_of_mem he
    · rintro ⟨h1, h2⟩
      have h3 := (hmem e.1).2 ⟨⟨e.2, h1⟩, h2⟩
      rw [← hkeys] at h3
      obtain ⟨e', he', hk⟩ := List.mem_map.1 h3
      have h4 := mem_listed _ he'
      have : e' = e := by
        obtain ⟨k, v⟩ := e
        obtain ⟨k', v'⟩ := e'
        simp only at hk
        subst hk
        exact hinj h4 h1 rfl
      rw [← this]
      exact he'
  · have h1 := (findable_before hs V' (D.size + 1) hu).imp shownBefore_residual
    rw [← hkeys, List.pairwise_map] at h1
    rw [List.pairwise_map]
    exact h1
  · intro m hm
    obtain ⟨c', f1, f3⟩ := CutReady.listing V' f2 ho hu m hr hm
    exact ⟨c', f1, next_ended f3⟩

/-! ## The tool -/

theorem handleLoad_eq {o : Opts} {fuel : Nat} {file : List UInt8} {qs : List Key} {l : Loaded} {as ts} (h1 : load o file = .ok l) (h2 : answers o l fuel Completers.new qs = .ok as)
    (h3 : totals o l = .ok ts) : handleLoad o fuel file qs = .ok (as, ts) := by
  unfold handleLoad
  rw [h1]
  change (lift (answers o l fuel Completers.new qs) >>= _) = _
  rw [h2]
  change (lift (totals o l) >>= _) = _
  rw [h3]
  rfl

/-- **C87**, what does not matter: without `-i`, a query without `-g` and `-r` gets the same from all files of a lexicon, and one with `-g` or `-r` gets the same from all its files with
the same kind of guide, whether they have an index or not. -/
theorem C87_same {hist d D} {linkSorter : Sorter} (h : Made hist d D) (hs : StableSort linkSorter) {o1 o2 o : Opts} (hi : o.index = false)
    (ho : (o.ranked || o.guide) = true → o1.ranked = o2.ranked ∧ (o1.ranked || o1.guide) = true ∧ (o2.ranked || o2.guide) = true) {file1 file2 : List UInt8}
    (hf1 : buildFile linkSorter o1 d = .ok file1) (hf2 : buildFile linkSorter o2 d = .ok file2) (fuel : Nat) (qs : List Key) :
    handleLoad o fuel file1 qs = handleLoad o fuel file2 qs := by
  have : load o file1 = load o file2 := by
    cases hc : (o.ranked || o.guide) with
    | false => rw [(C87_load h hs o1 o hf1).1 hc, (C87_load h hs o2 o hf2).1 hc]
    | true =>
      obtain ⟨k1, k2, k3⟩ := ho hc
      obtain ⟨g, e1, e2, _⟩ := (C87_load h hs o1 o hf1).2.2 hc k2
      obtain ⟨g', e3, e4, _⟩ := (C87_load h hs o2 o hf2).2.2 hc k3
      rw [k1, e3] at e1
      cases e1
      rw [e2 hi, e4 hi]
  unfold handleLoad
  rw [this]

/-- One answer with `-r` from a plain guide. -/
theorem answer_ranked_plain {hist d D g l} {o : Opts} (h : Made hist d D) (hg : buildGuide d D = .ok (some g)) (hl : Loads o d D g l) (hr : o.ranked = true) {q : Key}
    (hc : NoClash hist q) (c : Completers) {fuel : Nat} (hfuel : (extensions (accepted hist) q).length < fuel) :
    ∃ xs c', answer o l fuel c q = .ok (⟨q, if o.index then some (rankOf (accepted hist) q) else none, withNul xs⟩, c') ∧ xs.Perm (extensions (accepted hist) q) ∧
      (Rising (words (accepted hist)) → ∀ x ys, xs = x :: ys → ∀ e ∈ extensions (accepted hist) q, x.2 ≤ e.2) := by
  have hits : ∃ ok i k, D.followString q D.root = .ok (ok, i, k) ∧ (ok = false → extensions (accepted hist) q = []) ∧
      (ok = true → ∃ rc0 rc' xs, RankedCompleter.start D g c.ranked i = .ok rc0 ∧ rankedLoop D g q fuel rc0 = .ok (withNul xs, rc') ∧ xs.Perm (extensions (accepted hist) q) ∧
        (Rising (words (accepted hist)) → ∀ x ys, xs = x :: ys → ∀ e ∈ extensions (accepted hist) q, x.2 ≤ e.2)) := by
    by_cases he : accepted hist = []
    · obtain ⟨ok, i, k, h1, _⟩ := follow_empty h he q
      have hn : extensions (accepted hist) q = [] := extensions_nil (by simp [he])
      refine ⟨ok, i, k, h1, fun _ => hn, fun _ => ?_⟩
      have hz : g.size = 0 := by
        obtain ⟨g', e1, e2, _⟩ := C26_guide h
        rw [hg] at e1
        cases e1
        rw [e2, if_pos he]
      refine ⟨⟨[], 0, -1, [], [], []⟩, ⟨[], 0, -1, [], [], []⟩, [], ?_, ?_, by rw [hn], by simp⟩
      · unfold RankedCompleter.start RankedCompleter.startStringLen Completer.takeLen
        simp [hz, ok_bind, pure_eq_ok]
      · obtain ⟨fuel, rfl⟩ : ∃ f, fuel = f + 1 := ⟨fuel - 1, by omega⟩
        rw [rankedLoop, rnext_ended rfl rfl]
        rfl
    · by_cases hp : ∃ e ∈ accepted hist, q <+: e.1
      · obtain ⟨i, h1, _⟩ := follow_prefix h hp
        refine ⟨true, i, _, h1, by simp, fun _ => ?_⟩
        obtain ⟨rc0, xs, h2, h3, h4, h5⟩ := C87_ranked_completer h hg hp h1 c.ranked []
        obtain ⟨rc', h6, _⟩ := h5 fuel (by rw [extensions_length]; exact hfuel)
        have hext : (residual (words (accepted hist)) q).map (fun e => (q ++ e.1, (e.2 : Int))) = extensions (accepted hist) q := by
          have := congrArg (List.map (fun e : Key × Int => (e.1.dropLast, e.2))) (residual_extensions (accepted hist) q)
          unfold withNul at this
          rw [List.map_map, List.map_map] at this
          simpa [Function.comp_def, ← List.append_assoc] using this
        refine ⟨rc0, rc', xs.map (fun e => (q ++ e.1, (e.2 : Int))), h2, ?_, ?_, ?_⟩
        · rw [rankedLoop_listing h6]
          unfold withNul
          rw [List.map_map, List.map_map]
          simp [Function.comp_def]
        · exact (h3.map _).trans (List.Perm.of_eq hext)
        · intro hri x ys hx e he
          cases xs with
          | nil => cases hx
          | cons y xs =>
            simp only [List.map_cons, List.cons.injEq] at hx
            obtain ⟨rfl, _⟩ := hx
            rw [← hext] at he
            obtain ⟨f, hf, rfl⟩ := List.mem_map.1 he
            have := h4 hri y xs rfl f hf
            simpa using this
      · obtain ⟨i, k, h1⟩ := follow_other h he hp hc
        exact ⟨false, i, k, h1, fun _ => extensions_nil hp, by simp⟩
  obtain ⟨ok, i, k, h1, h2, h3⟩ := hits
  have hrank := queryRank_eq h hg hl hc
  unfold answer
  rw [hl.guide]
  simp only [hl.dict]
  rw [hrank]
  simp only [ok_bind]
  rw [h1]
  simp only [ok_bind]
  cases ok with
  | false => exact ⟨[], c, rfl, by rw [h2 rfl], by simp⟩
  | true =>
    obtain ⟨rc, rc', xs, h4, h5, h6, h7⟩ := h3 rfl
    simp only [Bool.not_true, Bool.false_eq_true, if_false, hr, if_true]
    rw [h4]
    simp only [ok_bind]
    rw [h5]
    exact ⟨xs, { c with ranked := rc' }, rfl, h6, h7⟩

theorem answers_mixed {o : Opts} {l : Loaded} {fuel : Nat} {P : Answer → Prop} {qs : List Key} (h : ∀ q ∈ qs, ∀ c, ∃ a c', answer o l fuel c q = .ok (a, c') ∧ a.query = q ∧ P a)
    (c : Completers) : ∃ as, answers o l fuel c qs = .ok as ∧ as.map (·.query) = qs ∧ ∀ a ∈ as, P a := by
  induction qs generalizing c with
  | nil => exact ⟨[], rfl, rfl, by simp⟩
  | cons q qs ih =>
    obtain ⟨a, c', h1, h0, h2⟩ := h q (by simp) c
    obtain ⟨as, h3, h4, h5⟩ := ih (fun q hq => h q (by simp [hq])) c'
    refine ⟨a :: as, ?_, by simp [h4, h0], ?_⟩
    · rw [answers, h1]
      simp only [ok_bind]
      rw [h3]
      rfl
    · intro b hb
      rcases List.mem_cons.1 hb with rfl | hb
      · exact h2
      · exact h5 b hb

/-- The full claim C87: the answers depend on the lexicon and the options of the query only, not on the kind of guide in the file. -/
def C87_statement : Prop := ∀ hist d D (linkSorter : Sorter) (o1 o2 o : Opts) (file1 file2 : List UInt8), Made hist d D → StableSort linkSorter →
  (o1.ranked || o1.guide) = true → (o2.ranked || o2.guide) = true → o.index = false → buildFile linkSorter o1 d = .ok file1 → buildFile linkSorter o2 d = .ok file2 →
  ∀ fuel qs, handleLoad o fuel file1 qs = handleLoad o fuel file2 qs

/-- **C87**, built with `-g` and queried with `-r`: every answer has the keys that start with the query, each once with its value; the numbers and the final listing of `-i` are those of
`-g -i`. -/
theorem C87_plain_file_partial {hist d D} {linkSorter : Sorter} (h : Made hist d D) (hs : StableSort linkSorter) {o o' : Opts} (hr : o.ranked = false) (hgd : o.guide = true)
    (hr' : o'.ranked = true) (hi : o'.index = true → o.index = true) {file : List UInt8} (hf : buildFile linkSorter o d = .ok file) {qs : List Key} (hc : ∀ q ∈ qs, NoClash hist q)
    {fuel : Nat} (hfuel : (accepted hist).length < fuel) :
    ∃ as, handleLoad o' fuel file qs = .ok (as, if o'.index then some ((accepted hist).map (·.1)) else none) ∧ as.map (·.query) = qs ∧
      ∀ a ∈ as, a.rank = (if o'.index then some (rankOf (accepted hist) a.query) else none) ∧ ∃ xs, a.hits = withNul xs ∧ xs.Perm (extensions (accepted hist) a.query) ∧
        (Rising (words (accepted hist)) → ∀ x ys, xs = x :: ys → ∀ e ∈ extensions (accepted hist) a.query, x.2 ≤ e.2) := by
  obtain ⟨g, l, h1, h2, h3⟩ := load_mixed h hs (o := o) (o' := o') (by simp [hgd]) (by simp [hr']) hi hf
  rw [hr, if_neg (by simp)] at h2
  obtain ⟨as, k1, k2, k3⟩ := answers_mixed (o := o') (l := l) (fuel := fuel) (qs := qs)
    (P := fun a => a.rank = (if o'.index then some (rankOf (accepted hist) a.query) else none) ∧ ∃ xs, a.hits = withNul xs ∧ xs.Perm (extensions (accepted hist) a.query) ∧
        (Rising (words (accepted hist)) → ∀ x ys, xs = x :: ys → ∀ e ∈ extensions (accepted hist) a.query, x.2 ≤ e.2))
    (fun q hq c => by
      obtain ⟨xs, c', e1, e2, e3⟩ := answer_ranked_plain h h2 h3 hr' (hc q hq) c (fuel := fuel) (by have := extensions_le (accepted hist) q; omega)
      exact ⟨_, c', e1, rfl, rfl, xs, rfl, e2, e3⟩) Completers.new
  exact ⟨as, handleLoad_eq h1 k1 (totals_eq h h2 h3), k2, k3⟩

/-- What is listed after the last query, from a ranked guide. -/
theorem totals_ranked {hist d D g l} {linkSorter : Sorter} {o : Opts} (h : Made hist d D) (hs : StableSort linkSorter) (hg : buildRankedGuide linkSorter d D = .ok (some g))
    (hl : Loads o d D g l) : ∃ ts, totals o l = .ok ts ∧ (o.index = false → ts = none) ∧ (o.index = true → ∃ ks, ts = some ks ∧ ks.Nodup ∧
      (∀ k, k ∈ ks ↔ (∃ e ∈ accepted hist, e.1 = k) ∧ Shown (accepted hist) k) ∧ ks.Pairwise (ShownBefore (accepted hist))) := by
  cases hi : o.index with
  | false =>
    refine ⟨none, ?_, fun _ => rfl, by simp⟩
    unfold totals
    rw [hi]
    rfl
  | true =>
    obtain ⟨x, h8, h9⟩ := hl.index hi
    have hne : accepted hist ≠ [] := by
      intro he
      rw [ranked_index_empty h he hs hg] at h9
      cases h9
    obtain ⟨x', ks, e1, e2, e3, e4, e5, e6, e7, _⟩ := C86_index h hne hs hg
    rw [h9] at e1
    cases e1
    refine ⟨some ks, ?_, by simp, fun _ => ⟨ks, rfl, e4, e5, e6⟩⟩
    unfold totals
    rw [hi, hl.guide, h8, hl.dict]
    simp only [if_true]
    rw [show Indexer.totalCount x = .ok ks.length from e2]
    simp only [ok_bind]
    have hsz := accepted_length_lt h.1
    rw [mapM_ok (g := fun i => (ks[i]?).getD [])]
    · show Except.ok (some _) = Except.ok (some _)
      congr 2
      apply List.ext_getElem
      · simp
      · intro i h1 h2
        simp only [List.length_map, List.length_range] at h1
        simp [h1]
    · intro i hi
      rw [List.mem_range] at hi
      have : u32 i = i := Nat.mod_eq_of_lt (by omega)
      rw [this]
      unfold Indexer.indexToString
      rw [e7 i]
      rfl

/-- The keys of an answer from a ranked guide. -/
def ShownHits (acc : List (Key × Int)) (q : Key) (hits : List (Key × Int)) : Prop :=
  ∃ xs, hits = withNul xs ∧ xs.Nodup ∧ (∀ e, e ∈ xs ↔ e ∈ extensions acc q ∧ ShownFrom acc q e.1) ∧ xs.Pairwise (fun a b => ShownBefore acc a.1 b.1)

/-- One answer with `-g` from a ranked guide. -/
theorem answer_plain_ranked {hist d D g l} {linkSorter : Sorter} {o : Opts} (h : Made hist d D) (hs : StableSort linkSorter) (hg : buildRankedGuide linkSorter d D = .ok (some g))
    (hl : Loads o d D g l) (hr : o.ranked = false) {q : Key} (hc : NoClash hist q) (hx : ¬ (q = [] ∧ ∃ e ∈ accepted hist, e.1 = [])) (c : Completers) {fuel : Nat}
    (hfuel : (extensions (accepted hist) q).length < fuel) :
    ∃ r hits c', answer o l fuel c q = .ok (⟨q, r, hits⟩, c') ∧ r.isSome = o.index ∧ ShownHits (accepted hist) q hits := by
  have hits : ∃ ok i k, D.followString q D.root = .ok (ok, i, k) ∧ (ok = false → extensions (accepted hist) q = []) ∧
      (ok = true → ∃ c0 c' hits, Completer.start g c.plain i = .ok c0 ∧ completeLoop D g q fuel c0 = .ok (hits, c') ∧ ShownHits (accepted hist) q hits) := by
    by_cases he : accepted hist = []
    · obtain ⟨ok, i, k, h1, _⟩ := follow_empty h he q
      have hn : extensions (accepted hist) q = [] := extensions_nil (by simp [he])
      refine ⟨ok, i, k, h1, fun _ => hn, fun _ => ?_⟩
      have hz : g.size = 0 := by
        obtain ⟨g', e1, e2⟩ := C27_ranked_guide h hs.perm (fun lhs rhs => decide (lhs < rhs))
        rw [show buildRankedGuideCmp linkSorter d D (fun lhs rhs => decide (lhs < rhs)) = .ok (some g) from hg] at e1
        cases e1
        rw [e2, if_pos he]
      refine ⟨{ c.plain with path := [0], indexStack := [] }, { c.plain with path := [0], indexStack := [] }, [], ?_, ?_, [], rfl, by simp, by simp [hn], by simp⟩
      · unfold Completer.start Completer.startStringLen Completer.takeLen
        simp [hz, ok_bind, pure_eq_ok]
      · obtain ⟨fuel, rfl⟩ : ∃ f, fuel = f + 1 := ⟨fuel - 1, by omega⟩
        rw [completeLoop, next_ended rfl]
        rfl
    · by_cases hp : ∃ e ∈ accepted hist, q <+: e.1
      · obtain ⟨i, h1, _⟩ := follow_prefix h hp
        refine ⟨true, i, _, h1, by simp, fun _ => ?_⟩
        obtain ⟨c0, xs, h2, h3, h4, h5, h6⟩ := C87_plain_completer h hs hg hp h1 hx c.plain []
        have hext : (residual (words (accepted hist)) q).map (fun e => (q ++ e.1, (e.2 : Int))) = extensions (accepted hist) q := by
          have := congrArg (List.map (fun e : Key × Int => (e.1.dropLast, e.2))) (residual_extensions (accepted hist) q)
          unfold withNul at this
          rw [List.map_map, List.map_map] at this
          simpa [Function.comp_def, ← List.append_assoc] using this
        have hnd : xs.Nodup := by
          have h7 : (xs.map (·.1)).Pairwise (· ≠ ·) := h3
          rw [List.pairwise_map] at h7
          exact h7.imp (fun hab hc => hab (by rw [hc]))
        have hle : xs.length ≤ (extensions (accepted hist) q).length := by
          rw [← extensions_length]
          exact hnd.length_le_of_subset (fun e he => ((h4 e).1 he).1)
        obtain ⟨c', h7, _⟩ := h6 fuel (by omega)
        refine ⟨c0, c', _, h2, completeLoop_listing h7, xs.map (fun e => (q ++ e.1, (e.2 : Int))), ?_, ?_, ?_, ?_⟩
        · unfold withNul
          rw [List.map_map, List.map_map]
          simp [Function.comp_def]
        · show List.Pairwise _ _
          rw [List.pairwise_map]
          have h8 : xs.Pairwise (· ≠ ·) := hnd
          refine h8.imp (fun {a b} hab hc => hab ?_)
          simp only [Prod.mk.injEq, List.append_cancel_left_eq] at hc
          exact Prod.ext hc.1 (by omega)
        · intro e
          rw [← hext]
          constructor
          · intro he
            obtain ⟨f, hf, rfl⟩ := List.mem_map.1 he
            obtain ⟨k1, k2⟩ := (h4 f).1 hf
            exact ⟨List.mem_map_of_mem (f := fun e : Key × Nat => (q ++ e.1, (e.2 : Int))) k1, k2⟩
          · rintro ⟨h8, h9⟩
            obtain ⟨f, hf, rfl⟩ := List.mem_map.1 h8
            exact List.mem_map_of_mem (f := fun e : Key × Nat => (q ++ e.1, (e.2 : Int))) ((h4 f).2 ⟨hf, h9⟩)
        · rw [List.pairwise_map] at h5 ⊢
          exact h5
      · obtain ⟨i, k, h1⟩ := follow_other h he hp hc
        exact ⟨false, i, k, h1, fun _ => extensions_nil hp, by simp⟩
  obtain ⟨ok, i, k, h1, h2, h3⟩ := hits
  have hrank : ∃ r, queryRank l g q = .ok r ∧ r.isSome = o.index := by
    unfold queryRank
    cases hi : o.index with
    | false => rw [hl.noIndex hi]; exact ⟨none, rfl, rfl⟩
    | true =>
      obtain ⟨x, e1, e2⟩ := hl.index hi
      have hne : accepted hist ≠ [] := by
        intro he
        rw [ranked_index_empty h he hs hg] at e2
        cases e2
      obtain ⟨x', ks, e3, _, _, _, _, _, _, e4⟩ := C86_index h hne hs hg
      rw [e2] at e3
      cases e3
      obtain ⟨n, hn, _⟩ := e4 q hc
      rw [e1]
      simp only [hl.dict]
      rw [hn]
      exact ⟨some n, rfl, rfl⟩
  obtain ⟨r, hr1, hr2⟩ := hrank
  unfold answer
  rw [hl.guide]
  simp only [hl.dict]
  rw [hr1]
  simp only [ok_bind]
  rw [h1]
  simp only [ok_bind]
  cases ok with
  | false => exact ⟨r, [], c, rfl, hr2, [], rfl, by simp, by simp [h2 rfl], by simp⟩
  | true =>
    obtain ⟨c0, c', hits, h4, h5, h6⟩ := h3 rfl
    simp only [Bool.not_true, Bool.false_eq_true, if_false, hr]
    rw [h4]
    simp only [ok_bind]
    rw [h5]
    exact ⟨r, hits, { c with plain := c' }, rfl, hr2, h6⟩

/-- **C87**, built with `-r` and queried with `-g`: every answer has exactly the keys `k` that start with the query and are such that every key that starts with the query and is a proper
prefix of `k` has a smaller value than some key that goes on with the same byte as `k`; each once with its value, in the order `ShownBefore`.  The final listing of `-i` is that of
`-r -i`. -/
theorem C87_ranked_file_partial {hist d D} {linkSorter : Sorter} (h : Made hist d D) (hs : StableSort linkSorter) {o o' : Opts} (hr : o.ranked = true) (hr' : o'.ranked = false)
    (hgd : o'.guide = true) (hi : o'.index = true → o.index = true) {file : List UInt8} (hf : buildFile linkSorter o d = .ok file) {qs : List Key} (hc : ∀ q ∈ qs, NoClash hist q)
    (hx : ¬ ([] ∈ qs ∧ ∃ e ∈ accepted hist, e.1 = [])) {fuel : Nat} (hfuel : (accepted hist).length < fuel) :
    ∃ as ts, handleLoad o' fuel file qs = .ok (as, ts) ∧ as.map (·.query) = qs ∧ (∀ a ∈ as, a.rank.isSome = o'.index ∧ ShownHits (accepted hist) a.query a.hits) ∧
      (o'.index = false → ts = none) ∧ (o'.index = true → ∃ ks, ts = some ks ∧ ks.Nodup ∧
        (∀ k, k ∈ ks ↔ (∃ e ∈ accepted hist, e.1 = k) ∧ Shown (accepted hist) k) ∧ ks.Pairwise (ShownBefore (accepted hist))) := by
  obtain ⟨g, l, h1, h2, h3⟩ := load_mixed h hs (o := o) (o' := o') (by simp [hr]) (by simp [hgd]) hi hf
  rw [hr, if_pos rfl] at h2
  obtain ⟨as, k1, k2, k3⟩ := answers_mixed (o := o') (l := l) (fuel := fuel) (qs := qs) (P := fun a => a.rank.isSome = o'.index ∧ ShownHits (accepted hist) a.query a.hits)
    (fun q hq c => by
      obtain ⟨r, hits, c', e1, e2, e3⟩ := answer_plain_ranked h hs h2 h3 hr' (hc q hq) (fun hn => hx ⟨hn.1 ▸ hq, hn.2⟩) c (fuel := fuel)
        (by have := extensions_le (accepted hist) q; omega)
      exact ⟨_, c', e1, rfl, e2, e3⟩) Completers.new
  obtain ⟨ts, t1, t2, t3⟩ := totals_ranked h hs h2 h3
  exact ⟨as, ts, handleLoad_eq h1 k1 t1, k2, k3, t2, t3⟩

/-- **C87 is false**: of "a" = 1 and "ab" = 1 the file built with `-r` gives only "a" when queried with `-g`; the file built with `-g` gives both. -/
theorem C87_options_false : ¬ C87_statement := by
  intro hst
  obtain ⟨d, D, h, _⟩ := C14_small_builds 1 (by omega) (by omega) keysR (by decide) (by decide)
  obtain ⟨file1, f1⟩ := C45_tool_writes h insertionSort_stableSort { ranked := true } (by simp)
  obtain ⟨file2, f2⟩ := C45_tool_writes h insertionSort_stableSort { guide := true } (by simp)
  have he := hst _ d D insertionSort { ranked := true } { guide := true } { guide := true } file1 file2 h insertionSort_stableSort rfl rfl rfl f1 f2 9 [[]]
  have hc : ∀ q ∈ ([[]] : List Key), NoClash keysR q := fun q hq => .of_bytes (by revert q; decide)
  rw [C49_completions_partial h insertionSort_stableSort rfl rfl f2 hc (by decide) (by decide)] at he
  obtain ⟨as, ts, e1, _, e2, _⟩ := C87_ranked_file_partial (o' := { guide := true }) (fuel := 9) h insertionSort_stableSort rfl rfl rfl (by simp) f1 hc (by decide) (by decide)
  rw [he] at e1
  simp only [Except.ok.injEq, Prod.mk.injEq] at e1
  obtain ⟨rfl, _⟩ := e1
  obtain ⟨_, xs, e3, _, e4, _⟩ := e2 ⟨[], none, withNul (extensions (accepted keysR) [])⟩ (List.mem_map.2 ⟨[], by simp, rfl⟩)
  have hm : (([97, 98, 0], 1) : Key × Int) ∈ withNul (extensions (accepted keysR) []) := by decide
  simp only at e3
  rw [e3] at hm
  obtain ⟨e, he1, he2⟩ := List.mem_map.1 hm
  have he3 : e = ([97, 98], 1) := by
    simp only [Prod.mk.injEq] at he2
    have := congrArg List.dropLast he2.1
    rw [List.dropLast_concat] at this
    exact Prod.ext this he2.2
  subst he3
  obtain ⟨f, hf, _, hlt⟩ := ((e4 _).1 he1).2 ([97], 1) (by decide) (by simp) 98 [] rfl
  have : ∀ f ∈ accepted keysR, ¬ stored 1 < stored f.2 := by decide
  exact this f hf hlt

/-- The claim for `-r`: the values never increase, whatever the kind of guide in the file. -/
def C87_order_statement : Prop := ∀ hist d D (linkSorter : Sorter) (o o' : Opts) (file : List UInt8), Made hist d D → StableSort linkSorter → (o.ranked || o.guide) = true →
  o'.ranked = true → o'.index = false → buildFile linkSorter o d = .ok file → ∃ N, ∀ fuel, N ≤ fuel → ∀ as ts, handleLoad o' fuel file [[]] = .ok (as, ts) →
  ∀ a ∈ as, a.hits.Pairwise (fun a b => a.2 ≥ b.2)

/-- **That is false too**: from the file of "a" = 1 and "b" = 2 built with `-g`, `-r` gives "a" before "b". -/
theorem C87_order_false : ¬ C87_order_statement := by
  intro hst
  obtain ⟨d, D, h, _⟩ := C14_small_builds 1 (by omega) (by omega) [([97], 1), ([98], 2)] (by decide) (by decide)
  obtain ⟨file, f1⟩ := C45_tool_writes h insertionSort_stableSort { guide := true } (by simp)
  obtain ⟨N, hN⟩ := hst _ d D insertionSort { guide := true } { ranked := true } file h insertionSort_stableSort rfl rfl rfl f1
  obtain ⟨as, e1, e2, e3⟩ := C87_plain_file_partial (o' := { ranked := true }) (fuel := N + 9) (qs := [[]]) h insertionSort_stableSort rfl rfl rfl (by simp) f1
    (fun q hq => .of_bytes (by revert q; decide)) (by rw [show (accepted [([97], 1), ([98], 2)]).length = 2 by decide]; omega)
  match as, e2, e3, e1 with
  | [⟨q, r, hits⟩], e2, e3, e1 =>
    simp only [List.map_cons, List.map_nil, List.cons.injEq, and_true] at e2
    subst e2
    have hd := hN (N + 9) (by omega) _ _ e1 _ (List.mem_singleton.2 rfl)
    obtain ⟨_, xs, e4, e5, e6⟩ := e3 _ (List.mem_singleton.2 rfl)
    simp only at e4 e5 e6 hd
    have hri : Rising (words (accepted [([97], 1), ([98], 2)])) := by
      rw [show words (accepted [([97], 1), ([98], 2)]) = [([97], 1), ([98], 2)] by decide]
      intro e he f hf hlt
      revert e f
      decide
    have hx : extensions (accepted [([97], 1), ([98], 2)]) [] = [([97], 1), ([98], 2)] := by decide
    rw [hx] at e5 e6
    rw [e4] at hd
    unfold withNul at hd
    rw [List.pairwise_map] at hd
    match xs, e5, e6, hd with
    | [], e5, _, _ => exact absurd e5.length_eq (by simp)
    | x :: ys, e5, e6, hd =>
      have h1 := e6 hri x ys rfl ([97], 1) (by simp)
      have h2 : (([98], 2) : Key × Int) ∈ x :: ys := e5.mem_iff.2 (by simp)
      rcases List.mem_cons.1 h2 with rfl | h2
      · simp at h1
      · have := (List.pairwise_cons.1 hd).1 _ h2
        simp only at this h1
        omega
  | [], e2, _, _ => simp at e2
  | _ :: _ :: _, e2, _, _ => simp at e2

/-- "a" = 5, "ab" = 3, "b" = 7 built with `-r` and queried with `-g`: the empty query finds "b" and "a", the query "ab" finds "ab". -/
example : ∃ d D file as, Made keysG d D ∧ buildFile insertionSort { ranked := true } d = .ok file ∧ handleLoad { guide := true } 9 file [[], [97, 98]] = .ok (as, none) ∧
    as.map (·.query) = [[], [97, 98]] ∧ (∀ a ∈ as, a.query = [] → ([98, 0], 7) ∈ a.hits ∧ ([97, 98, 0], 3) ∉ a.hits) ∧ ∀ a ∈ as, a.query = [97, 98] → a.hits = [([97, 98, 0], 3)] := by
  obtain ⟨d, D, h⟩ := madeG
  obtain ⟨file, h1⟩ := C45_tool_writes h insertionSort_stableSort { ranked := true } (by simp)
  obtain ⟨as, ts, h2, h3, h4, h5, _⟩ := C87_ranked_file_partial (o' := { guide := true }) (qs := [[], [97, 98]]) (fuel := 9) h insertionSort_stableSort rfl rfl rfl (by simp) h1
    (fun q hq => .of_bytes (by revert q; decide)) (by decide) (by decide)
  rw [h5 rfl] at h2
  refine ⟨d, D, file, as, h, h1, h2, h3, ?_, ?_⟩
  · intro a ha hq
    obtain ⟨_, xs, e1, _, e2, _⟩ := h4 a ha
    rw [hq] at e2
    rw [e1]
    constructor
    · refine List.mem_map.2 ⟨([98], 7), (e2 _).2 ⟨by decide, fun e he _ b t hk => ?_⟩, rfl⟩
      have : ∀ e ∈ accepted keysG, e.1.length + 1 ≤ 1 → False := by decide
      exact (this e he (by have := congrArg List.length hk; simp at this; omega)).elim
    · intro hm
      obtain ⟨e, he1, he2⟩ := List.mem_map.1 hm
      have he3 : e = ([97, 98], 3) := by
        simp only [Prod.mk.injEq] at he2
        have := congrArg List.dropLast he2.1
        rw [List.dropLast_concat] at this
        exact Prod.ext this he2.2
      subst he3
      obtain ⟨f, hf, hp, hlt⟩ := ((e2 _).1 he1).2 ([97], 5) (by decide) (by simp) 98 [] rfl
      have : ∀ f ∈ accepted keysG, [97] ++ [98] <+: f.1 → ¬ stored 5 < stored f.2 := by decide
      exact this f hf hp hlt
  · intro a ha hq
    obtain ⟨_, xs, e1, e0, e2, _⟩ := h4 a ha
    rw [hq] at e2
    have hx : extensions (accepted keysG) [97, 98] = [([97, 98], 3)] := by decide
    have hm : ∀ e, e ∈ xs ↔ e ∈ [(([97, 98], 3) : Key × Int)] := by
      intro e
      rw [e2, hx]
      refine ⟨fun h => h.1, fun h => ⟨h, fun f hf hp b t hk => ?_⟩⟩
      have h1 := List.mem_singleton.1 h
      subst h1
      have h3 := congrArg List.length hk
      have h4 := hp.length_le
      simp at h3 h4
      omega
    have := (List.perm_ext_iff_of_nodup e0 (by simp)).2 hm
    rw [e1, List.perm_singleton.1 this]
    rfl

/-- The same keys built with `-g` and queried with `-r -i`: not possible without an index in the file, and the three keys with one. -/
example : ∃ d D file file', Made keysG d D ∧ buildFile insertionSort { guide := true } d = .ok file ∧ buildFile insertionSort { guide := true, index := true } d = .ok file' ∧
    handleLoad { ranked := true, index := true } 9 file [] = .error .fatal ∧ handleLoad { ranked := true, index := true } 9 file' [] = .ok ([], some [[97], [97, 98], [98]]) := by
  obtain ⟨d, D, h⟩ := madeG
  obtain ⟨file, h1⟩ := C45_tool_writes h insertionSort_stableSort { guide := true } (by simp)
  obtain ⟨file', h2⟩ := C45_tool_writes h insertionSort_stableSort { guide := true, index := true } (fun _ => ⟨rfl, by decide⟩)
  refine ⟨d, D, file, file', h, h1, h2, ?_, ?_⟩
  · obtain ⟨g, _, _, h3, _⟩ := (C87_load h insertionSort_stableSort { guide := true } { ranked := true, index := true } h1).2.2 rfl rfl
    unfold handleLoad
    rw [h3 rfl rfl]
    rfl
  · obtain ⟨as, h3, h4, _⟩ := C87_plain_file_partial (o' := { ranked := true, index := true }) (qs := []) (fuel := 9) h insertionSort_stableSort rfl rfl rfl (by simp) h2 (by simp) (by decide)
    rw [h3, List.map_eq_nil_iff.1 h4]
    decide
end Dawg.Props
