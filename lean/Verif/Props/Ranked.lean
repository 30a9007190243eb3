import Verif.Props.Index
import Verif.Proof.Guide.RankedNext
import Verif.Proof.Guide.RankedIndex
import Verif.Proof.Dict.WitnessCmp
/-! # C27–C29 and C33: ranked guides and ranked completers -/
namespace Dawg.Props
open Dawg Dawg.Spec Dawg.Client Dawg.Abs Dawg.Dict Dawg.Guided
attribute [-simp] List.length_flatten

theorem W_residual_le (L : Lang) (p : Key) : W (residual L p) ≤ W L := by
  unfold residual
  induction L with
  | nil => simp [W]
  | cons e L ih =>
    rw [List.filter_cons]
    split
    · simp only [List.map_cons, W_cons, List.length_drop]; omega
    · rw [W_cons]; omega

theorem W_words_lt {hist : List (Key × Int)} (hadm : Admissible hist) : W (words (accepted hist)) < 1073741824 := by
  have h1 := accepted_total hist
  have h2 := hadm.small
  unfold W words
  rw [List.map_map]
  show ((accepted hist).map (fun e => e.1.length + 1)).sum < _
  omega

theorem residual_nodup {L : Lang} (hL : L.Pairwise (fun a b => a.1 < b.1)) (p : Key) : ((residual L p).map (·.1)).Nodup := by
  unfold residual
  rw [List.map_map]
  unfold List.Nodup
  rw [List.pairwise_map]
  refine (hL.filter _).imp_of_mem ?_
  intro a b ha hb hab hc
  have h1 := List.isPrefixOf_iff_prefix.1 (List.mem_filter.1 ha).2
  have h2 := List.isPrefixOf_iff_prefix.1 (List.mem_filter.1 hb).2
  obtain ⟨a', ha'⟩ := h1
  obtain ⟨b', hb'⟩ := h2
  simp only [Function.comp, ← ha', ← hb', List.drop_left] at hc
  rw [← ha', ← hb', hc] at hab
  exact List.lt_irrefl _ hab

theorem words_sorted (hist : List (Key × Int)) : (words (accepted hist)).Pairwise (fun a b => a.1 < b.1) := by
  unfold words
  rw [List.pairwise_map]
  exact accepted_sorted hist

theorem rnext_ended {D : Dictionary} {gd : Guide} {rc : RankedCompleter} (h1 : rc.nodeQueue = []) (h2 : rc.candidateQueue = []) :
    RankedCompleter.next D gd rc = .ok (rc, false) := by
  obtain ⟨a, b, c, d, e, f⟩ := rc
  simp only at h1 h2
  subst h1 h2
  rfl

theorem RReady.listing {D : Dictionary} {At kid clean ord} {R : Nat → Nat → Prop} {S : Prop} {gd : Guide} {u0 L0 B} {P : Key} (V : View D At kid clean)
    (ho : OrdPerm At ord) (hg : GuideIs D At kid ord gd) (hR : ∀ a, R a a) (hT : ∀ {a b c}, R a b → R b c → R a c) (hS : S → Desc R At ord) (h0 : At u0 L0)
    (hW : 1 + W L0 ≤ B) (hB : B < 4294967296) :
    ∀ (n : Nat) {T rc}, RReady R At kid ord u0 L0 S B P rc T → T.length = n →
    ∃ xs, xs.Perm T ∧
      (S → ∀ x ys, xs = x :: ys → rc.value = -1 → ∀ e ∈ T, R e.2 x.2) ∧
      (S → (∀ a b, a ≤ b → R a b) → xs.Pairwise (fun a b => R b.2 a.2)) ∧
      ∀ m, n < m → ∃ rc', rlisting D gd m rc = .ok (xs.map (fun e => (P ++ e.1 ++ [0], ((P.length + e.1.length : Nat) : Int), (e.2 : Int))), rc') ∧
        RankedCompleter.next D gd rc' = .ok (rc', false)
  | n, T, rc, hr, hn => by
    rcases rnext_spec V ho hg hR hT hS h0 hW hB hr with ⟨rfl, rc', e1, e2, e3⟩ | ⟨k, v, T', rc', hp, e1, e2, e3, e4, e5, _⟩
    · refine ⟨[], List.Perm.refl _, by simp, by simp, ?_⟩
      intro m hm
      obtain ⟨m, rfl⟩ : ∃ j, m = j + 1 := ⟨m - 1, by omega⟩
      refine ⟨rc', ?_, rnext_ended e2 e3⟩
      rw [rlisting, e1]
      rfl
    · have hn' := hp.length_eq
      simp only [List.length_cons] at hn'
      obtain ⟨n, rfl⟩ : ∃ j, n = j + 1 := ⟨n - 1, by omega⟩
      obtain ⟨xs, f1, f2, f3, f4⟩ := RReady.listing V ho hg hR hT hS h0 hW hB n e4 (by omega)
      refine ⟨(k, v) :: xs, (f1.cons _).trans hp.symm, ?_, ?_, ?_⟩
      · intro hs x ys hx hv
        cases hx
        exact e5 hs (.inl hv)
      · intro hs ha
        rw [List.pairwise_cons]
        refine ⟨?_, f3 hs ha⟩
        intro e he
        exact e5 hs (.inr ha) e (hp.mem_iff.2 (List.mem_cons_of_mem _ (f1.mem_iff.1 he)))
      · intro m hm
        obtain ⟨m, rfl⟩ : ∃ j, m = j + 1 := ⟨m - 1, by omega⟩
        obtain ⟨rc'', g1, g2⟩ := f4 m (by omega)
        refine ⟨rc'', ?_, g2⟩
        have hlen : rc'.length = ((P.length + k.length : Nat) : Int) := by
          have : rc'.path = P ++ k ++ [0] := e2
          unfold RankedCompleter.length
          rw [this]
          simp only [List.length_append, List.length_singleton]; omega
        rw [rlisting, e1]
        simp only [ok_bind, Bool.not_true, Bool.false_eq_true, if_false, g1, e2, hlen, e3, pure_eq_ok, List.map_cons]
        rfl

theorem rstartString_eq {D : Dictionary} {At kid clean} (V : View D At kid clean) {gd : Guide} (hz : gd.size ≠ 0) {u L} (h : At u L) (rc : RankedCompleter) (P : Key) :
    RankedCompleter.startString D gd rc u P = .ok ⟨P, P.length, -1, [⟨u, 0, 88, true, L.any (fun e => e.1 == [])⟩], [0], []⟩ := by
  unfold RankedCompleter.startString RankedCompleter.startStringLen Completer.takeLen
  rw [if_neg (by omega)]
  simp only [Int.toNat_natCast, Nat.le_refl, if_true, ok_bind, List.take_length, if_pos hz]
  unfold RankedCompleter.createNode
  rw [if_pos (by decide), V.hasValue h]
  rfl

/-- **C25** for ranked completers: whatever a ranked completer has been doing, after `StartStringLen` (and so `Start` and `StartString`) it is the same as a new
one after the same call; all later calls return the same. -/
theorem C25_ranked_restart (D : Dictionary) (gd : Guide) (rc : RankedCompleter) (u : Nat) (P : Key) (len : Int) :
    RankedCompleter.startStringLen D gd rc u P len = RankedCompleter.startStringLen D gd RankedCompleter.new u P len := by
  unfold RankedCompleter.startStringLen
  simp only [List.take_zero]

/-- A completer in the middle of a listing (two nodes and two candidates left), started again. -/
example : RankedCompleter.startString ⟨[0]⟩ ⟨[⟨0, 0⟩]⟩ ⟨[97, 0], 0, 5, [⟨0, 0, 88, true, true⟩, ⟨3, 0, 97, false, false⟩], [1], [⟨1, 4⟩, ⟨0, 2⟩]⟩ 0 [98] =
    .ok ⟨[98], 1, -1, [⟨0, 0, 88, true, false⟩], [0], []⟩ := by rfl

/-- A ranked completer over the guide of any comparator, started at the index of a prefix. -/
theorem ranked_completions {hist d D gd p u n} {sorter : Sorter} {cmp : Int → Int → Bool} (h : Made hist d D) (hp : ∀ less l, (sorter less l).Perm l)
    (hg : buildRankedGuideCmp sorter d D cmp = .ok (some gd)) (hpre : ∃ e ∈ accepted hist, p <+: e.1)
    (hf : D.followString p D.root = .ok (true, u, n)) (rc : RankedCompleter) (P : Key) :
    ∃ (rc0 : RankedCompleter) (xs : List (Key × Nat)), RankedCompleter.startString D gd rc u P = .ok rc0 ∧ xs.Perm (residual (words (accepted hist)) p) ∧
      (StableSort sorter → StrictTotal cmp → ∀ x ys, xs = x :: ys → ∀ e ∈ residual (words (accepted hist)) p, Upto cmp e.2 x.2) ∧
      (StableSort sorter → StrictTotal cmp → (∀ e ∈ words (accepted hist), ∀ f ∈ words (accepted hist), cmp e.2 f.2 = true → e.2 < f.2) →
        xs.Pairwise (fun a b => b.2 ≤ a.2)) ∧
      ∀ m, (residual (words (accepted hist)) p).length < m → ∃ rc', rlisting D gd m rc0 = .ok (xs.map
        (fun e => (P ++ e.1 ++ [0], ((P.length + e.1.length : Nat) : Int), (e.2 : Int))), rc') ∧ RankedCompleter.next D gd rc' = .ok (rc', false) := by
  have hne : accepted hist ≠ [] := by
    obtain ⟨e, he, _⟩ := hpre; exact List.ne_nil_of_mem he
  obtain ⟨At, kid, DAt, V, h0, WW, hd0⟩ := Made.view h hne
  obtain ⟨gd', e1, e2⟩ := buildRanked_spec (cmp := cmp) hp V WW h0 hd0
  rw [hg] at e1
  cases e1
  have V' := V.reach h0
  have hu := Made.index h V h0 hpre hf
  have hz : gd.size ≠ 0 := by
    have h1 := e2.size
    have h2 := V'.lt hu
    show gd.units.length ≠ 0
    omega
  have hW : 1 + W (residual (words (accepted hist)) p) ≤ 1073741824 := by
    have h1 := W_residual_le (words (accepted hist)) p
    have h2 := W_words_lt h.1
    omega
  have hord : OrdPerm (Reach kid (words (accepted hist))) (rord D sorter cmp) := fun {_ _} h => rord_perm hp V' h
  by_cases hs : StableSort sorter ∧ StrictTotal cmp
  · obtain ⟨hs, hc⟩ := hs
    obtain ⟨xs, f1, f2, f3, f4⟩ := RReady.listing (R := fun a b => Upto cmp a b) (S := True) (P := P) V' hord e2 (fun a => .inl rfl)
      (fun {a b c} h1 h2 => h1.trans hc h2) (fun _ => desc_rord hs hc V') hu hW (by omega) _ .fresh rfl
    by_cases ha : ∀ e ∈ words (accepted hist), ∀ f ∈ words (accepted hist), cmp e.2 f.2 = true → e.2 < f.2
    · -- the comparator agrees with the heap
      have hdesc : Desc (fun a b => a ≤ b) (Reach kid (words (accepted hist))) (rord D sorter cmp) := by
        intro u L A l post hr hL e he
        obtain ⟨e', he', hu'⟩ := desc_rord hs hc V' hr hL e he
        refine ⟨e', he', ?_⟩
        have hperm := underT_ord V' hord hr
        rw [hL] at hperm
        have hmem : ∀ x ∈ underT L (l :: post), x ∈ L := by
          intro x hx
          refine hperm.mem_iff.1 ?_
          unfold underT at hx ⊢
          rw [List.flatMap_append]
          exact List.mem_append_right _ hx
        rw [underT_cons] at hmem
        obtain ⟨a, ha1, ha2⟩ := hr.mem_value e (hmem e (List.mem_append_right _ he))
        obtain ⟨b, hb1, hb2⟩ := hr.mem_value e' (hmem e' (List.mem_append_left _ he'))
        rcases hu' with h1 | h1
        · omega
        · rw [← ha2, ← hb2] at h1 ⊢
          exact Nat.le_of_lt (ha a ha1 b hb1 h1)
      obtain ⟨ys, g1, _, g3, g4⟩ := RReady.listing (R := fun a b => a ≤ b) (S := True) (P := P) V' hord e2 (fun a => Nat.le_refl a)
        (fun {a b c} h1 h2 => Nat.le_trans h1 h2) (fun _ => hdesc) hu hW (by omega) _ .fresh rfl
      have hxy : xs = ys := by
        obtain ⟨r1, k1, _⟩ := f4 _ (Nat.lt_succ_self _)
        obtain ⟨r2, k2, _⟩ := g4 _ (Nat.lt_succ_self _)
        rw [k1] at k2
        simp only [Except.ok.injEq, Prod.mk.injEq] at k2
        refine List.map_inj_right (f := fun e : Key × Nat => (P ++ e.1 ++ [0], ((P.length + e.1.length : Nat) : Int), (e.2 : Int))) ?_ |>.1 k2.1
        intro a b hab
        simp only [Prod.mk.injEq, List.append_cancel_right_eq, List.append_cancel_left_eq] at hab
        exact Prod.ext hab.1 (by omega)
      exact ⟨_, xs, rstartString_eq V' hz hu rc P, f1, fun _ _ x ys hx => f2 trivial x ys hx rfl,
        fun _ _ _ => by rw [hxy]; exact g3 trivial (fun _ _ h => h), f4⟩
    · exact ⟨_, xs, rstartString_eq V' hz hu rc P, f1, fun _ _ x ys hx => f2 trivial x ys hx rfl, fun _ _ h => absurd h ha, f4⟩
  · obtain ⟨xs, f1, _, _, f4⟩ := RReady.listing (R := fun a b => a = b) (S := False) (P := P) V' hord e2 (fun a => rfl)
      (fun {a b c} h1 h2 => h1.trans h2) False.elim hu hW (by omega) _ .fresh rfl
    refine ⟨_, xs, rstartString_eq V' hz hu rc P, f1, fun h1 h2 => absurd ⟨h1, h2⟩ hs, fun h1 h2 => absurd ⟨h1, h2⟩ hs, f4⟩

/-! ## C27 -/

/-- `BuildRankedGuideCmp` succeeds on every finished Dawg and its dictionary, for every comparator. -/
theorem C27_ranked_guide {hist d D} {sorter : Sorter} (h : Made hist d D) (hp : ∀ less l, (sorter less l).Perm l) (cmp : Int → Int → Bool) :
    ∃ gd, buildRankedGuideCmp sorter d D cmp = .ok (some gd) ∧ gd.size = (if accepted hist = [] then 0 else D.size) := by
  by_cases hne : accepted hist = []
  · refine ⟨Guide.new, ?_, by rw [if_pos hne]; rfl⟩
    unfold buildRankedGuideCmp RankedBuilder.build
    simp only
    rw [if_pos (by rw [Made.empty_size h hne]; omega)]
    rfl
  · obtain ⟨At, kid, DAt, V, h0, WW, hd0⟩ := Made.view h hne
    obtain ⟨gd, e1, e2⟩ := buildRanked_spec (cmp := cmp) hp V WW h0 hd0
    exact ⟨gd, e1, by rw [if_neg hne]; exact e2.size⟩

/-- **C27.** For every comparator (and whatever order the sorting routine leaves the transitions in), a ranked completer started at the index of the prefix
`p` with the string `P` returns every key with prefix `p` exactly once, with its value, in some order, and then false for ever.  `Key()` is `P`, the
rest of the key, and a NUL byte.  (`Start(u)` is `StartString(u, "")`.) -/
theorem C27_completions {hist d D gd p u n} {sorter : Sorter} {cmp : Int → Int → Bool} (h : Made hist d D) (hp : ∀ less l, (sorter less l).Perm l)
    (hg : buildRankedGuideCmp sorter d D cmp = .ok (some gd)) (hpre : ∃ e ∈ accepted hist, p <+: e.1)
    (hf : D.followString p D.root = .ok (true, u, n)) (rc : RankedCompleter) (P : Key) :
    ∃ (rc0 : RankedCompleter) (xs : List (Key × Nat)), RankedCompleter.startString D gd rc u P = .ok rc0 ∧ xs.Perm (residual (words (accepted hist)) p) ∧ (xs.map (·.1)).Nodup ∧
      ∀ m, xs.length < m → ∃ rc', rlisting D gd m rc0 = .ok (xs.map
        (fun e => (P ++ e.1 ++ [0], ((P.length + e.1.length : Nat) : Int), (e.2 : Int))), rc') ∧ RankedCompleter.next D gd rc' = .ok (rc', false) := by
  obtain ⟨rc0, xs, h1, h2, _, _, h3⟩ := ranked_completions h hp hg hpre hf rc P
  exact ⟨rc0, xs, h1, h2, ((h2.map _).nodup_iff).2 (residual_nodup (words_sorted hist) p), fun m hm => h3 m (by rw [h2.length_eq] at hm; exact hm)⟩

/-- With the sorting routine that leaves everything as it is and the comparator that is never true. -/
example : ∃ hist d D gd u rc0, Made hist d D ∧ buildRankedGuideCmp (fun _ l => l) d D (fun _ _ => false) = .ok (some gd) ∧
    D.followString [97] D.root = .ok (true, u, 1) ∧ RankedCompleter.start D gd RankedCompleter.new u = .ok rc0 ∧
    ∃ xs : List (Key × Nat), xs.Perm [([], 5), ([98], 3)] ∧ ∃ rc', rlisting D gd 3 rc0 = .ok (xs.map
        (fun e => ([] ++ e.1 ++ [0], ((0 + e.1.length : Nat) : Int), (e.2 : Int))), rc') := by
  obtain ⟨d, D, h⟩ := madeG
  obtain ⟨gd, h1, _⟩ := C27_ranked_guide (sorter := fun _ l => l) h (fun _ l => List.Perm.refl _) (fun _ _ => false)
  obtain ⟨u, h2, _⟩ := follow_prefix h (q := [97]) ⟨([97], 5), by decide, by simp⟩
  obtain ⟨rc0, xs, h3, h4, _, h5⟩ := C27_completions h (fun _ l => List.Perm.refl _) h1 ⟨([97], 5), by decide, by simp⟩ h2 RankedCompleter.new []
  obtain ⟨rc', h6, _⟩ := h5 3 (by rw [h4.length_eq]; decide)
  exact ⟨_, d, D, gd, u, rc0, h, h1, h2, h3, xs, h4, rc', h6⟩

/-! ## C28 -/

/-- **C28.** With `BuildRankedGuide`, the listed values never increase. -/
theorem C28_values_never_increase {hist d D gd p u n} {sorter : Sorter} (h : Made hist d D) (hs : StableSort sorter)
    (hg : buildRankedGuide sorter d D = .ok (some gd)) (hpre : ∃ e ∈ accepted hist, p <+: e.1)
    (hf : D.followString p D.root = .ok (true, u, n)) (rc : RankedCompleter) (P : Key) :
    ∃ (rc0 : RankedCompleter) (xs : List (Key × Nat)), RankedCompleter.startString D gd rc u P = .ok rc0 ∧ xs.Perm (residual (words (accepted hist)) p) ∧ xs.Pairwise (fun a b => a.2 ≥ b.2) ∧
      ∀ m, xs.length < m → ∃ rc', rlisting D gd m rc0 = .ok (xs.map
        (fun e => (P ++ e.1 ++ [0], ((P.length + e.1.length : Nat) : Int), (e.2 : Int))), rc') ∧ RankedCompleter.next D gd rc' = .ok (rc', false) := by
  obtain ⟨rc0, xs, h1, h2, _, h3, h4⟩ := ranked_completions h hs.perm hg hpre hf rc P
  exact ⟨rc0, xs, h1, h2, h3 hs strictTotal_lt (fun e _ f _ h => by simpa using h), fun m hm => h4 m (by rw [h2.length_eq] at hm; exact hm)⟩

theorem perm_sorted {xs l : List (Key × Nat)} (hp : xs.Perm l) (h1 : xs.Pairwise (fun a b => a.2 ≥ b.2)) (h2 : l.Pairwise (fun a b => a.2 > b.2)) : xs = l := by
  refine hp.eq_of_pairwise (le := fun a b => a.2 ≥ b.2) ?_ h1 (h2.imp (fun h => Nat.le_of_lt h))
  intro a b ha hb hab hba
  obtain ⟨i, hi, rfl⟩ := List.mem_iff_getElem.1 (hp.mem_iff.1 ha)
  obtain ⟨j, hj, rfl⟩ := List.mem_iff_getElem.1 hb
  rcases Nat.lt_trichotomy i j with hij | rfl | hij
  · have := List.pairwise_iff_getElem.1 h2 i j hi hj hij; omega
  · rfl
  · have := List.pairwise_iff_getElem.1 h2 j i hj hi hij; omega

example : ∃ hist d D gd rc0, Made hist d D ∧ buildRankedGuide insertionSort d D = .ok (some gd) ∧ RankedCompleter.start D gd RankedCompleter.new D.root = .ok rc0 ∧
    ∃ rc', rlisting D gd 4 rc0 = .ok ([([98, 0], 1, 7), ([97, 0], 1, 5), ([97, 98, 0], 2, 3)], rc') := by
  obtain ⟨d, D, h⟩ := madeG
  obtain ⟨gd, h1, _⟩ := C27_ranked_guide h insertionSort_stableSort.perm (fun lhs rhs => decide (lhs < rhs))
  obtain ⟨rc0, xs, h3, h4, h5, h6⟩ := C28_values_never_increase h insertionSort_stableSort h1 (p := []) ⟨([97], 5), by decide, by simp⟩ rfl RankedCompleter.new []
  have hx : xs = [([98], 7), ([97], 5), ([97, 98], 3)] := by
    refine perm_sorted (h4.trans ?_) h5 (by decide)
    decide
  subst hx
  obtain ⟨rc', h7, _⟩ := h6 4 (by decide)
  exact ⟨_, d, D, gd, rc0, h, h1, h3, rc', h7⟩

/-! ## C29 -/

/-- The full claim C29: with a comparator `cmp` that is a strict weak order, nothing is listed before something that is greater with respect to `cmp`
(for the default comparator `<`, that the values never increase). -/
def C29_statement : Prop := ∀ hist d D gd p u n (sorter : Sorter) (cmp : Int → Int → Bool), Made hist d D → StableSort sorter → StrictWeak cmp →
  buildRankedGuideCmp sorter d D cmp = .ok (some gd) → (∃ e ∈ accepted hist, p <+: e.1) → D.followString p D.root = .ok (true, u, n) →
  ∀ (rc : RankedCompleter) (P : Key) (rc0 : RankedCompleter), RankedCompleter.startString D gd rc u P = .ok rc0 →
    ∀ m xs rc', rlisting D gd m rc0 = .ok (xs, rc') → xs.Pairwise (fun a b => cmp a.2.2 b.2.2 = false)

/-- **C29 is false**: with "aa" = 1, "ab" = 3, "b" = 2 and the comparator `>` (smallest value first), the values are listed as 1, 3, 2. -/
theorem C29_custom_order_false : ¬ C29_statement := by
  intro hs
  obtain ⟨oks, b, d, h1, h2⟩ := Witness.made_of_build Witness.admC Witness.runC
  have hc := Witness.rankedC_eq
  unfold Witness.rankedC at hc
  rw [h1] at hc
  simp only [ok_bind] at hc
  obtain ⟨gd, h3, _⟩ := C27_ranked_guide h2 insertionSort_stableSort.perm (fun lhs rhs => decide (lhs > rhs))
  rw [h3] at hc
  simp only [ok_bind] at hc
  cases h4 : RankedCompleter.start Witness.dictC gd RankedCompleter.new 0 with
  | error e => rw [h4] at hc; cases hc
  | ok rc =>
    rw [h4] at hc
    simp only [ok_bind] at hc
    cases h5 : rlisting Witness.dictC gd 4 rc with
    | error e => rw [h5] at hc; cases hc
    | ok y =>
      obtain ⟨xs, rc'⟩ := y
      rw [h5] at hc
      simp only [ok_bind, pure_eq_ok, Except.ok.injEq] at hc
      have := hs _ d _ gd [] 0 0 insertionSort (fun lhs rhs => decide (lhs > rhs)) h2 insertionSort_stableSort strictTotal_gt.toStrictWeak h3
        (by decide) rfl RankedCompleter.new [] rc h4 4 xs rc' h5
      have : (xs.map (·.2.2)).Pairwise (fun a b : Int => decide (a > b) = false) := List.pairwise_map.2 this
      rw [hc] at this
      revert this
      decide

/-- **C29**, what holds: with a comparator that is a strict total order, the *first* result is the best of all.  (That everything is listed exactly once holds
for every comparator, see C27.) -/
theorem C29_best_first_partial {hist d D gd p u n} {sorter : Sorter} {cmp : Int → Int → Bool} (h : Made hist d D) (hs : StableSort sorter) (hc : StrictTotal cmp)
    (hg : buildRankedGuideCmp sorter d D cmp = .ok (some gd)) (hpre : ∃ e ∈ accepted hist, p <+: e.1)
    (hf : D.followString p D.root = .ok (true, u, n)) (rc : RankedCompleter) (P : Key) :
    ∃ rc0 rc1 k v, RankedCompleter.startString D gd rc u P = .ok rc0 ∧ RankedCompleter.next D gd rc0 = .ok (rc1, true) ∧ rc1.key = P ++ k ++ [0] ∧
      rc1.value = Int.ofNat v ∧ (k, v) ∈ residual (words (accepted hist)) p ∧
      ∀ e ∈ residual (words (accepted hist)) p, cmp v e.2 = false := by
  obtain ⟨rc0, xs, h1, h2, h3, _, h4⟩ := ranked_completions h hs.perm hg hpre hf rc P
  have hne : residual (words (accepted hist)) p ≠ [] := residual_wordE_ne.2 hpre
  cases hx : xs with
  | nil =>
    rw [hx] at h2
    exact absurd h2.nil_eq.symm hne
  | cons x ys =>
    have h5 := h3 hs hc x ys hx
    obtain ⟨rc', h6, _⟩ := h4 ((residual (words (accepted hist)) p).length + 1) (by omega)
    rw [hx, rlisting] at h6
    cases hn : RankedCompleter.next D gd rc0 with
    | error e => rw [hn] at h6; cases h6
    | ok y =>
      obtain ⟨rc1, ok⟩ := y
      rw [hn] at h6
      simp only [ok_bind] at h6
      cases ok with
      | false => simp [pure_eq_ok] at h6
      | true =>
        simp only [Bool.not_true, Bool.false_eq_true, if_false] at h6
        cases hr : rlisting D gd (residual (words (accepted hist)) p).length rc1 with
        | error e => rw [hr] at h6; cases h6
        | ok z =>
          rw [hr] at h6
          simp only [ok_bind, pure_eq_ok, List.map_cons, Except.ok.injEq, Prod.mk.injEq, List.cons.injEq] at h6
          refine ⟨rc0, rc1, x.1, x.2, h1, hn, h6.1.1.1, h6.1.1.2.2, h2.mem_iff.1 (by rw [hx]; exact List.mem_cons_self), ?_⟩
          intro e he
          rcases h5 e he with h7 | h7
          · rw [h7]
            refine Classical.byContradiction fun hcc => ?_
            have hcc : cmp x.2 x.2 = true := by simpa using hcc
            have := hc.asymm _ _ hcc
            rw [hcc] at this; cases this
          · exact hc.asymm _ _ h7

/-- The smallest value first: "ab" = 3. -/
example : ∃ hist d D gd rc0 rc1, Made hist d D ∧ buildRankedGuideCmp insertionSort d D (fun lhs rhs => decide (lhs > rhs)) = .ok (some gd) ∧
    RankedCompleter.start D gd RankedCompleter.new D.root = .ok rc0 ∧ RankedCompleter.next D gd rc0 = .ok (rc1, true) ∧ rc1.key = [97, 98, 0] ∧ rc1.value = 3 := by
  obtain ⟨d, D, h⟩ := madeG
  obtain ⟨gd, h1, _⟩ := C27_ranked_guide h insertionSort_stableSort.perm (fun lhs rhs => decide (lhs > rhs))
  obtain ⟨rc0, rc1, k, v, h2, h3, h4, h5, h6, h7⟩ := C29_best_first_partial h insertionSort_stableSort strictTotal_gt h1 (p := []) (by decide) rfl RankedCompleter.new []
  have hl : residual (words (accepted keysG)) [] = [([97], 5), ([97, 98], 3), ([98], 7)] := by decide
  rw [hl] at h6 h7
  have h8 := h7 ([97, 98], 3) (by decide)
  have hk : (k, v) = ([97, 98], 3) := by
    simp only [List.mem_cons, Prod.mk.injEq, List.not_mem_nil, or_false] at h6
    simp only [decide_eq_false_iff_not] at h8
    rcases h6 with ⟨rfl, rfl⟩ | ⟨rfl, rfl⟩ | ⟨rfl, rfl⟩
    · omega
    · rfl
    · omega
  cases hk
  exact ⟨_, d, D, gd, rc0, rc1, h, h1, h2, h3, h4, h5⟩

/-- **C29**, for comparators that order the stored values as `<` does (whatever they do with other numbers): nothing is listed before something greater. -/
theorem C29_agreeing_partial {hist d D gd p u n} {sorter : Sorter} {cmp : Int → Int → Bool} (h : Made hist d D) (hs : StableSort sorter) (hc : StrictTotal cmp)
    (ha : ∀ e ∈ accepted hist, ∀ f ∈ accepted hist, cmp (stored e.2) (stored f.2) = true → stored e.2 < stored f.2)
    (hg : buildRankedGuideCmp sorter d D cmp = .ok (some gd)) (hpre : ∃ e ∈ accepted hist, p <+: e.1)
    (hf : D.followString p D.root = .ok (true, u, n)) (rc : RankedCompleter) (P : Key) :
    ∃ (rc0 : RankedCompleter) (xs : List (Key × Nat)), RankedCompleter.startString D gd rc u P = .ok rc0 ∧ xs.Perm (residual (words (accepted hist)) p) ∧
      xs.Pairwise (fun a b => cmp a.2 b.2 = false) ∧
      ∀ m, xs.length < m → ∃ rc', rlisting D gd m rc0 = .ok (xs.map
        (fun e => (P ++ e.1 ++ [0], ((P.length + e.1.length : Nat) : Int), (e.2 : Int))), rc') ∧ RankedCompleter.next D gd rc' = .ok (rc', false) := by
  have ha' : ∀ e ∈ words (accepted hist), ∀ f ∈ words (accepted hist), cmp e.2 f.2 = true → e.2 < f.2 := by
    intro e he f hf
    obtain ⟨a, ha1, rfl⟩ := List.mem_map.1 he
    obtain ⟨b, hb1, rfl⟩ := List.mem_map.1 hf
    exact ha a ha1 b hb1
  obtain ⟨rc0, xs, h1, h2, _, h3, h4⟩ := ranked_completions h hs.perm hg hpre hf rc P
  refine ⟨rc0, xs, h1, h2, ?_, fun m hm => h4 m (by rw [h2.length_eq] at hm; exact hm)⟩
  refine (h3 hs hc ha').imp_of_mem ?_
  intro a b hma hmb hab
  refine Classical.byContradiction fun hcc => ?_
  have hcc : cmp a.2 b.2 = true := by simpa using hcc
  have hval : ∀ x ∈ xs, ∃ y ∈ words (accepted hist), y.2 = x.2 := by
    intro x hx
    have := h2.mem_iff.1 hx
    rw [mem_residual] at this
    exact ⟨_, this, rfl⟩
  obtain ⟨a', ha1, ha2⟩ := hval a hma
  obtain ⟨b', hb1, hb2⟩ := hval b hmb
  rw [← ha2, ← hb2] at hcc hab
  have := ha' a' ha1 b' hb1 hcc
  omega

/-- The comparator that puts negative numbers above all others, but orders the stored values as usual. -/
example : ∃ hist d D gd rc0, Made hist d D ∧ buildRankedGuideCmp insertionSort d D (fun lhs rhs => if (lhs < 0) = (rhs < 0) then decide (lhs < rhs) else decide (rhs < 0)) = .ok (some gd) ∧
    RankedCompleter.start D gd RankedCompleter.new D.root = .ok rc0 ∧ ∃ rc', rlisting D gd 4 rc0 = .ok ([([98, 0], 1, 7), ([97, 0], 1, 5), ([97, 98, 0], 2, 3)], rc') := by
  have hc : StrictTotal (fun lhs rhs : Int => if (lhs < 0) = (rhs < 0) then decide (lhs < rhs) else decide (rhs < 0)) := by
    refine ⟨⟨?_, ?_⟩, ?_⟩
    · intro a b; simp only [eq_iff_iff]; split <;> split <;> simp <;> omega
    · intro a b c; simp only [eq_iff_iff]; split <;> split <;> split <;> simp <;> omega
    · intro a b; simp only [eq_iff_iff]; split <;> split <;> simp <;> omega
  obtain ⟨d, D, h⟩ := madeG
  obtain ⟨gd, h1, _⟩ := C27_ranked_guide h insertionSort_stableSort.perm (fun lhs rhs : Int => if (lhs < 0) = (rhs < 0) then decide (lhs < rhs) else decide (rhs < 0))
  obtain ⟨rc0, xs, h3, h4, h5, h6⟩ := C29_agreeing_partial h insertionSort_stableSort hc (by decide) h1 (p := []) ⟨([97], 5), by decide, by simp⟩ rfl RankedCompleter.new []
  have hx : xs = [([98], 7), ([97], 5), ([97, 98], 3)] := by
    refine perm_sorted (h4.trans (by decide)) (h5.imp ?_) (by decide)
    intro a b hab
    simp only [eq_iff_iff] at hab
    rw [if_pos (by omega)] at hab
    simp only [decide_eq_false_iff_not] at hab; omega
  subst hx
  obtain ⟨rc', h7, _⟩ := h6 4 (by decide)
  exact ⟨_, d, D, gd, rc0, h, h1, h3, rc', h7⟩

/-! ## C33 -/

/-- The full claim C33: counts and ranks are the same with both kinds of guides. -/
def C33_statement : Prop := ∀ hist d D gd rg idx (sorter : Sorter), Made hist d D → StableSort sorter → buildGuide d D = .ok (some gd) →
  buildIndex D gd = .ok (some idx) → buildRankedGuide sorter d D = .ok (some rg) →
  ∃ ridx, buildIndex D rg = .ok (some ridx) ∧ ridx.totalCount = idx.totalCount ∧
    (∀ p u n, (∃ e ∈ accepted hist, p <+: e.1) → D.followString p D.root = .ok (true, u, n) → ridx.childCount u = idx.childCount u) ∧
    ∀ e ∈ accepted hist, Indexer.bytesToIndex D rg ridx e.1 = Indexer.bytesToIndex D gd idx e.1

/-- **C33 is false**: with "a" = 1 and "ab" = 1, `TotalCount` is 1 with the ranked guide, because its loop over the children ends at the terminal transition. -/
theorem C33_ranked_index_false : ¬ C33_statement := by
  intro hs
  obtain ⟨oks, b, d, h1, h2⟩ := Witness.made_of_build Witness.admF Witness.runF
  have hc := Witness.countsF_eq
  unfold Witness.countsF at hc
  rw [h1] at hc
  simp only [ok_bind] at hc
  obtain ⟨gd, h3, _⟩ := C26_guide h2
  obtain ⟨rg, h4, _⟩ := C27_ranked_guide h2 insertionSort_stableSort.perm (fun lhs rhs => decide (lhs < rhs))
  obtain ⟨idx, h5, _⟩ := C30_counts_partial h2 (by decide) h3
  obtain ⟨ridx, h6, h7, _⟩ := hs _ d _ gd rg idx insertionSort h2 insertionSort_stableSort h3 h5 h4
  have h4' : buildRankedGuide insertionSort d Witness.dictF = .ok (some rg) := h4
  rw [h3, h4'] at hc
  simp only [ok_bind, h5, h6, h7] at hc
  cases ht : idx.totalCount with
  | error e => rw [ht] at hc; cases hc
  | ok t =>
    rw [ht] at hc
    simp only [ok_bind, pure_eq_ok, Except.ok.injEq, Prod.mk.injEq] at hc
    omega

theorem prefixLess_words {hist : List (Key × Int)} (hv : ∀ e ∈ accepted hist, ∀ f ∈ accepted hist, e.1 ≠ f.1 → e.1 <+: f.1 → stored e.2 < stored f.2) :
    PrefixLess (words (accepted hist)) := by
  intro e he f hf
  obtain ⟨a, ha1, rfl⟩ := List.mem_map.1 he
  obtain ⟨b, hb1, rfl⟩ := List.mem_map.1 hf
  exact hv a ha1 b hb1

/-- **C33**, the counts, for key sets in which every key that is a proper prefix of another key has a smaller value than that (this includes all prefix-free key
sets): they are the same with both kinds of guides. -/
theorem C33_counts_partial {hist d D gd rg idx} {sorter : Sorter} (h : Made hist d D) (hs : StableSort sorter) (hg : buildGuide d D = .ok (some gd))
    (hi : buildIndex D gd = .ok (some idx)) (hr : buildRankedGuide sorter d D = .ok (some rg))
    (hv : ∀ e ∈ accepted hist, ∀ f ∈ accepted hist, e.1 ≠ f.1 → e.1 <+: f.1 → stored e.2 < stored f.2) :
    ∃ ridx, buildIndex D rg = .ok (some ridx) ∧ ridx.totalCount = idx.totalCount ∧
      ∀ p u n, (∃ e ∈ accepted hist, p <+: e.1) → D.followString p D.root = .ok (true, u, n) → ridx.childCount u = idx.childCount u := by
  have hne := Made.nonempty h hg hi
  obtain ⟨At, kid, DAt, V, h0, WW, hd0⟩ := Made.view h hne
  obtain ⟨gd', e1, e2⟩ := buildGuide_spec V WW h0 hd0
  rw [hg] at e1
  cases e1
  obtain ⟨idx', e3, e4⟩ := buildIndex_spec V h0 e2 cutOk_heads
  rw [hi] at e3
  cases e3
  obtain ⟨rg', f1, f2⟩ := buildRanked_spec (cmp := ltCmp) hs.perm V WW h0 hd0
  rw [show buildRankedGuideCmp sorter d D ltCmp = .ok (some rg) from hr] at f1
  cases f1
  obtain ⟨ridx, f3, f4⟩ := buildIndex_spec V h0 f2 (cutOk_rord hs (V.reach h0) (fun hR => hR.prefixLess (prefixLess_words hv)))
  refine ⟨ridx, f3, ?_, ?_⟩
  · exact (f4.count Reach.root).trans (e4.count Reach.root).symm
  · intro p u n hp hf
    have hu := Made.index h V h0 hp hf
    exact (f4.count hu).trans (e4.count hu).symm

/-- **C33**, counts and ranks, for key sets in which moreover the values do not increase in byte order, prefixes aside (for example prefix-free key sets with
equal values): everything is the same with both kinds of guides. -/
theorem C33_ranks_partial {hist d D gd rg idx} {sorter : Sorter} (h : Made hist d D) (hs : StableSort sorter) (hg : buildGuide d D = .ok (some gd))
    (hi : buildIndex D gd = .ok (some idx)) (hr : buildRankedGuide sorter d D = .ok (some rg))
    (hv : ∀ e ∈ accepted hist, ∀ f ∈ accepted hist, e.1 < f.1 → if e.1.isPrefixOf f.1 then stored e.2 < stored f.2 else stored f.2 ≤ stored e.2) :
    ∃ ridx, buildIndex D rg = .ok (some ridx) ∧ ridx.totalCount = idx.totalCount ∧
      (∀ e ∈ accepted hist, Indexer.bytesToIndex D rg ridx e.1 = Indexer.bytesToIndex D gd idx e.1) ∧
      (∀ q, NoClash hist q → Indexer.bytesToIndex D rg ridx q = Indexer.bytesToIndex D gd idx q) ∧
      ∀ i, Indexer.indexToBytes D rg ridx i = Indexer.indexToBytes D gd idx i := by
  have hne := Made.nonempty h hg hi
  have hpl : PrefixLess (words (accepted hist)) := by
    refine prefixLess_words ?_
    intro e he f hf hef hp
    have hlt : e.1 < f.1 := by
      obtain ⟨t, ht⟩ := hp
      rw [← ht] at hef ⊢
      cases t with
      | nil => simp at hef
      | cons b t =>
        clear ht hef
        induction e.1 with
        | nil => exact List.nil_lt_cons _ _
        | cons a k ih => exact List.cons_lt_cons_iff.2 (.inr ⟨rfl, ih⟩)
    have := hv e he f hf hlt
    rwa [if_pos (List.isPrefixOf_iff_prefix.2 hp)] at this
  have hfa : Falling (words (accepted hist)) := by
    intro e he f hf hlt hp
    obtain ⟨a, ha1, rfl⟩ := List.mem_map.1 he
    obtain ⟨b, hb1, rfl⟩ := List.mem_map.1 hf
    have := hv a ha1 b hb1 hlt
    rwa [if_neg (fun hc => hp (List.isPrefixOf_iff_prefix.1 hc))] at this
  obtain ⟨At, kid, DAt, V, h0, WW, hd0⟩ := Made.view h hne
  obtain ⟨rg', f1, f2⟩ := buildRanked_spec (cmp := ltCmp) hs.perm V WW h0 hd0
  rw [show buildRankedGuideCmp sorter d D ltCmp = .ok (some rg) from hr] at f1
  cases f1
  have f3 := f2.heads_of (fun hR => rord_eq hs (V.reach h0) hR (hR.prefixLess hpl) (hR.falling hfa))
  obtain ⟨ridx, f4, f5⟩ := buildIndex_spec V h0 f3 cutOk_heads
  have hx : Indexed hist D rg ridx := ⟨At, kid, V, h0, f3, f5⟩
  have hx' := Made.indexed' h hg hi
  refine ⟨ridx, f4, ?_, ?_, ?_, ?_⟩
  · obtain ⟨_, h5, _, h6, _⟩ := C30_counts_partial h hne hg
    rw [hi] at h5
    cases h5
    rw [h6]
    have := f5.count Reach.root
    rw [words, List.length_map] at this
    exact this
  · intro e he
    rcases bytesToIndex_spec h.1 hx (NoClash.of_key ⟨e, he, rfl⟩) with ⟨_, h1⟩ | ⟨h1, _⟩
    · rw [h1, (C31_rank_partial h hg hi e.1).1 ⟨e, he, rfl⟩]
    · exact absurd rfl (h1 e he)
  · intro q hq
    rcases bytesToIndex_spec h.1 hx hq with ⟨h0, h1⟩ | ⟨h0, h1⟩
    · rw [h1, (C31_rank_partial h hg hi q).1 h0]
    · rw [h1, (C31_rank_partial h hg hi q).2 hq h0]
  · intro i
    rw [indexToBytes_spec h.1 hx, indexToBytes_spec h.1 hx']

/-- "a" = 2, "ab" = 4, "b" = 1. -/
example : ∃ hist d D rg ridx, Made hist d D ∧ (∀ e ∈ accepted hist, ∀ f ∈ accepted hist, e.1 ≠ f.1 → e.1 <+: f.1 → stored e.2 < stored f.2) ∧
    (∀ e ∈ accepted hist, ∀ f ∈ accepted hist, e.1 < f.1 → if e.1.isPrefixOf f.1 then stored e.2 < stored f.2 else stored f.2 ≤ stored e.2) ∧
    buildRankedGuide insertionSort d D = .ok (some rg) ∧ buildIndex D rg = .ok (some ridx) ∧ ridx.totalCount = .ok 3 ∧
    Indexer.bytesToIndex D rg ridx [98] = .ok 2 := by
  obtain ⟨d, D, h, _⟩ := C14_small_builds 1 (by omega) (by omega) [([97], 2), ([97, 98], 4), ([98], 1)] (by decide) (by decide)
  obtain ⟨gd, h3, _⟩ := C26_guide h
  obtain ⟨rg, h4, _⟩ := C27_ranked_guide h insertionSort_stableSort.perm (fun lhs rhs => decide (lhs < rhs))
  obtain ⟨idx, h5, _, h6, _⟩ := C30_counts_partial h (by decide) h3
  obtain ⟨ridx, h7, h8, h9, _⟩ := C33_ranks_partial h insertionSort_stableSort h3 h5 h4 (by decide)
  refine ⟨_, d, D, rg, ridx, h, by decide, by decide, h4, h7, h8.trans h6, ?_⟩
  rw [h9 ([98], 1) (by decide)]
  exact (C31_rank_partial h h3 h5 [98]).1 (by decide)

end Dawg.Props
