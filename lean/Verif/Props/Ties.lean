import Verif.Props.Ranked
import Verif.Proof.Guide.RankedExact
/-! # C100: the order of keys with equal values, and C29: the exact order for every comparator

`zig`, `rankedOrder` and what they are made of are in `Proof/Guide/RankedExact.lean`; they talk about lists of keys only. -/
namespace Dawg.Props
open Dawg Dawg.Spec Dawg.Client Dawg.Abs Dawg.Dict Dawg.Guided
attribute [-simp] List.length_flatten

theorem RState.listing {D : Dictionary} {At kid clean ord} {gd : Guide} {u0 L0 B} {P : Key} (V : View D At kid clean)
    (ho : OrdPerm At ord) (hg : GuideIs D At kid ord gd) (h0 : At u0 L0) (hW : 1 + W L0 ≤ B) (hB : B < 4294967296) :
    ∀ (n : Nat) {T rc ts cs}, RState (fun a b => a = b) At kid ord u0 L0 False B P rc T ts cs → T.length = n →
    ∃ xs, xs.Perm T ∧ InTurn ord ts cs xs ∧
      ∀ m, n < m → ∃ rc', rlisting D gd m rc = .ok (xs.map (fun e => (P ++ e.1 ++ [0], ((P.length + e.1.length : Nat) : Int), (e.2 : Int))), rc') ∧
        RankedCompleter.next D gd rc' = .ok (rc', false)
  | n, T, rc, ts, cs, hr, hn => by
    rcases rstate_next V ho hg (fun a => rfl) (fun {a b c} h1 h2 => h1.trans h2) False.elim h0 hW hB hr with
      ⟨rfl, ⟨rc', e1, e2, e3⟩, e4, rfl⟩ | ⟨k, v, T', rc', hp, e1, e2, e3, ⟨new, A, ts', C, o1, o2, o3, o4, e4⟩, _⟩
    · refine ⟨[], List.Perm.refl _, .done e4, ?_⟩
      intro m hm
      obtain ⟨m, rfl⟩ : ∃ j, m = j + 1 := ⟨m - 1, by omega⟩
      refine ⟨rc', ?_, rnext_ended e2 e3⟩
      rw [rlisting, e1]
      rfl
    · have hn' := hp.length_eq
      simp only [List.length_cons] at hn'
      obtain ⟨n, rfl⟩ : ∃ j, n = j + 1 := ⟨n - 1, by omega⟩
      obtain ⟨xs, f1, f2, f4⟩ := RState.listing V ho hg h0 hW hB n e4 (by omega)
      refine ⟨(k, v) :: xs, (f1.cons _).trans hp.symm, .next o1 o2 o3 o4 f2, ?_⟩
      intro m hm
      obtain ⟨m, rfl⟩ : ∃ j, m = j + 1 := ⟨m - 1, by omega⟩
      obtain ⟨rc'', g1, g2⟩ := f4 m (by omega)
      refine ⟨rc'', ?_, g2⟩
      have hlen : rc'.length = ((P.length + k.length : Nat) : Int) := by
        have : rc'.path = P ++ k ++ [0] := e2
        unfold RankedCompleter.length
        rw [this]
        simp only [List.length_append, List.length_singleton]; omega
      rw [rlisting, e1]
      simp only [ok_bind, Bool.not_true, Bool.false_eq_true, if_false, g1, e2, hlen, e3, pure_eq_ok, List.map_cons]
      rfl

/-- The listing in terms of the abstract machine. -/
theorem ranked_listed {hist d D gd p u n} {sorter : Sorter} {cmp : Int → Int → Bool} (h : Made hist d D) (hs : StableSort sorter) (hc : StrictTotal cmp)
    (hg : buildRankedGuideCmp sorter d D cmp = .ok (some gd)) (hpre : ∃ e ∈ accepted hist, p <+: e.1)
    (hf : D.followString p D.root = .ok (true, u, n)) (rc : RankedCompleter) (P : Key) :
    ∃ (rc0 : RankedCompleter) (xs : List (Key × Nat)), RankedCompleter.startString D gd rc u P = .ok rc0 ∧ xs.Perm (residual (words (accepted hist)) p) ∧
      xs = rankedOrder cmp (residual (words (accepted hist)) p) ∧
      (∀ w, (∀ e ∈ residual (words (accepted hist)) p, e.2 = w) → xs = zig (residual (words (accepted hist)) p)) ∧
      ∀ m, (residual (words (accepted hist)) p).length < m → ∃ rc', rlisting D gd m rc0 = .ok (xs.map
        (fun e => (P ++ e.1 ++ [0], ((P.length + e.1.length : Nat) : Int), (e.2 : Int))), rc') ∧ RankedCompleter.next D gd rc' = .ok (rc', false) := by
  have hne : accepted hist ≠ [] := by
    obtain ⟨e, he, _⟩ := hpre; exact List.ne_nil_of_mem he
  obtain ⟨At, kid, DAt, V, h0, WW, hd0⟩ := Made.view h hne
  obtain ⟨gd', e1, e2⟩ := buildRanked_spec (cmp := cmp) hs.perm V WW h0 hd0
  rw [hg] at e1
  cases e1
  have V' := V.reach h0
  have hu := Made.index h V h0 hpre hf
  have hz : gd.size ≠ 0 := by
    have h1 := e2.size
    have h2 := V'.lt hu
    show gd.units.length ≠ 0
    omega
  have hW : 1 + W (residual (words (accepted hist)) p) ≤ 1073741824 := by
    have h1 := W_residual_le (words (accepted hist)) p
    have h2 := W_words_lt h.1
    omega
  have hord : OrdPerm (Reach kid (words (accepted hist))) (rord D sorter cmp) := fun {_ _} h => rord_perm hs.perm V' h
  have hby : ∀ {u L}, Reach kid (words (accepted hist)) u L → rord D sorter cmp L = byRank cmp L := fun {_ _} h => rord_byRank hs hc V' h
  have hordB : OrdPerm (Reach kid (words (accepted hist))) (byRank cmp) := fun {_ _} _ => byRank_perm _
  obtain ⟨xs, f1, f2, f4⟩ := RState.listing (P := P) V' hord e2 hu hW (by omega) _ .fresh rfl
  refine ⟨_, xs, rstartString_eq V' hz hu rc P, f1, ?_, ?_, f4⟩
  all_goals generalize hL : residual (words (accepted hist)) p = L at *
  all_goals
    rw [hby hu] at f2
    have hok : ∀ t ∈ [(([], L, byRank cmp L) : Task)], TaskOk (Reach kid (words (accepted hist))) (depthOf L) t := by
      intro t ht
      rw [List.mem_singleton] at ht
      subst ht
      exact ⟨⟨_, hu⟩, fun l hl => (byRank_perm L).mem_iff.1 hl, fun e he => by have := le_depthOf he; simpa using this⟩
    have f3 := f2.congr V' hord hby hok (by simp)
  · exact (f3.exec V' hordB hok (by simp) L.length (by rw [f1.length_eq]; exact Nat.le_refl _)).symm
  · intro w hw
    -- the order of the transitions below `L` is that of the bytes
    have VE := V'.equal w
    have hua : byRank cmp L = arcs L := byRank_arcs hc V' hu hw
    have hokE : ∀ t ∈ [(([], L, byRank cmp L) : Task)], TaskOk (fun u L => Reach kid (words (accepted hist)) u L ∧ ∀ e ∈ L, e.2 = w) (depthOf L) t := by
      intro t ht
      rw [List.mem_singleton] at ht
      subst ht
      exact ⟨⟨_, hu, hw⟩, fun l hl => (byRank_perm L).mem_iff.1 hl, fun e he => by have := le_depthOf he; simpa using this⟩
    have f5 := f3.congr VE (ord' := arcs) (fun {_ _} _ => byRank_perm _) (fun {_ _} h => byRank_arcs hc VE h h.2) hokE (by simp)
    have f6 := f5.zig VE (fun {_ _} _ => List.Perm.refl _) hokE (by simp) (fun e he => hw e (f1.mem_iff.1 he))
    rw [f6, hua]
    simp only [List.flatMap_cons, List.flatMap_nil, List.append_nil]
    unfold zigTask
    rw [zigzag_arcs V' hu, map_pre_nil]

/-! ## C29: the exact order -/

/-- **C29**, the exact order: with a comparator that is a strict total order, the keys come in the order of `rankedOrder`.  Every step takes the first candidate
with the *greatest* value, whatever the comparator; it only decides in which order the transitions of a state are tried. -/
theorem C29_exact_order_partial {hist d D gd p u n} {sorter : Sorter} {cmp : Int → Int → Bool} (h : Made hist d D) (hs : StableSort sorter) (hc : StrictTotal cmp)
    (hg : buildRankedGuideCmp sorter d D cmp = .ok (some gd)) (hpre : ∃ e ∈ accepted hist, p <+: e.1)
    (hf : D.followString p D.root = .ok (true, u, n)) (rc : RankedCompleter) (P : Key) :
    ∃ rc0, RankedCompleter.startString D gd rc u P = .ok rc0 ∧ (rankedOrder cmp (residual (words (accepted hist)) p)).Perm (residual (words (accepted hist)) p) ∧
      ∀ m, (residual (words (accepted hist)) p).length < m → ∃ rc', rlisting D gd m rc0 = .ok ((rankedOrder cmp (residual (words (accepted hist)) p)).map
        (fun e => (P ++ e.1 ++ [0], ((P.length + e.1.length : Nat) : Int), (e.2 : Int))), rc') ∧ RankedCompleter.next D gd rc' = .ok (rc', false) := by
  obtain ⟨rc0, xs, h1, h2, rfl, _, h3⟩ := ranked_listed h hs hc hg hpre hf rc P
  exact ⟨rc0, h1, h2, h3⟩

/-- "aa" = 1, "ab" = 3, "b" = 2, "ba" = 2, "c" = 9 with the comparator `>`: 1, 3, 2, 9, 2. -/
example : ∃ d D gd rc0, Made [([97, 97], 1), ([97, 98], 3), ([98], 2), ([98, 97], 2), ([99], 9)] d D ∧
    buildRankedGuideCmp insertionSort d D (fun lhs rhs => decide (lhs > rhs)) = .ok (some gd) ∧ RankedCompleter.start D gd RankedCompleter.new D.root = .ok rc0 ∧
    ∃ rc', rlisting D gd 6 rc0 = .ok ([([97, 97, 0], 2, 1), ([97, 98, 0], 2, 3), ([98, 0], 1, 2), ([99, 0], 1, 9), ([98, 97, 0], 2, 2)], rc') := by
  obtain ⟨d, D, h, _⟩ := C14_small_builds 1 (by omega) (by omega) [([97, 97], 1), ([97, 98], 3), ([98], 2), ([98, 97], 2), ([99], 9)] (by decide) (by decide)
  obtain ⟨gd, h1, _⟩ := C27_ranked_guide h insertionSort_stableSort.perm (fun lhs rhs => decide (lhs > rhs))
  obtain ⟨rc0, h2, _, h3⟩ := C29_exact_order_partial h insertionSort_stableSort strictTotal_gt h1 (p := []) ⟨([98], 2), by decide, by simp⟩ rfl RankedCompleter.new []
  obtain ⟨rc', h4, _⟩ := h3 6 (by decide)
  refine ⟨d, D, gd, rc0, h, h1, h2, rc', h4.trans ?_⟩
  congr 2

/-! ## C100 -/

/-- The full claim C100: with `BuildRankedGuide`, keys with equal values are listed in byte order. -/
def C100_statement : Prop := ∀ hist d D gd p u n (sorter : Sorter), Made hist d D → StableSort sorter → buildRankedGuide sorter d D = .ok (some gd) →
  (∃ e ∈ accepted hist, p <+: e.1) → D.followString p D.root = .ok (true, u, n) →
  ∀ (rc : RankedCompleter) (P : Key) (rc0 : RankedCompleter), RankedCompleter.startString D gd rc u P = .ok rc0 →
    ∀ m xs rc', rlisting D gd m rc0 = .ok (xs, rc') → xs.Pairwise (fun a b => a.2.2 = b.2.2 → a.1 < b.1)

/-- **C100**, what holds: when all keys with the prefix have the same value, they come in the order of `zig`: from each state, first the first key behind each
of the transitions, in byte order, and then what is left behind them, beginning with the *last* transition. -/
theorem C100_equal_values_partial {hist d D gd p u n} {sorter : Sorter} (h : Made hist d D) (hs : StableSort sorter)
    (hg : buildRankedGuide sorter d D = .ok (some gd)) (hpre : ∃ e ∈ accepted hist, p <+: e.1)
    (hf : D.followString p D.root = .ok (true, u, n)) {w : Nat} (hw : ∀ e ∈ words (accepted hist), p <+: e.1 → e.2 = w) (rc : RankedCompleter) (P : Key) :
    ∃ rc0, RankedCompleter.startString D gd rc u P = .ok rc0 ∧ (zig (residual (words (accepted hist)) p)).Perm (residual (words (accepted hist)) p) ∧
      ∀ m, (residual (words (accepted hist)) p).length < m → ∃ rc', rlisting D gd m rc0 = .ok ((zig (residual (words (accepted hist)) p)).map
        (fun e => (P ++ e.1 ++ [0], ((P.length + e.1.length : Nat) : Int), (e.2 : Int))), rc') ∧ RankedCompleter.next D gd rc' = .ok (rc', false) := by
  obtain ⟨rc0, xs, h1, h2, _, h3, h4⟩ := ranked_listed h hs strictTotal_lt hg hpre hf rc P
  have := h3 w (by
    rintro ⟨k, v⟩ he
    rw [mem_residual] at he
    exact hw (p ++ k, v) he ⟨k, rfl⟩)
  subst this
  exact ⟨rc0, h1, h2, h4⟩

/-- The keys "a", "aa", "ab", "b", "ba", "c" without values come as "a", "b", "c", "ba", "aa", "ab". -/
example : ∃ d D gd rc0, Made [([97], 0), ([97, 97], 0), ([97, 98], 0), ([98], 0), ([98, 97], 0), ([99], 0)] d D ∧
    buildRankedGuide insertionSort d D = .ok (some gd) ∧ RankedCompleter.start D gd RankedCompleter.new D.root = .ok rc0 ∧
    ∃ rc', rlisting D gd 7 rc0 = .ok ([([97, 0], 1, 0), ([98, 0], 1, 0), ([99, 0], 1, 0), ([98, 97, 0], 2, 0), ([97, 97, 0], 2, 0), ([97, 98, 0], 2, 0)], rc') := by
  obtain ⟨d, D, h, _⟩ := C14_small_builds 1 (by omega) (by omega) [([97], 0), ([97, 97], 0), ([97, 98], 0), ([98], 0), ([98, 97], 0), ([99], 0)] (by decide) (by decide)
  obtain ⟨gd, h1, _⟩ := C27_ranked_guide h insertionSort_stableSort.perm (fun lhs rhs => decide (lhs < rhs))
  obtain ⟨rc0, h2, _, h3⟩ := C100_equal_values_partial h insertionSort_stableSort h1 (p := []) ⟨([98], 0), by decide, by simp⟩ rfl (w := 0) (by decide) RankedCompleter.new []
  obtain ⟨rc', h4, _⟩ := h3 7 (by decide)
  refine ⟨d, D, gd, rc0, h, h1, h2, rc', h4.trans ?_⟩
  congr 2

/-- **C100 is false**: "aa", "ab" and "b", all with value 0, are listed as "aa", "b", "ab". -/
theorem C100_byte_order_false : ¬ C100_statement := by
  intro hs
  obtain ⟨d, D, h, _⟩ := C14_small_builds 1 (by omega) (by omega) [([97, 97], 0), ([97, 98], 0), ([98], 0)] (by decide) (by decide)
  obtain ⟨gd, h1, _⟩ := C27_ranked_guide h insertionSort_stableSort.perm (fun lhs rhs => decide (lhs < rhs))
  obtain ⟨rc0, h2, _, h3⟩ := C100_equal_values_partial h insertionSort_stableSort h1 (p := []) ⟨([98], 0), by decide, by simp⟩ rfl (w := 0) (by decide) RankedCompleter.new []
  obtain ⟨rc', h4, _⟩ := h3 4 (by decide)
  have := hs _ d D gd [] D.root 0 insertionSort h insertionSort_stableSort h1 ⟨([98], 0), by decide, by simp⟩ rfl RankedCompleter.new [] rc0 h2 4 _ rc' h4
  revert this
  decide +kernel

end Dawg.Props
