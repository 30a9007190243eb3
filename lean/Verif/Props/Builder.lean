import Verif.Proof.Builder.Count
/-! # C01–C09: building a Dawg -/
namespace Dawg.Props
open Dawg Dawg.Spec Dawg.Client Dawg.Abs
attribute [-simp] List.length_flatten

/-- A sample history: "a" twice, "ab", "b" out of order later, the empty key too late, shared suffixes. -/
def sample : List (Key × Int) :=
  [([97], 1), ([97], 2), ([97, 98, 99], 7), ([97], 3), ([98, 98, 99], 7), ([], 1), ([99, 255], -1)]

theorem sample_admissible : Admissible sample := ⟨by decide, by decide⟩

/-! ## Auxiliary facts -/

theorem key_trichotomy (a b : Key) : a < b ∨ a = b ∨ b < a := by
  by_cases h1 : a < b
  · exact .inl h1
  · by_cases h2 : b < a
    · exact .inr (.inr h2)
    · exact .inr (.inl (List.le_antisymm (List.not_lt.1 h2) (List.not_lt.1 h1)))

theorem admissible_append {h1 h2 : List (Key × Int)} (h : Admissible (h1 ++ h2)) : Admissible h1 :=
  ⟨fun e he => h.nulFree e (by simp [he]), by have := h.small; simp only [List.map_append, List.sum_append] at this; omega⟩

theorem insertAll_append : ∀ (h1 h2 : List (Key × Int)) (b : Builder), insertAll b (h1 ++ h2) =
    (do let (b, o1) ← insertAll b h1; let (b, o2) ← insertAll b h2; return (b, o1 ++ o2))
  | [], h2, b => by
    simp only [List.nil_append, insertAll, ok_bind]
    cases insertAll b h2 <;> rfl
  | (k, v) :: h1, h2, b => by
    simp only [List.cons_append, insertAll]
    cases b.insertStringValue k v with
    | error e => rfl
    | ok r =>
      simp only [ok_bind, insertAll_append h1 h2]
      cases insertAll r.1 h1 with
      | error e => rfl
      | ok r' =>
        simp only [ok_bind, pure_eq_ok]
        cases insertAll r'.1 h2 <;> rfl

theorem insertAll_one (b : Builder) (k : Key) (v : Int) :
    insertAll b [(k, v)] = (do let (b, ok) ← b.insertStringValue k v; return (b, [ok])) := by
  simp only [insertAll, ok_bind]

theorem accepted_append (h1 h2 : List (Key × Int)) : accepted (h1 ++ h2) = h2.foldl (fun acc e => add acc e.1 e.2) (accepted h1) := by
  simp [accepted]

theorem verdicts_append : ∀ (acc h1 h2 : List (Key × Int)), verdicts acc (h1 ++ h2) =
    verdicts acc h1 ++ verdicts (h1.foldl (fun acc e => add acc e.1 e.2) acc) h2
  | _, [], _ => rfl
  | acc, e :: h1, h2 => by simp only [List.cons_append, verdicts, List.foldl_cons, verdicts_append]

/-- The accepted keys are strictly increasing (a fact about the specification). -/
theorem accepted_sorted (hist : List (Key × Int)) : (accepted hist).Pairwise (fun a b => a.1 < b.1) := by
  suffices ∀ acc : List (Key × Int), acc.Pairwise (fun a b => a.1 < b.1) →
      (hist.foldl (fun acc e => add acc e.1 e.2) acc).Pairwise (fun a b => a.1 < b.1) from this [] List.Pairwise.nil
  induction hist with
  | nil => exact fun _ h => h
  | cons e hist ih =>
    intro acc h
    apply ih
    rcases List.eq_nil_or_concat acc with rfl | ⟨init, l, rfl⟩
    · simp [add]
    · rw [List.concat_eq_append] at *
      simp only [add, List.getLast?_append, List.getLast?_singleton, Option.some_or]
      have hall := List.pairwise_append.1 h
      split
      · exact h
      · rename_i hnlt
        split
        · rename_i heq
          rw [List.dropLast_concat]
          refine List.pairwise_append.2 ⟨hall.1, by simp, ?_⟩
          intro a ha b hb
          rw [List.mem_singleton.1 hb, heq]
          exact hall.2.2 a ha l (by simp)
        · rename_i hne
          have hlt : l.1 < e.1 := by
            rcases key_trichotomy l.1 e.1 with h | h | h
            · exact h
            · exact absurd h.symm hne
            · exact absurd h hnlt
          refine List.pairwise_append.2 ⟨h, by simp, ?_⟩
          intro a ha b hb
          rw [List.mem_singleton.1 hb]
          rcases List.mem_append.1 ha with ha | ha
          · exact List.lt_trans (hall.2.2 a ha l (by simp)) hlt
          · rw [List.mem_singleton.1 ha]; exact hlt

theorem accepted_nulFree {hist : List (Key × Int)} (h : ∀ e ∈ hist, (0 : UInt8) ∉ e.1) : ∀ e ∈ accepted hist, (0 : UInt8) ∉ e.1 := by
  suffices ∀ acc : List (Key × Int), (∀ e ∈ acc, (0 : UInt8) ∉ e.1) →
      ∀ e ∈ hist.foldl (fun acc e => add acc e.1 e.2) acc, (0 : UInt8) ∉ e.1 from this [] (by simp)
  induction hist with
  | nil => exact fun _ h => h
  | cons x hist ih =>
    intro acc hacc
    refine ih (fun e he => h e (by simp [he])) _ ?_
    intro e he
    have hx : (0 : UInt8) ∉ x.1 := h x (by simp)
    simp only [add] at he
    split at he
    · simp at he; rw [he]; exact hx
    · split at he
      · exact hacc e he
      · split at he
        · rcases List.mem_append.1 he with he | he
          · exact hacc e (List.dropLast_subset _ he)
          · simp at he; rw [he]; exact hx
        · rcases List.mem_append.1 he with he | he
          · exact hacc e he
          · simp at he; rw [he]; exact hx

/-! ## C01, C07 -/

/-- **C01.** After any admissible history of insertions into a new builder with any initial table size, `InsertStringValue` returns,
and returns true iff no key was accepted before or the key is not smaller than the last accepted key (`Spec.accepts`). -/
theorem C01_accepts_in_order (n : Nat) (h1 : 1 ≤ n) (h2 : n < 2 ^ 32) (hist : List (Key × Int)) (k : Key) (v : Int)
    (hadm : Admissible (hist ++ [(k, v)])) :
    ∃ b b', insertAll (Builder.newWithSize n) hist = .ok (b, verdicts [] hist) ∧
      b.insertStringValue k v = .ok (b', accepts (accepted hist) k) := by
  obtain ⟨b2, hb2, _⟩ := insertAll_new n h1 h2 _ hadm (by simp)
  rw [insertAll_append] at hb2
  obtain ⟨b, hb⟩ : ∃ b, insertAll (Builder.newWithSize n) hist = .ok (b, verdicts [] hist) := by
    cases hist with
    | nil => exact ⟨_, rfl⟩
    | cons e hist =>
      obtain ⟨b, hb, _⟩ := insertAll_new n h1 h2 _ (admissible_append hadm) (by simp)
      exact ⟨b, hb⟩
  rw [hb] at hb2
  simp only [ok_bind, insertAll_one, verdicts_append] at hb2
  refine ⟨b, ?_⟩
  cases hr : b.insertStringValue k v with
  | error e => rw [hr] at hb2; simp at hb2
  | ok r =>
    rw [hr] at hb2
    simp only [ok_bind, pure_eq_ok, Except.ok.injEq, Prod.mk.injEq, List.append_cancel_left_eq, verdicts, List.cons.injEq] at hb2
    exact ⟨r.1, hb, by rw [← show accepted hist = List.foldl _ _ _ from rfl] at hb2; rw [← hb2.2.1]⟩

/-- In other words. -/
theorem C01_accepts_iff (acc : List (Key × Int)) (k : Key) :
    accepts acc k = true ↔ acc = [] ∨ ∃ init l v, acc = init ++ [(l, v)] ∧ (l < k ∨ l = k) := by
  rcases List.eq_nil_or_concat acc with rfl | ⟨init, ⟨l, v⟩, rfl⟩
  · simp [accepts]
  · simp only [accepts, List.concat_eq_append, List.getLast?_append, List.getLast?_singleton, Option.some_or, decide_eq_true_eq]
    constructor
    · intro h
      right
      refine ⟨init, l, v, rfl, ?_⟩
      rcases key_trichotomy l k with h' | h' | h'
      · exact .inl h'
      · exact .inr h'
      · exact absurd h' h
    · rintro (h | ⟨init', l', v', he, h⟩)
      · simp at h
      · have := List.append_inj' he rfl
        simp only [List.cons.injEq, Prod.mk.injEq, and_true] at this
        rw [this.2.1]
        rcases h with h | rfl
        · exact List.lt_asymm h
        · exact List.lt_irrefl _

example : Admissible (sample ++ [([99, 255, 1], 5)]) ∧ accepts (accepted sample) [99, 255, 1] = true ∧
    accepts (accepted sample) [99, 254] = false := ⟨⟨by decide, by decide⟩, by decide, by decide⟩

/-- `InsertString(k)` is `InsertStringValue(k, 0)`. -/
theorem C01_insertString (b : Builder) (k : Key) : b.insertString k = b.insertStringValue k 0 := rfl

/-- **C07.** Building never panics or hangs: every admissible history followed by `Finish` returns, with the expected verdicts. -/
theorem C07_build_returns (n : Nat) (h1 : 1 ≤ n) (h2 : n < 2 ^ 32) (hist : List (Key × Int)) (hadm : Admissible hist) :
    ∃ b d, build n hist = .ok (verdicts [] hist, b, d) := by
  obtain ⟨d, h, _⟩ := build_spec n h1 h2 hist hadm
  exact ⟨_, d, h⟩

example : (build 1 sample).toOption.map (·.1) = some [true, true, true, false, true, false, true] := by decide +kernel

/-! ## C02 -/

/-- **C02.** A rejected insertion leaves the builder exactly as it was, hence has no effect on anything done afterwards. -/
theorem C02_rejection_has_no_effect (n : Nat) (h1 : 1 ≤ n) (h2 : n < 2 ^ 32) (hist : List (Key × Int)) (k : Key) (v : Int)
    (hadm : Admissible (hist ++ [(k, v)])) (b b' : Builder) (oks : List Bool)
    (hb : insertAll (Builder.newWithSize n) hist = .ok (b, oks)) (hrej : b.insertStringValue k v = .ok (b', false)) : b' = b := by
  cases hist with
  | nil =>
    exfalso
    obtain ⟨b1, b2, e1, e2⟩ := C01_accepts_in_order n h1 h2 [] k v hadm
    rw [hb] at e1
    simp only [Except.ok.injEq, Prod.mk.injEq] at e1
    rw [← e1.1, hrej] at e2
    simp only [Except.ok.injEq, Prod.mk.injEq] at e2
    exact absurd e2.2 (by simp [accepted, accepts])
  | cons e hist =>
    obtain ⟨b1, e1, e2, e3, e4, e5, e6⟩ := insertAll_new n h1 h2 _ (admissible_append hadm) (by simp)
    rw [hb] at e1
    simp only [Except.ok.injEq, Prod.mk.injEq] at e1
    obtain ⟨rfl, _⟩ := e1
    have hk : (0 : UInt8) ∉ k := hadm.nulFree (k, v) (by simp)
    have hsm : total (e :: hist) + (k.length + 1) < 1073741824 := by
      have := hadm.small
      simp only [List.map_append, List.sum_append, List.map_cons, List.map_nil, List.sum_cons, List.sum_nil] at this
      simp only [total, List.map_cons, List.sum_cons]; omega
    have hsz : (runAbs St.init (e :: hist)).size ≤ 1073741824 := by omega
    obtain ⟨b3, r1, r2, r3, r4, r5⟩ := insert_spec e2 k k.length (Nat.le_refl _) (by simpa using hk) v e4 hsz (by omega)
    rw [Builder.insertStringValue, r1] at hrej
    simp only [Except.ok.injEq, Prod.mk.injEq] at hrej
    rw [← hrej.1]
    exact r5 hrej.2

/-- Seen from outside: the finished Dawg and all other verdicts are the same without the rejected call. -/
theorem C02_rejection_unobservable (n : Nat) (h1 : 1 ≤ n) (h2 : n < 2 ^ 32) (hist rest : List (Key × Int)) (k : Key) (v : Int)
    (hadm : Admissible (hist ++ (k, v) :: rest)) (hrej : accepts (accepted hist) k = false) :
    ∃ o1 o2 b d, build n (hist ++ (k, v) :: rest) = .ok (o1 ++ false :: o2, b, d) ∧
      build n (hist ++ rest) = .ok (o1 ++ o2, b, d) ∧ o1.length = hist.length := by
  have hadm1 : Admissible (hist ++ [(k, v)]) := by
    rw [show hist ++ (k, v) :: rest = (hist ++ [(k, v)]) ++ rest by simp] at hadm
    exact admissible_append hadm
  obtain ⟨b, b', e1, e2⟩ := C01_accepts_in_order n h1 h2 hist k v hadm1
  rw [hrej] at e2
  have := C02_rejection_has_no_effect n h1 h2 hist k v hadm1 b b' _ e1 e2
  subst this
  obtain ⟨d, hd, _⟩ := build_spec n h1 h2 _ hadm
  have hd' := hd
  rw [verdicts_append] at hd'
  simp only [Client.build, insertAll_append, e1, ok_bind, insertAll, e2] at hd'
  cases hi : insertAll b' rest with
  | error e => rw [hi] at hd'; simp at hd'
  | ok r =>
    rw [hi] at hd'
    simp only [ok_bind, pure_eq_ok] at hd'
    cases hf : r.1.finish with
    | error e => rw [hf] at hd'; simp at hd'
    | ok q =>
      rw [hf] at hd'
      simp only [ok_bind, Except.ok.injEq, Prod.mk.injEq] at hd'
      obtain ⟨ho, hq1, hq2⟩ := hd'
      refine ⟨verdicts [] hist, r.2, spent n, d, ?_, ?_, ?_⟩
      · rw [hd]
        simp only [Except.ok.injEq, Prod.mk.injEq, and_true]
        rw [verdicts_append, ← ho]
      · simp only [Client.build, insertAll_append, e1, ok_bind, hi, pure_eq_ok, hf, hq1, hq2]
      · have : ∀ (acc h : List (Key × Int)), (verdicts acc h).length = h.length := by
          intro acc h
          induction h generalizing acc with
          | nil => rfl
          | cons e h ih => simp [verdicts, ih]
        exact this _ _

example : Admissible ([([98], 1)] ++ ([97], 2) :: [([99], 3)]) ∧ accepts (accepted [([98], 1)]) [97] = false :=
  ⟨⟨by decide, by decide⟩, by decide⟩

/-! ## C03 -/

theorem walk_self (c : Core) (v : Nat) : ∀ (down up : List Frame), walk c v (down.map Frame.label) down up = some (c, down.reverse ++ up)
  | [], up => by simp [walk]
  | f :: down, up => by
    have hi : ¬ f.label < f.label := UInt8.lt_irrefl _
    simp only [List.map_cons, walk, if_neg hi]
    rw [walk_self c v down]; simp

theorem insert_twice {s : St} (hdesc : ∀ f ∈ s.frames, Desc f.label f.closed) (ks : List UInt8) (v w : Nat) :
    ((s.insert ks v).1.insert ks w).1 = (s.insert ks w).1 ∧ ((s.insert ks v).2 = true → ((s.insert ks v).1.insert ks w).2 = true) := by
  cases hw : walk s.core s.val ks s.frames.reverse [] with
  | none => simp [St.insert, hw]
  | some r =>
    obtain ⟨c, fs⟩ := r
    have hp := (walk_path _ _ _ _ _ _ _ hw (by simpa using hdesc) (by simp)).1
    simp only [List.reverse_nil, List.map_nil, List.nil_append] at hp
    have h2 := walk_self c v fs.reverse []
    rw [hp] at h2
    simp only [List.reverse_reverse, List.append_nil] at h2
    simp [St.insert, hw, h2]

/-- **C03.** Inserting a key twice in a row gives the same Dawg as only the second insertion. -/
theorem C03_reinsert_overwrites (n : Nat) (h1 : 1 ≤ n) (h2 : n < 2 ^ 32) (hist rest : List (Key × Int)) (k : Key) (v w : Int)
    (hadm : Admissible (hist ++ (k, v) :: (k, w) :: rest)) :
    ∃ oks oks' b d, build n (hist ++ (k, v) :: (k, w) :: rest) = .ok (oks, b, d) ∧
      build n (hist ++ (k, w) :: rest) = .ok (oks', b, d) := by
  have hadm' : Admissible (hist ++ (k, w) :: rest) := by
    refine ⟨fun e he => hadm.nulFree e (by simp at he ⊢; grind), ?_⟩
    have := hadm.small
    simp only [List.map_append, List.sum_append, List.map_cons, List.sum_cons] at this ⊢
    omega
  obtain ⟨d, hd, hd1, _⟩ := build_spec n h1 h2 _ hadm
  obtain ⟨d', hd', hd1', _⟩ := build_spec n h1 h2 _ hadm'
  have hdesc : ∀ f ∈ (runAbs St.init hist).frames, Desc f.label f.closed := by
    cases hist with
    | nil => simp [runAbs, St.init]
    | cons e hist =>
      obtain ⟨_, _, _, h, _⟩ := insertAll_new n h1 h2 _ (admissible_append hadm) (by simp)
      exact h.desc
  have heq : runAbs St.init (hist ++ (k, v) :: (k, w) :: rest) = runAbs St.init (hist ++ (k, w) :: rest) := by
    simp only [runAbs, List.foldl_append, List.foldl_cons]
    simp only [runAbs] at hdesc
    rw [(insert_twice hdesc _ _ _).1]
  rw [heq] at hd1
  have := hd1.unique hd1'
  subst this
  exact ⟨_, _, _, d, hd, hd'⟩

/-- The second of two insertions of an accepted key is accepted too. -/
theorem C03_reinsert_accepted (acc : List (Key × Int)) (k : Key) (v : Int) (h : accepts acc k = true) : accepts (add acc k v) k = true := by
  rcases List.eq_nil_or_concat acc with rfl | ⟨init, ⟨l, x⟩, rfl⟩
  · simp [add, accepts]
  · simp only [accepts, List.concat_eq_append, List.getLast?_append, List.getLast?_singleton, Option.some_or, decide_eq_true_eq] at h
    simp only [add, List.concat_eq_append, List.getLast?_append, List.getLast?_singleton, Option.some_or, if_neg h]
    split <;> simp [accepts]

example : Admissible ([([97], 1)] ++ ([98], 1) :: ([98], 2) :: [([99], 3)]) ∧ accepts (accepted [([97], 1)]) [98] = true :=
  ⟨⟨by decide, by decide⟩, by decide⟩

/-! ## C04 -/

/-- **C04.** Walking the finished Dawg from `Root()` with `Child`, `Sibling`, `Label`, `IsLeaf`, `Value` (`Client.dumpAll`) lists
exactly the accepted keys with the stored words of their last values, in order of insertion. -/
theorem C04_walk_lists_accepted (n : Nat) (h1 : 1 ≤ n) (h2 : n < 2 ^ 32) (hist : List (Key × Int)) (hadm : Admissible hist) :
    ∃ oks b d, build n hist = .ok (oks, b, d) ∧
      ∃ f, ∀ fuel, f ≤ fuel → dumpAll d fuel = .ok (words (accepted hist)) := by
  obtain ⟨d, hd, hd1, hd2⟩ := build_spec n h1 h2 hist hadm
  exact ⟨_, _, d, hd, hd1.dumpAll hd2⟩

/-- The listing has strictly increasing keys. -/
theorem C04_listing_sorted (hist : List (Key × Int)) : (words (accepted hist)).Pairwise (fun a b => a.1 < b.1) := by
  unfold words
  rw [List.pairwise_map]
  exact accepted_sorted hist

/-- Siblings are met in strictly increasing label order. -/
theorem C04_sibling_labels_increase (n : Nat) (h1 : 1 ≤ n) (h2 : n < 2 ^ 32) (hist : List (Key × Int)) (hadm : Admissible hist)
    (oks : List Bool) (b : Builder) (d : Dawg) (hb : build n hist = .ok (oks, b, d)) (i s : Nat) (hi : Trans d i)
    (hs : d.sibling i = .ok s) (hs0 : s ≠ 0) :
    ∃ l m, d.label i = .ok l ∧ d.label s = .ok m ∧ l < m := by
  obtain ⟨d', hd, hd1, hd2⟩ := build_spec n h1 h2 hist hadm
  rw [hb] at hd
  simp only [Except.ok.injEq, Prod.mk.injEq] at hd
  obtain ⟨_, _, rfl⟩ := hd
  rcases hd1.trans_cases hd2 hi with rfl | ⟨s', g, j, q, h3, h4, rfl⟩
  · rw [hd1.sibling_root] at hs
    simp only [Except.ok.injEq] at hs
    exact absurd hs.symm hs0
  · rw [hd1.sibling_at hd2 h3 h4] at hs
    simp only [Except.ok.injEq] at hs
    split at hs
    · rename_i hlt
      subst hs
      refine ⟨q.1, g[j + 1].1, hd1.label_at h3 h4, hd1.label_at h3 (by simp), ?_⟩
      obtain ⟨hj, rfl⟩ := List.getElem?_eq_some_iff.1 h4
      exact List.pairwise_iff_getElem.1 (hd2.cinv.asc _ h3.mem) j (j + 1) hj hlt (by omega)
    · exact absurd hs.symm hs0

example : words (accepted sample) = [([97], 2), ([97, 98, 99], 7), ([98, 98, 99], 7), ([99, 255], 2147483647)] := by decide
example : (do let (_, _, d) ← build 3 sample; dumpAll d 20) = .ok (words (accepted sample)) := by decide +kernel

/-! ## C05 -/

/-- **C05, minimality.** Two states of the finished Dawg that list the same entries are the same state.  (Every state can be listed.) -/
theorem C05_states_differ (n : Nat) (h1 : 1 ≤ n) (h2 : n < 2 ^ 32) (hist : List (Key × Int)) (hadm : Admissible hist)
    (oks : List Bool) (b : Builder) (d : Dawg) (hb : build n hist = .ok (oks, b, d)) (s t : Nat) (hs : IsState d s) (ht : IsState d t) :
    ∃ Ls Lt f, (∀ fuel, f ≤ fuel → dump d fuel s [] = .ok Ls ∧ dump d fuel t [] = .ok Lt) ∧ (Ls = Lt → s = t) := by
  obtain ⟨d', hd, hd1, hd2⟩ := build_spec n h1 h2 hist hadm
  rw [hb] at hd
  simp only [Except.ok.injEq, Prod.mk.injEq] at hd
  obtain ⟨_, _, rfl⟩ := hd
  obtain ⟨g, L, a1, a2, f, a3⟩ := hd1.state_lang hd2 hs
  obtain ⟨g', L', b1, b2, f', b3⟩ := hd1.state_lang hd2 ht
  refine ⟨L, L', f + f', fun fuel hf => ⟨a3 fuel (by omega), b3 fuel (by omega)⟩, ?_⟩
  rintro rfl
  have := hd2.cinv.minimal a1.mem b1.mem a2 b2
  subst this
  exact a1.inj hd2.cinv.nodup b1

/-- **C05, number of states.** `NumOfStates` is one plus the number of distinct non-empty suffix maps of the accepted keys, and one plus
the number of states that can be reached. -/
theorem C05_number_of_states (n : Nat) (h1 : 1 ≤ n) (h2 : n < 2 ^ 32) (hist : List (Key × Int)) (hadm : Admissible hist)
    (oks : List Bool) (b : Builder) (d : Dawg) (hb : build n hist = .ok (oks, b, d)) :
    ∃ m, d.numOfStates = 1 + m ∧ HasCard (fun L => L ≠ [] ∧ ∃ p, L = residual (words (accepted hist)) p) m ∧ HasCard (IsState d) m := by
  obtain ⟨d', hd, hd1, hd2⟩ := build_spec n h1 h2 hist hadm
  rw [hb] at hd
  simp only [Except.ok.injEq, Prod.mk.injEq] at hd
  obtain ⟨_, _, rfl⟩ := hd
  refine ⟨_, by rw [hd1.states, Nat.add_comm], hd2.card_states, ?_⟩
  exact ⟨starts 1 _, starts_nodup hd2.cinv.ne, fun s => (hd1.isState_iff hd2).symm, starts_length _ _⟩

example : (build 3 sample).toOption.map (fun r => r.2.2.numOfStates) = some 8 := by decide +kernel

/-! ## C06 -/

/-- **C06.** `NumOfTransitions + NumOfMergedTransitions` is the number of edges of the trie, `NumOfMergedStates + NumOfStates` its number
of nodes. -/
theorem C06_trie_counts (n : Nat) (h1 : 1 ≤ n) (h2 : n < 2 ^ 32) (hist : List (Key × Int)) (hadm : Admissible hist)
    (oks : List Bool) (b : Builder) (d : Dawg) (hb : build n hist = .ok (oks, b, d)) :
    ∃ edges nodes : Nat, HasCard (TrieEdge (accepted hist)) edges ∧ HasCard (TrieNode (accepted hist)) nodes ∧
      d.numOfTransitions + d.numOfMergedTransitions = edges ∧ d.numOfMergedStates + d.numOfStates = nodes := by
  obtain ⟨d', hd, hd1, hd2⟩ := build_spec n h1 h2 hist hadm
  rw [hb] at hd
  simp only [Except.ok.injEq, Prod.mk.injEq] at hd
  obtain ⟨_, _, rfl⟩ := hd
  have hnul : ∀ e ∈ (accepted hist).map wordE, (0 : UInt8) ∉ e.1 := by
    intro e he
    obtain ⟨a, ha, rfl⟩ := List.mem_map.1 he
    exact accepted_nulFree hadm.nulFree a ha
  obtain ⟨l, a1, a2, a3⟩ := hd2.card_edges hnul
  have hedge : ∀ x, x ∈ l ↔ TrieEdge (accepted hist) x := by
    intro x
    rw [a2]
    simp only [TrieEdge, List.mem_map]
    constructor
    · rintro ⟨h, _, ⟨a, ha, rfl⟩, hp⟩; exact ⟨h, a, ha, hp⟩
    · rintro ⟨h, a, ha, hp⟩; exact ⟨h, _, ⟨a, ha, rfl⟩, hp⟩
  have hbl : d.basePool.length = 1 + (runAbs St.init hist).finish.1.groups.flatten.length := by
    rw [hd1.base]; simp [-List.map_flatten]; omega
  refine ⟨_, l.length + 1, ⟨l, a1, hedge, a3⟩, ⟨[] :: l, ?_, ?_, by simp⟩, ?_, ?_⟩
  · refine List.nodup_cons.2 ⟨fun h => ?_, a1⟩
    exact ((hedge _).1 h).1 rfl
  · intro x
    rw [List.mem_cons, hedge]
    simp only [TrieEdge, TrieNode]
    by_cases hx : x = [] <;> simp [hx]
  · simp only [Dawg.numOfTransitions, hbl, hd1.merged]; omega
  · rw [hd1.mergedStates, hd1.states, a3]; omega

/-- **C06, transitions.** `NumOfTransitions` is the number of transitions of the minimal automaton: one for every distinct non-empty suffix map and every byte that
continues it (0 at the end of a key). -/
theorem C06_number_of_transitions (n : Nat) (h1 : 1 ≤ n) (h2 : n < 2 ^ 32) (hist : List (Key × Int)) (hadm : Admissible hist)
    (oks : List Bool) (b : Builder) (d : Dawg) (hb : build n hist = .ok (oks, b, d)) :
    ∃ m : Nat, d.numOfTransitions = m ∧
      HasCard (fun x : List (Key × Nat) × UInt8 => x.1 ≠ [] ∧ (∃ p, x.1 = residual (words (accepted hist)) p) ∧ ∃ e ∈ x.1, [x.2] <+: e.1 ++ [0]) m := by
  obtain ⟨d', hd, hd1, hd2⟩ := build_spec n h1 h2 hist hadm
  rw [hb] at hd
  simp only [Except.ok.injEq, Prod.mk.injEq] at hd
  obtain ⟨_, _, rfl⟩ := hd
  refine ⟨_, ?_, hd2.card_transitions⟩
  have hbl : d.basePool.length = 1 + (runAbs St.init hist).finish.1.groups.flatten.length := by
    rw [hd1.base]; simp [-List.map_flatten]; omega
  simp only [Dawg.numOfTransitions, hbl]; omega

example : (build 3 sample).toOption.map (fun r => r.2.2.numOfTransitions) = some 10 := by decide +kernel

/-- **C06, merging states.** `NumOfMergingStates` counts the indices on which `IsMerging` holds. -/
theorem C06_number_of_merging (n : Nat) (h1 : 1 ≤ n) (h2 : n < 2 ^ 32) (hist : List (Key × Int)) (hadm : Admissible hist)
    (oks : List Bool) (b : Builder) (d : Dawg) (hb : build n hist = .ok (oks, b, d)) :
    HasCard (fun i => i < d.size ∧ d.isMerging i = .ok true) d.numOfMergingStates := by
  obtain ⟨d', hd, hd1, hd2⟩ := build_spec n h1 h2 hist hadm
  rw [hb] at hd
  simp only [Except.ok.injEq, Prod.mk.injEq] at hd
  obtain ⟨_, _, rfl⟩ := hd
  have hsize : d.size = poolLen (runAbs St.init hist).finish.1.groups := by
    rw [Dawg.size, hd1.base]; simp [poolLen, -List.map_flatten]; omega
  obtain ⟨N, hN⟩ := hd2.nodes
  refine ⟨(runAbs St.init hist).finish.1.marked, hN.markedNodup, ?_, hd1.merging.symm⟩
  intro i
  constructor
  · intro hi
    have hlt : i < poolLen (runAbs St.init hist).finish.1.groups := by
      have := starts_lt hd2.cinv.ne (hN.markedSub i hi)
      simpa [poolLen] using this
    exact ⟨by rw [hsize]; exact hlt, by rw [hd1.isMerging_iff hd2 hlt]; simp [hi]⟩
  · rintro ⟨hlt, hm⟩
    rw [hsize] at hlt
    rw [hd1.isMerging_iff hd2 hlt] at hm
    simpa using hm

/-- **C06, meaning of `IsMerging`.** A state is merging iff it stands for at least two nodes of the trie: two different prefixes have the
suffix map that the state lists. -/
theorem C06_merging_iff (n : Nat) (h1 : 1 ≤ n) (h2 : n < 2 ^ 32) (hist : List (Key × Int)) (hadm : Admissible hist)
    (oks : List Bool) (b : Builder) (d : Dawg) (hb : build n hist = .ok (oks, b, d)) (s : Nat) (hs : IsState d s) :
    ∃ L f, (∀ fuel, f ≤ fuel → dump d fuel s [] = .ok L) ∧ L ≠ [] ∧ ∃ m, d.isMerging s = .ok m ∧
      (m = true ↔ ∃ p q, p ≠ q ∧ residual (words (accepted hist)) p = L ∧ residual (words (accepted hist)) q = L) := by
  obtain ⟨d', hd, hd1, hd2⟩ := build_spec n h1 h2 hist hadm
  rw [hb] at hd
  simp only [Except.ok.injEq, Prod.mk.injEq] at hd
  obtain ⟨_, _, rfl⟩ := hd
  obtain ⟨g, L, a1, a2, f, a3⟩ := hd1.state_lang hd2 hs
  refine ⟨L, f, a3, a2.ne_nil hd2.cinv.ne (hd2.cinv.ne _ a1.mem), _, hd1.isMerging_iff hd2 ?_, ?_⟩
  · have := starts_lt hd2.cinv.ne (mem_starts.2 ⟨g, a1⟩)
    simpa [poolLen] using this
  · rw [decide_eq_true_eq]
    exact hd2.marked_iff a1 a2

/-- Only states are merging. -/
theorem C06_merging_is_state (n : Nat) (h1 : 1 ≤ n) (h2 : n < 2 ^ 32) (hist : List (Key × Int)) (hadm : Admissible hist)
    (oks : List Bool) (b : Builder) (d : Dawg) (hb : build n hist = .ok (oks, b, d)) (i : Nat) (hi : i < d.size)
    (hm : d.isMerging i = .ok true) : IsState d i := by
  obtain ⟨d', hd, hd1, hd2⟩ := build_spec n h1 h2 hist hadm
  rw [hb] at hd
  simp only [Except.ok.injEq, Prod.mk.injEq] at hd
  obtain ⟨_, _, rfl⟩ := hd
  have hsize : d.size = poolLen (runAbs St.init hist).finish.1.groups := by
    rw [Dawg.size, hd1.base]; simp [poolLen, -List.map_flatten]; omega
  obtain ⟨N, hN⟩ := hd2.nodes
  rw [hd1.isMerging_iff hd2 (by rw [← hsize]; exact hi)] at hm
  exact (hd1.isState_iff hd2).2 (hN.markedSub i (by simpa using hm))

example : (build 3 sample).toOption.map (fun r => (r.2.2.numOfTransitions, r.2.2.numOfMergedTransitions, r.2.2.numOfMergedStates,
    r.2.2.numOfMergingStates)) = some (10, 2, 5, 2) := by decide +kernel

/-! ## C08 -/

/-- **C08.** The initial hash table size is unobservable: same verdicts, same Dawg. -/
theorem C08_table_size_unobservable (m n : Nat) (hm1 : 1 ≤ m) (hm2 : m < 2 ^ 32) (hn1 : 1 ≤ n) (hn2 : n < 2 ^ 32)
    (hist : List (Key × Int)) (hadm : Admissible hist) :
    ∃ oks b b' d, build m hist = .ok (oks, b, d) ∧ build n hist = .ok (oks, b', d) := by
  obtain ⟨d, hd, hd1, _⟩ := build_spec m hm1 hm2 hist hadm
  obtain ⟨d', hd', hd1', _⟩ := build_spec n hn1 hn2 hist hadm
  have := hd1.unique hd1'
  subst this
  exact ⟨_, _, _, d, hd, hd'⟩

example : (build 1 sample).map (·.2.2) = (build 256 sample).map (·.2.2) := by decide +kernel

/-- The hypothesis on the size is needed: with size 0 a panic follows. -/
theorem C08_size_zero_panics : build 0 [([97, 98, 97], 1), ([98], 1)] = .error .panic := by decide +kernel

/-! ## C09 -/

/-- **C09 is false.** After `Finish`, *every* insertion and every further `Finish` panics, whatever was built before. -/
theorem C09_reuse_panics (n : Nat) (h1 : 1 ≤ n) (h2 : n < 2 ^ 32) (hist : List (Key × Int)) (hadm : Admissible hist) :
    ∃ oks b d, build n hist = .ok (oks, b, d) ∧ (∀ key length v, b.insertKeyValue key length v = .error .panic) ∧
      b.finish = .error .panic := by
  obtain ⟨d, hd, _⟩ := build_spec n h1 h2 hist hadm
  refine ⟨_, _, d, hd, ?_, rfl⟩
  intro key length v
  unfold Builder.insertKeyValue
  have hne : (spent n).hashTable.length ≠ 0 := by simp [spent]
  rw [if_neg hne]
  simp only [ok_bind]
  cases hn : (length + 1).toNat with
  | zero =>
    simp only [Builder.descend, ok_bind]
    rw [show (length + 1 - ((0 : Nat) : Int)).toNat = 0 by simp; omega]
    rfl
  | succ m => rfl

/-- What does hold: the builder `Finish` leaves behind is empty. -/
theorem C09_finish_empties_partial (n : Nat) (h1 : 1 ≤ n) (h2 : n < 2 ^ 32) (hist : List (Key × Int)) (hadm : Admissible hist) :
    ∃ oks b d, build n hist = .ok (oks, b, d) ∧ { b with hashTable := [] } = Builder.newWithSize n := by
  obtain ⟨d, hd, _⟩ := build_spec n h1 h2 hist hadm
  exact ⟨_, _, d, hd, rfl⟩

/-! ## C46 -/

theorem keyLabel_take (key : Key) (l : Nat) (hl : l ≤ key.length) (i : Nat) :
    Builder.keyLabel key l i = Builder.keyLabel (key.take l) l i := by
  unfold Builder.keyLabel
  split
  · rename_i h
    have h' : i < l := by omega
    simp [rd, List.getElem?_take, h']
  · rfl

theorem descend_congr {key key' : Key} {l : Int} (h : ∀ i, Builder.keyLabel key l i = Builder.keyLabel key' l i) :
    ∀ (n : Nat) (b : Builder) (x i : Nat), Builder.descend key l n b x i = Builder.descend key' l n b x i
  | 0, _, _, _ => rfl
  | n + 1, b, x, i => by simp only [Builder.descend, h, descend_congr h n]

theorem addUnits_congr {key key' : Key} {l : Int} (h : ∀ i, Builder.keyLabel key l i = Builder.keyLabel key' l i) :
    ∀ (n : Nat) (b : Builder) (x i : Nat), Builder.addUnits key l n b x i = Builder.addUnits key' l n b x i
  | 0, _, _, _ => rfl
  | n + 1, b, x, i => by simp only [Builder.addUnits, h, addUnits_congr h n]

/-- **C46.** `InsertKeyValue(key, length, value)` with `0 ≤ length ≤ len(key)` is `InsertStringValue(key[:length], value)`, on every
builder whatsoever. -/
theorem C46_insert_uses_prefix (b : Builder) (key : Key) (l : Nat) (hl : l ≤ key.length) (v : Int) :
    b.insertKeyValue key l v = b.insertStringValue (key.take l) v := by
  have h := keyLabel_take key l hl
  have e : (((key.take l).length : Nat) : Int) = (l : Int) := by simp [List.length_take]; omega
  simp only [Builder.insertStringValue, e, Builder.insertKeyValue, descend_congr h, addUnits_congr h]

example : (2 : Nat) ≤ ([97, 98, 99] : Key).length := by decide

/-- The bound is needed: a length beyond the key panics. -/
theorem C46_too_long_panics : (Builder.newWithSize 256).insertKeyValue [97] 2 0 = .error .panic := by decide +kernel

end Dawg.Props
