import Verif.Proof.Message
import Verif.Props.Canonical
import Verif.Props.Lexicon
import Verif.Props.RankedList
import Verif.Props.Main
/-!
# The error messages of dawgtool (C93)

The message of a failed build names the first line at which the lexicon cannot be continued, and the message of a failed query the first part of the file that is not complete.
-/
namespace Dawg.Props
open Dawg Dawg.Spec Dawg.Client Dawg.Guided Dawg.Tool

/-! ## Lines -/

/-- With `-t`: `k` is what precedes the first tab of the line, `v` what is between it and the next tab, or the end of the line. -/
def Fields (l k v : List UInt8) : Prop := ∃ r, l = k ++ 9 :: (v ++ r) ∧ 9 ∉ k ∧ 9 ∉ v ∧ (r = [] ∨ r.head? = some 9)

/-- The line means the key `k`, and with `-t` it has a number. -/
def Means (tab : Bool) (l k : List UInt8) : Prop := (tab = false ∧ k = l) ∨ (tab = true ∧ ∃ v n, Fields l k v ∧ atoi v = some n)

/-- All lines that are not empty have a meaning, and the keys do not decrease. -/
def GoodLines (o : Opts) (ls : List (List UInt8)) : Prop :=
  (∀ l ∈ ls, l ≠ [] → ∃ k, Means o.tab l k) ∧
  ls.Pairwise fun a b => a ≠ [] → b ≠ [] → ∀ k k', Means o.tab a k → Means o.tab b k' → ¬ keyBytes o.utfc k' < keyBytes o.utfc k

/-- After the lines `before` the line `l` is a mistake that is reported with the message `m`: its value is no number, or its key is smaller than one of the keys before. -/
inductive Mistake (o : Opts) (before : List (List UInt8)) (l : List UInt8) : Message → Prop
  | value {k v : List UInt8} : o.tab = true → Fields l k v → atoi v = none → Mistake o before l (.badValue v)
  | order {k l' k' : List UInt8} : Means o.tab l k → l' ∈ before → l' ≠ [] → Means o.tab l' k' → keyBytes o.utfc k < keyBytes o.utfc k' → Mistake o before l (.badKey k)

theorem splitTab_head (l : List UInt8) : ∃ p ps, splitTab l = p :: ps ∧ 9 ∉ p ∧ ∃ r, l = p ++ r ∧ (r = [] ∨ r.head? = some 9) := by
  induction l with
  | nil => exact ⟨[], [], rfl, by simp, [], rfl, .inl rfl⟩
  | cons b l ih =>
    obtain ⟨p, ps, h1, h2, r, h3, h4⟩ := ih
    rw [splitTab, h1]
    simp only
    by_cases hb : b = 9
    · rw [if_pos hb]
      exact ⟨[], _, rfl, by simp, b :: l, rfl, .inr (by rw [hb]; rfl)⟩
    · rw [if_neg hb]
      exact ⟨b :: p, ps, rfl, by simp [h2, Ne.symm hb], r, by rw [h3]; rfl, h4⟩

theorem splitTab_fields {l k v : List UInt8} {rest : List (List UInt8)} (h : splitTab l = k :: v :: rest) : Fields l k v := by
  induction l generalizing k with
  | nil => simp [splitTab] at h
  | cons b l ih =>
    obtain ⟨p, ps, h1, h2, r, h3, h4⟩ := splitTab_head l
    rw [splitTab, h1] at h
    simp only at h
    by_cases hb : b = 9
    · rw [if_pos hb] at h
      cases h
      exact ⟨r, by rw [hb, h3]; rfl, by simp, h2, h4⟩
    · rw [if_neg hb] at h
      cases h
      obtain ⟨r, e1, e2, e3, e4⟩ := ih h1
      exact ⟨r, by rw [e1]; rfl, by simp [e2, Ne.symm hb], e3, e4⟩

theorem splitTab_single {l : List UInt8} (h : ∀ k v rest, splitTab l ≠ k :: v :: rest) : 9 ∉ l := by
  induction l with
  | nil => simp
  | cons b l ih =>
    obtain ⟨p, ps, h1, _⟩ := splitTab_head l
    rw [splitTab, h1] at h
    simp only at h
    by_cases hb : b = 9
    · rw [if_pos hb] at h
      exact absurd rfl (h _ _ _)
    · rw [if_neg hb] at h
      have : 9 ∉ l := ih fun k v rest h' => by
        rw [h1] at h'
        cases h'
        exact h _ _ _ rfl
      simp [this, Ne.symm hb]

/-- The two fields are determined by the line. -/
theorem append_tab_inj {k k' t t' : List UInt8} (hk : 9 ∉ k) (hk' : 9 ∉ k') (h : k ++ 9 :: t = k' ++ 9 :: t') : k = k' ∧ t = t' := by
  induction k generalizing k' with
  | nil =>
    cases k' with
    | nil => simpa using h
    | cons b k' => simp at h; simp [← h.1] at hk'
  | cons a k ih =>
    cases k' with
    | nil => simp at h; simp [h.1] at hk
    | cons b k' =>
      simp only [List.cons_append, List.cons.injEq] at h
      simp only [List.mem_cons, not_or] at hk hk'
      obtain ⟨h1, h2⟩ := ih hk.2 hk'.2 h.2
      exact ⟨by rw [h.1, h1], h2⟩

theorem field_inj {v v' r r' : List UInt8} (hv : 9 ∉ v) (hv' : 9 ∉ v') (hr : r = [] ∨ r.head? = some 9) (hr' : r' = [] ∨ r'.head? = some 9) (h : v ++ r = v' ++ r') : v = v' := by
  induction v generalizing v' with
  | nil =>
    cases v' with
    | nil => rfl
    | cons b v' =>
      rcases hr with rfl | hr
      · simp at h
      · rw [List.nil_append] at h
        rw [h] at hr
        simp at hr
        simp [hr] at hv'
  | cons a v ih =>
    cases v' with
    | nil =>
      rcases hr' with rfl | hr'
      · simp at h
      · rw [List.nil_append] at h
        rw [← h] at hr'
        simp at hr'
        simp [hr'] at hv
    | cons b v' =>
      simp only [List.cons_append, List.cons.injEq] at h
      simp only [List.mem_cons, not_or] at hv hv'
      rw [h.1, ih hv.2 hv'.2 h.2]

theorem Fields.inj {l k v k' v' : List UInt8} (h : Fields l k v) (h' : Fields l k' v') : k = k' ∧ v = v' := by
  obtain ⟨r, rfl, h1, h2, h3⟩ := h
  obtain ⟨r', e, h1', h2', h3'⟩ := h'
  obtain ⟨rfl, e'⟩ := append_tab_inj h1 h1' e
  exact ⟨rfl, field_inj h2 h2' h3 h3' e'⟩

theorem Fields.tab {l k v : List UInt8} (h : Fields l k v) : 9 ∈ l := by
  obtain ⟨r, rfl, _⟩ := h
  simp

theorem Means.inj {tab : Bool} {l k k' : List UInt8} (h : Means tab l k) (h' : Means tab l k') : k = k' := by
  rcases h with ⟨h1, rfl⟩ | ⟨h1, v, n, h2, h3⟩
  · rcases h' with ⟨_, rfl⟩ | ⟨h4, _⟩
    · rfl
    · rw [h1] at h4; cases h4
  · rcases h' with ⟨h4, _⟩ | ⟨_, v', n', h5, _⟩
    · rw [h1] at h4; cases h4
    · exact (h2.inj h5).1

/-- What `parseLineMsg` makes of a line. -/
theorem parse_cases (tab : Bool) (l : List UInt8) :
    (∃ k v, Means tab l k ∧ parseLineMsg tab l = .ok (k, v)) ∨
    (∃ k v, tab = true ∧ Fields l k v ∧ atoi v = none ∧ parseLineMsg tab l = .error (.fatal (.badValue v))) ∨
    (tab = true ∧ 9 ∉ l ∧ parseLineMsg tab l = .error (.fault .panic)) := by
  cases tab with
  | false => exact .inl ⟨l, 0, .inl ⟨rfl, rfl⟩, rfl⟩
  | true =>
    rcases hs : splitTab l with _ | ⟨k, _ | ⟨v, r⟩⟩
    · exact .inr (.inr ⟨rfl, splitTab_single (by simp [hs]), by simp [parseLineMsg, hs]⟩)
    · exact .inr (.inr ⟨rfl, splitTab_single (by simp [hs]), by simp [parseLineMsg, hs]⟩)
    · have hf := splitTab_fields hs
      cases ha : atoi v with
      | none => exact .inr (.inl ⟨k, v, rfl, hf, ha, by simp [parseLineMsg, hs, ha]⟩)
      | some n => exact .inl ⟨k, clamp n, .inr ⟨rfl, v, n, hf, ha⟩, by simp [parseLineMsg, hs, ha]⟩

theorem parse_means {tab : Bool} {l k : List UInt8} (h : Means tab l k) : ∃ v, parseLineMsg tab l = .ok (k, v) := by
  rcases parse_cases tab l with ⟨k', v, h1, h2⟩ | ⟨k', v, h1, h2, h3, _⟩ | ⟨h1, h2, _⟩
  · rw [h.inj h1]; exact ⟨v, h2⟩
  · rcases h with ⟨h4, _⟩ | ⟨_, v', n, h4, h5⟩
    · rw [h1] at h4; cases h4
    · rw [(h2.inj h4).2, h5] at h3; cases h3
  · rcases h with ⟨h4, _⟩ | ⟨_, v', n, h4, h5⟩
    · rw [h1] at h4; cases h4
    · exact absurd h4.tab h2

theorem entry_means {o : Opts} {l k : List UInt8} (h : Means o.tab l k) : (entry o l).1 = keyBytes o.utfc k := by
  obtain ⟨v, h⟩ := parse_means h
  have := parseLine_forget o.tab l
  rw [h] at this
  unfold entry
  rw [← this]
  rfl

/-! ## The state after good lines -/

theorem GoodLines.sorted {o : Opts} {ls : List (List UInt8)} (h : GoodLines o ls) : (entries o ls).Pairwise (fun a b => ¬ b.1 < a.1) := by
  unfold entries
  rw [List.pairwise_map]
  refine (h.2.sublist (List.filter_sublist (p := fun l => decide (l.length ≠ 0)))).imp_of_mem ?_
  intro a b ha hb hab
  rw [List.mem_filter] at ha hb
  have ha' : a ≠ [] := by rintro rfl; simp at ha
  have hb' : b ≠ [] := by rintro rfl; simp at hb
  obtain ⟨k, hk⟩ := h.1 a ha.1 ha'
  obtain ⟨k', hk'⟩ := h.1 b hb.1 hb'
  rw [entry_means hk, entry_means hk']
  exact hab ha' hb' k k' hk hk'

theorem GoodLines.left {o : Opts} {ls ls' : List (List UInt8)} (h : GoodLines o (ls ++ ls')) : GoodLines o ls :=
  ⟨fun l hl => h.1 l (List.mem_append_left _ hl), (List.pairwise_append.1 h.2).1⟩

/-- A key is accepted after good lines if it is not smaller than one of the keys. -/
theorem accepts_good {hist : List (Key × Int)} (hs : hist.Pairwise (fun a b => ¬ b.1 < a.1)) (k : Key) : accepts (accepted hist) k = true ↔ ∀ e ∈ hist, ¬ k < e.1 := by
  have hv := verdicts_sorted (acc := []) hs (by simp)
  have hk := keys_accepted hv
  have hso := accepted_sorted hist
  rw [C01_accepts_iff]
  constructor
  · rintro (h | ⟨init, l, v, h1, h2⟩) e he hlt
    · obtain ⟨x, hx, _⟩ := (hk e.1).2 ⟨e, he, rfl⟩
      rw [h] at hx
      cases hx
    · obtain ⟨x, hx, hx1⟩ := (hk e.1).2 ⟨e, he, rfl⟩
      rw [h1] at hx hso
      have hle : ¬ l < x.1 := by
        rcases List.mem_append.1 hx with hx | hx
        · exact List.lt_asymm ((List.pairwise_append.1 hso).2.2 x hx (l, v) (by simp))
        · rw [List.mem_singleton] at hx
          rw [hx]
          exact List.lt_irrefl _
      rw [← hx1] at hlt
      rcases h2 with h2 | rfl
      · exact hle (List.lt_trans h2 hlt)
      · exact hle hlt
  · intro h
    rcases List.eq_nil_or_concat (accepted hist) with h0 | ⟨init, ⟨l, v⟩, h0⟩
    · exact .inl h0
    · rw [List.concat_eq_append] at h0
      refine .inr ⟨init, l, v, h0, ?_⟩
      obtain ⟨e, he, he1⟩ := (hk l).1 ⟨(l, v), by rw [h0]; simp, rfl⟩
      rcases key_trichotomy l k with h' | h' | h'
      · exact .inl h'
      · exact .inr h'
      · exact absurd (he1 ▸ h') (h e he)

theorem entries_snoc (o : Opts) (ls : List (List UInt8)) (l : List UInt8) : entries o (ls ++ [l]) = entries o ls ++ if l = [] then [] else [entry o l] := by
  unfold entries
  rw [List.filter_append, List.map_append]
  congr 1
  cases l <;> simp

theorem admissible_left {a b : List (Key × Int)} (h : Admissible (a ++ b)) : Admissible a :=
  ⟨fun e he => h.nulFree e (List.mem_append_left _ he), by have := h.small; rw [List.map_append, List.sum_append] at this; omega⟩

/-- What a line does, after insertions. -/
theorem step_means {o : Opts} {hist : List (Key × Int)} {l k : List UInt8} (hne : l ≠ []) (hm : Means o.tab l k) (hadm : Admissible (hist ++ [entry o l])) :
    ∃ b b', insertAll (Builder.newWithSize 256) hist = .ok (b, verdicts [] hist) ∧
      insertAll (Builder.newWithSize 256) (hist ++ [entry o l]) = .ok (b', verdicts [] (hist ++ [entry o l])) ∧
      ∀ rest, processLinesMsg o (l :: rest) b = if accepts (accepted hist) (keyBytes o.utfc k) then processLinesMsg o rest b' else .error (.fatal (.badKey k)) := by
  obtain ⟨v, hp⟩ := parse_means hm
  have hent : entry o l = (keyBytes o.utfc k, v) := by
    have := parseLine_forget o.tab l
    rw [hp] at this
    unfold entry
    rw [← this]
    rfl
  rw [hent] at hadm ⊢
  obtain ⟨b, b', e1, e2⟩ := C01_accepts_in_order 256 (by omega) (by omega) hist _ v hadm
  refine ⟨b, b', e1, ?_, ?_⟩
  · obtain ⟨b3, d3, h3⟩ := C07_build_returns 256 (by omega) (by omega) _ hadm
    unfold Client.build at h3
    obtain ⟨⟨b4, oks⟩, h4, h5⟩ := bind_eq_ok.1 h3
    obtain ⟨⟨b5, d5⟩, h6, h7⟩ := bind_eq_ok.1 h5
    simp only [pure_eq_ok, Except.ok.injEq, Prod.mk.injEq] at h7
    obtain ⟨rfl, rfl, rfl⟩ := h7
    rw [h4]
    rw [insertAll_append, e1] at h4
    simp only [ok_bind, insertAll] at h4
    rw [e2] at h4
    simp only [ok_bind, pure_eq_ok, Except.ok.injEq, Prod.mk.injEq] at h4
    rw [h4.1]
  · intro rest
    have hl : ¬ l.length = 0 := by cases l <;> simp at hne ⊢
    rw [processLinesMsg, processLineMsg, if_neg hl, hp]
    show ((tell (b.insertKeyValue (keyBytes o.utfc k) (keyBytes o.utfc k).length v) >>= _) >>= _) = _
    rw [show b.insertKeyValue (keyBytes o.utfc k) (keyBytes o.utfc k).length v = _ from e2]
    cases accepts (accepted hist) (keyBytes o.utfc k) <;> rfl

theorem run_good {o : Opts} : ∀ (n : Nat) (ls : List (List UInt8)), ls.length = n → GoodLines o ls → Admissible (entries o ls) →
    ∃ b, insertAll (Builder.newWithSize 256) (entries o ls) = .ok (b, verdicts [] (entries o ls)) ∧
      ∀ rest, processLinesMsg o (ls ++ rest) Builder.new = processLinesMsg o rest b
  | 0, ls, hn, _, _ => by
    rw [List.length_eq_zero_iff] at hn
    subst hn
    exact ⟨Builder.new, rfl, fun _ => rfl⟩
  | n + 1, ls, hn, hg, hadm => by
    rcases List.eq_nil_or_concat ls with rfl | ⟨init, l, rfl⟩
    · simp at hn
    rw [List.concat_eq_append] at hn hg hadm ⊢
    rw [entries_snoc] at hadm ⊢
    obtain ⟨b, h1, h2⟩ := run_good n init (by simpa using hn) hg.left (admissible_left hadm)
    by_cases hl : l = []
    · subst hl
      rw [if_pos rfl, List.append_nil]
      refine ⟨b, h1, fun rest => ?_⟩
      rw [List.append_assoc, h2]
      rfl
    · rw [if_neg hl] at hadm ⊢
      obtain ⟨k, hk⟩ := hg.1 l (by simp) hl
      obtain ⟨b1, b', e1, e2, e3⟩ := step_means hl hk hadm
      rw [h1] at e1
      cases e1
      refine ⟨b', e2, fun rest => ?_⟩
      rw [List.append_assoc, h2, List.singleton_append, e3, if_pos]
      rw [accepts_good hg.left.sorted]
      intro e he
      obtain ⟨x, hx, rfl⟩ := List.mem_map.1 he
      rw [List.mem_filter] at hx
      have hx' : x ≠ [] := by rintro rfl; simp at hx
      obtain ⟨k', hk'⟩ := hg.1 x (by simp [hx.1]) hx'
      rw [entry_means hk']
      exact (List.pairwise_append.1 hg.2).2.2 x hx.1 l (by simp) hx' hl k' k hk' hk

/-- Every list of lines is good, or has a first line that is not. -/
theorem good_or_first (o : Opts) : ∀ (n : Nat) (ls : List (List UInt8)), ls.length = n →
    GoodLines o ls ∨ ∃ before l after, ls = before ++ l :: after ∧ l ≠ [] ∧ GoodLines o before ∧ ((∃ m, Mistake o before l m) ∨ (o.tab = true ∧ 9 ∉ l))
  | 0, ls, hn => by
    rw [List.length_eq_zero_iff] at hn
    subst hn
    exact .inl ⟨by simp, .nil⟩
  | n + 1, ls, hn => by
    rcases List.eq_nil_or_concat ls with rfl | ⟨init, l, rfl⟩
    · simp at hn
    rw [List.concat_eq_append] at hn ⊢
    rcases good_or_first o n init (by simpa using hn) with hg | ⟨before, x, after, rfl, h2, h3, h4⟩
    · by_cases hl : l = []
      · subst hl
        refine .inl ⟨?_, List.pairwise_append.2 ⟨hg.2, by simp, ?_⟩⟩
        · intro x hx hne
          rcases List.mem_append.1 hx with hx | hx
          · exact hg.1 x hx hne
          · rw [List.mem_singleton] at hx; exact absurd hx hne
        · intro a _ b hb _ hb'
          rw [List.mem_singleton] at hb
          exact absurd hb hb'
      · rcases parse_cases o.tab l with ⟨k, v, hk, _⟩ | ⟨k, v, h1, h2, h3, _⟩ | ⟨h1, h2, _⟩
        · by_cases hm : ∃ l' ∈ init, l' ≠ [] ∧ ∃ k', Means o.tab l' k' ∧ keyBytes o.utfc k < keyBytes o.utfc k'
          · obtain ⟨l', m1, m2, k', m3, m4⟩ := hm
            exact .inr ⟨init, l, [], rfl, hl, hg, .inl ⟨_, .order hk m1 m2 m3 m4⟩⟩
          · refine .inl ⟨?_, List.pairwise_append.2 ⟨hg.2, by simp, ?_⟩⟩
            · intro x hx hne
              rcases List.mem_append.1 hx with hx | hx
              · exact hg.1 x hx hne
              · rw [List.mem_singleton] at hx; rw [hx]; exact ⟨k, hk⟩
            · intro a ha b hb ha' _ k1 k2 hk1 hk2 hlt
              rw [List.mem_singleton] at hb
              subst hb
              rw [hk2.inj hk] at hlt
              exact hm ⟨a, ha, ha', k1, hk1, hlt⟩
        · exact .inr ⟨init, l, [], rfl, hl, hg, .inl ⟨_, .value h1 h2 h3⟩⟩
        · exact .inr ⟨init, l, [], rfl, hl, hg, .inr ⟨h1, h2⟩⟩
    · exact .inr ⟨before, x, after ++ [l], by simp, h2, h3, h4⟩

theorem run_mistake {o : Opts} {before : List (List UInt8)} {l : List UInt8} {m : Message} (hg : GoodLines o before) (hne : l ≠ []) (hm : Mistake o before l m)
    (hadm : Admissible (entries o (before ++ [l]))) (after : List (List UInt8)) : processLinesMsg o (before ++ l :: after) Builder.new = .error (.fatal m) := by
  rw [entries_snoc, if_neg hne] at hadm
  obtain ⟨b, h1, h2⟩ := run_good _ before rfl hg (admissible_left hadm)
  rw [h2]
  have hl : ¬ l.length = 0 := by cases l <;> simp at hne ⊢
  cases hm with
  | @value k v ht hf ha =>
    rcases parse_cases o.tab l with ⟨k', v', h3, _⟩ | ⟨k', v', h3, h4, _, h5⟩ | ⟨_, h4, _⟩
    · rcases h3 with ⟨h3, _⟩ | ⟨_, v'', n, h3, h4⟩
      · rw [ht] at h3; cases h3
      · rw [← (hf.inj h3).2, ha] at h4; cases h4
    · rw [processLinesMsg, processLineMsg, if_neg hl, h5, (hf.inj h4).2]
      rfl
    · exact absurd hf.tab h4
  | @order k l' k' hk hl' hne' hk' hlt =>
    obtain ⟨b1, b', e1, e2, e3⟩ := step_means hne hk hadm
    rw [h1] at e1
    cases e1
    rw [e3, if_neg]
    rw [accepts_good hg.sorted]
    intro h
    refine h (entry o l') (List.mem_map.2 ⟨l', List.mem_filter.2 ⟨hl', by cases l' <;> simp at hne' ⊢⟩, rfl⟩) ?_
    rw [entry_means hk']
    exact hlt

theorem run_tabless {o : Opts} {before : List (List UInt8)} {l : List UInt8} (hg : GoodLines o before) (hne : l ≠ []) (ht : o.tab = true) (h9 : 9 ∉ l)
    (hadm : Admissible (entries o before)) (after : List (List UInt8)) : processLinesMsg o (before ++ l :: after) Builder.new = .error (.fault .panic) := by
  obtain ⟨b, h1, h2⟩ := run_good _ before rfl hg hadm
  rw [h2]
  have hl : ¬ l.length = 0 := by cases l <;> simp at hne ⊢
  rcases parse_cases o.tab l with ⟨k', v', h3, _⟩ | ⟨k', v', h3, h4, _, h5⟩ | ⟨_, h4, h5⟩
  · rcases h3 with ⟨h3, _⟩ | ⟨_, v'', n, h3, h4⟩
    · rw [ht] at h3; cases h3
    · exact absurd h3.tab h9
  · exact absurd h4.tab h9
  · rw [processLinesMsg, processLineMsg, if_neg hl, h5]
    rfl

theorem run_all {o : Opts} {ls : List (List UInt8)} (hg : GoodLines o ls) (hadm : Admissible (entries o ls)) :
    ∃ b' b d, processLinesMsg o ls Builder.new = .ok b' ∧ b'.finish = .ok (b, d) ∧ Client.build 256 (entries o ls) = .ok (verdicts [] (entries o ls), b, d) := by
  obtain ⟨b', h1, h2⟩ := run_good _ ls rfl hg hadm
  obtain ⟨b3, d3, h3⟩ := C07_build_returns 256 (by omega) (by omega) _ hadm
  have h3' := h3
  unfold Client.build at h3
  rw [h1, ok_bind] at h3
  obtain ⟨⟨b5, d5⟩, h6, h7⟩ := bind_eq_ok.1 h3
  simp only [pure_eq_ok, Except.ok.injEq, Prod.mk.injEq] at h7
  obtain ⟨_, rfl, rfl⟩ := h7
  refine ⟨b', _, _, ?_, h6, h3'⟩
  have := h2 []
  rwa [List.append_nil] at this

theorem entries_append (o : Opts) (a b : List (List UInt8)) : entries o (a ++ b) = entries o a ++ entries o b := by
  unfold entries
  rw [List.filter_append, List.map_append]

/-! ## C93 -/

theorem order_perm {sorter : LineSorter} (hs : StableSort sorter) (grow : Nat → Nat) (o : Opts) (lines : List (List UInt8)) : (orderLines sorter grow o lines).Perm lines := by
  unfold orderLines
  split
  · exact hs.perm _ _
  · exact .refl _

theorem order_admissible {sorter : LineSorter} (hs : StableSort sorter) (grow : Nat → Nat) {o : Opts} {lines : List (List UInt8)} (hadm : Admissible (entries o lines)) :
    Admissible (entries o (orderLines sorter grow o lines)) := by
  have hp : (entries o (orderLines sorter grow o lines)).Perm (entries o lines) := ((order_perm hs grow o lines).filter _).map _
  exact ⟨fun e he => hadm.nulFree e (hp.mem_iff.1 he), (hp.map (fun e => e.1.length + 1)).sum_nat ▸ hadm.small⟩

/-- **C93**, for the lexicon: the message names the value or the key of the first line that is a mistake (of the sorted lines with `-s`); without a message the program ends by a panic exactly when,
with `-t`, the first bad line has no tab, and otherwise goes on with the Dawg. -/
theorem C93_lexicon {sorter : LineSorter} (hs : StableSort sorter) (grow : Nat → Nat) (o : Opts) {lines : List (List UInt8)} (hadm : Admissible (entries o lines)) :
    (∀ m, buildDawgMsg sorter grow o lines = .error (.fatal m) ↔
      ∃ before l after, orderLines sorter grow o lines = before ++ l :: after ∧ l ≠ [] ∧ GoodLines o before ∧ Mistake o before l m) ∧
    (∀ f, buildDawgMsg sorter grow o lines = .error (.fault f) ↔
      f = .panic ∧ o.tab = true ∧ ∃ before l after, orderLines sorter grow o lines = before ++ l :: after ∧ l ≠ [] ∧ GoodLines o before ∧ 9 ∉ l) ∧
    ((∃ d, buildDawgMsg sorter grow o lines = .ok d) ↔ GoodLines o (orderLines sorter grow o lines)) ∧
    forget (buildDawgMsg sorter grow o lines) = buildDawg sorter grow o lines := by
  have hadm := order_admissible hs grow hadm
  have hf := buildDawg_forget sorter grow o lines
  unfold buildDawgMsg at hf ⊢
  generalize orderLines sorter grow o lines = L at *
  have part : ∀ {before l after}, L = before ++ l :: after → Admissible (entries o before) ∧ Admissible (entries o (before ++ [l])) := by
    rintro before l after rfl
    refine ⟨?_, ?_⟩
    · rw [entries_append] at hadm
      exact admissible_left hadm
    · rw [show before ++ l :: after = (before ++ [l]) ++ after by simp, entries_append] at hadm
      exact admissible_left hadm
  have one : ∀ {before l after m}, L = before ++ l :: after → l ≠ [] → GoodLines o before → Mistake o before l m → processLinesMsg o L Builder.new = .error (.fatal m) := by
    intro before l after m h1 h2 h3 h4
    have := run_mistake h3 h2 h4 (part h1).2 after
    rwa [← h1] at this
  have two : ∀ {before l after}, L = before ++ l :: after → l ≠ [] → GoodLines o before → o.tab = true → 9 ∉ l → processLinesMsg o L Builder.new = .error (.fault .panic) := by
    intro before l after h1 h2 h3 h4 h5
    have := run_tabless h3 h2 h4 h5 (part h1).1 after
    rwa [← h1] at this
  have three : GoodLines o L → ∃ d, (do let b ← processLinesMsg o L Builder.new; let (_, d) ← tell b.finish; return d : Except Why Dawg) = .ok d := by
    intro hg
    obtain ⟨b', b, d, h1, h2, _⟩ := run_all hg hadm
    exact ⟨d, by rw [h1]; show (tell b'.finish >>= _) = _; rw [h2]; rfl⟩
  rcases good_or_first o _ L rfl with hg | ⟨before, l, after, h1, h2, h3, ⟨m, hm⟩ | ⟨h4, h5⟩⟩
  · obtain ⟨d, hd⟩ := three hg
    refine ⟨fun m => ⟨fun h => ?_, ?_⟩, fun f => ⟨fun h => ?_, ?_⟩, ⟨fun _ => hg, fun _ => ⟨d, hd⟩⟩, hf⟩
    · rw [hd] at h; cases h
    · rintro ⟨before, l, after, h1, h2, h3, h4⟩
      rw [one h1 h2 h3 h4]; rfl
    · rw [hd] at h; cases h
    · rintro ⟨rfl, h0, before, l, after, h1, h2, h3, h4⟩
      rw [two h1 h2 h3 h0 h4]; rfl
  · have hr := one h1 h2 h3 hm
    refine ⟨fun m' => ⟨fun h => ?_, ?_⟩, fun f => ⟨fun h => ?_, ?_⟩, ⟨fun ⟨d, h⟩ => ?_, fun hg => ?_⟩, hf⟩
    · rw [hr] at h
      cases h
      exact ⟨before, l, after, h1, h2, h3, hm⟩
    · rintro ⟨before', l', after', e1, e2, e3, e4⟩
      rw [one e1 e2 e3 e4]; rfl
    · rw [hr] at h; cases h
    · rintro ⟨rfl, h0, before', l', after', e1, e2, e3, e4⟩
      rw [two e1 e2 e3 h0 e4]; rfl
    · rw [hr] at h; cases h
    · exact three hg
  · have hr := two h1 h2 h3 h4 h5
    refine ⟨fun m' => ⟨fun h => ?_, ?_⟩, fun f => ⟨fun h => ?_, ?_⟩, ⟨fun ⟨d, h⟩ => ?_, fun hg => ?_⟩, hf⟩
    · rw [hr] at h; cases h
    · rintro ⟨before', l', after', e1, e2, e3, e4⟩
      rw [one e1 e2 e3 e4]; rfl
    · rw [hr] at h
      cases h
      exact ⟨rfl, h4, before, l, after, h1, h2, h3, h5⟩
    · rintro ⟨rfl, h0, before', l', after', e1, e2, e3, e4⟩
      rw [two e1 e2 e3 h0 e4]; rfl
    · rw [hr] at h; cases h
    · exact three hg

/-- "b" before "a": the message names "a". -/
example (sorter : LineSorter) (grow : Nat → Nat) (hs : StableSort sorter) : buildDawgMsg sorter grow {} [[97], [], [98], [97, 98], [97]] = .error (.fatal (.badKey [97, 98])) := by
  refine ((C93_lexicon hs grow {} ⟨by decide, by decide⟩).1 _).2 ⟨[[97], [], [98]], [97, 98], [[97]], rfl, by simp, ⟨?_, ?_⟩, ?_⟩
  · intro l _ _
    exact ⟨l, .inl ⟨rfl, rfl⟩⟩
  · simp only [Means, keyBytes]
    simp
    decide
  · exact .order (l' := [98]) (k' := [98]) (.inl ⟨rfl, rfl⟩) (by decide) (by simp) (.inl ⟨rfl, rfl⟩) (by decide)

/-- With `-t`: "x" is no number. -/
example : buildDawgMsg (fun _ l => l) (fun n => n) { tab := true } [[97, 9, 49], [98, 9, 120, 9, 50], [99]] = .error (.fatal (.badValue [120])) := by decide +kernel

/-- **C93**, after the lexicon: the only message is that the dictionary could not be built, exactly when `Build` returns nil, which happens only with 2^21 bytes of keys or more. -/
theorem C93_build {linkSorter : Sorter} (hls : StableSort linkSorter) (o : Opts) {hist : List (Key × Int)} {oks b d} (hadm : Admissible hist) (hb : Client.build 256 hist = .ok (oks, b, d)) (m : Message) :
    (buildFileMsg linkSorter o d = .error (.fatal m) ↔ m = .noDictionary ∧ d.build = .ok none) ∧
    (d.build = .ok none → 2097152 ≤ ((accepted hist).map (fun e => e.1.length + 1)).sum) := by
  obtain ⟨oks', b', d', h1, h2⟩ := C14_build_total 256 (by omega) (by omega) hist hadm
  rw [hb] at h1
  cases h1
  rcases h2 with ⟨D, num, h3, h4⟩ | ⟨h3, h4, _, h5⟩
  · refine ⟨⟨fun h => ?_, fun h => ?_⟩, fun h => ?_⟩
    · exfalso
      have hmade : Made hist d D := ⟨hadm, 256, oks, b, by omega, by omega, hb, h3⟩
      have hf := buildFile_forget linkSorter o d
      rw [h] at hf
      by_cases hi : o.index = true ∧ (o.ranked = true ∨ accepted hist = [])
      · by_cases hr : o.ranked = true
        · obtain ⟨w1, w2⟩ := C86_writes hmade hls hr hi.1
          by_cases hne : accepted hist = []
          · rw [w2 hne] at hf; cases hf
          · obtain ⟨file, hfile⟩ := w1 hne
            rw [hfile] at hf; cases hf
        · have hne : accepted hist = [] := by
            rcases hi.2 with h' | h'
            · exact absurd h' hr
            · exact h'
          obtain ⟨n, oks2, b2, num2, _, _, _, _, k4⟩ := Made.unfold' hmade
          obtain ⟨g1, r1, _⟩ := C27_ranked_guide hmade hls.perm (fun lhs rhs => decide (lhs < rhs))
          have r1 : buildRankedGuide linkSorter d D = .ok (some g1) := r1
          obtain ⟨p1, p2⟩ := C30_empty_panics hmade hne
          rw [buildFile_eq o k4 r1 p1] at hf
          simp only [hr, hi.1, p2, Bool.false_eq_true, if_true, if_false] at hf
          split at hf <;> cases hf
      · obtain ⟨file, hfile⟩ := C45_tool_writes hmade hls o (fun h' => ⟨by
          cases hr : o.ranked
          · rfl
          · exact absurd ⟨h', .inl hr⟩ hi, fun h'' => hi ⟨h', .inr h''⟩⟩)
        rw [hfile] at hf; cases hf
    · rw [h3] at h; cases h.2
    · rw [h3] at h; cases h
  · have hr : buildFileMsg linkSorter o d = .error (.fatal .noDictionary) := by
      unfold buildFileMsg
      rw [h4]
      rfl
    rw [hr]
    refine ⟨⟨fun h => ?_, fun h => ?_⟩, fun _ => h5⟩
    · cases h; exact ⟨rfl, h3⟩
    · rw [h.1]

/-- Three lines. -/
example : ∃ d, buildDawgMsg (fun _ l => l) (fun n => n) {} [[97], [98]] = .ok d ∧ ∀ m, buildFileMsg insertionSort {} d ≠ .error (.fatal m) := by
  obtain ⟨b', b, d, h1, h2, h3⟩ := run_all (o := {}) (ls := [[97], [98]]) ⟨fun l _ _ => ⟨l, .inl ⟨rfl, rfl⟩⟩, by simp only [Means, keyBytes]; simp; decide⟩ ⟨by decide, by decide⟩
  refine ⟨d, ?_, fun m hm => ?_⟩
  · show (processLinesMsg {} [[97], [98]] Builder.new >>= fun b => tell b.finish >>= fun x => pure x.2) = _
    rw [h1]
    show (tell b'.finish >>= _) = _
    rw [h2]
    rfl
  · obtain ⟨e1, e2⟩ := C93_build insertionSort_stableSort {} ⟨by decide, by decide⟩ h3 m
    have := e2 (e1.1 hm).2
    exact absurd this (by decide)

/-! ### Reading -/

/-- The number in the first four bytes. -/
def word (bytes : List UInt8) : Nat := bytes[0]!.toNat + 256 * bytes[1]!.toNat + 65536 * bytes[2]!.toNat + 16777216 * bytes[3]!.toNat

/-- What follows a part of a file: four bytes with a number and so many units of `w` bytes; `none` if the part is not complete. -/
def skipPart (w : Nat) (bytes : List UInt8) : Option (List UInt8) :=
  if 4 ≤ bytes.length ∧ 4 + w * word bytes ≤ bytes.length then some (bytes.drop (4 + w * word bytes)) else none

theorem readUnits_part {α : Type} (w : Nat) (dec : List UInt8 → List α) (r : List UInt8) :
    match skipPart w r with
    | none => ∃ r', readUnits w dec r = (none, r')
    | some r' => ∃ us, readUnits w dec r = (some us, r') := by
  unfold skipPart readUnits readFull
  by_cases h4 : 4 ≤ r.length
  · obtain ⟨a, b, c, d, r, rfl⟩ : ∃ a b c d r', r = a :: b :: c :: d :: r' := by
      rcases r with _ | ⟨a, _ | ⟨b, _ | ⟨c, _ | ⟨d, r⟩⟩⟩⟩ <;> simp at h4
      exact ⟨_, _, _, _, _, rfl⟩
    have hw : word (a :: b :: c :: d :: r) = getU32 a b c d := rfl
    rw [hw, if_pos h4]
    simp only [List.take_succ_cons, List.take_zero, List.drop_succ_cons, List.drop_zero]
    by_cases hn : w * getU32 a b c d ≤ r.length
    · rw [if_pos hn, if_pos ⟨h4, by simp only [List.length_cons]; omega⟩]
      refine ⟨_, Prod.ext rfl ?_⟩
      simp only
      rw [show 4 + w * getU32 a b c d = w * getU32 a b c d + 1 + 1 + 1 + 1 by omega]
      rfl
    · rw [if_neg hn, if_neg (by simp only [List.length_cons]; omega)]
      exact ⟨_, rfl⟩
  · rw [if_neg h4, if_neg (by omega)]
    exact ⟨_, rfl⟩

/-- The message of a failed query, from the parts of the file. -/
def loadMessage (o : Opts) (file : List UInt8) : Option Message :=
  match skipPart 4 file with
  | none => some .readDictionary
  | some rest =>
    if o.ranked ∨ o.guide then
      match skipPart 2 rest with
      | none => some (if o.ranked then .readRankedGuide else .readGuide)
      | some rest => if o.index ∧ skipPart 4 rest = none then some .readIndex else none
    else none

theorem dictionary_part (r : List UInt8) : match skipPart 4 r with
    | none => ∃ r', Dictionary.readNew r = (none, r')
    | some r' => ∃ D, Dictionary.readNew r = (some D, r') := by
  have := readUnits_part 4 unitsOfBytes r
  unfold Dictionary.readNew Dictionary.read
  cases hs : skipPart 4 r with
  | none => rw [hs] at this; obtain ⟨r', h⟩ := this; exact ⟨r', by rw [h]⟩
  | some r' => rw [hs] at this; obtain ⟨us, h⟩ := this; exact ⟨⟨us⟩, by rw [h]⟩

theorem guide_part (r : List UInt8) : match skipPart 2 r with
    | none => ∃ r', Guide.readNew r = (none, r')
    | some r' => ∃ D, Guide.readNew r = (some D, r') := by
  have := readUnits_part 2 guideUnitsOfBytes r
  unfold Guide.readNew Guide.read
  cases hs : skipPart 2 r with
  | none => rw [hs] at this; obtain ⟨r', h⟩ := this; exact ⟨r', by rw [h]⟩
  | some r' => rw [hs] at this; obtain ⟨us, h⟩ := this; exact ⟨⟨us⟩, by rw [h]⟩

theorem index_part (r : List UInt8) : match skipPart 4 r with
    | none => ∃ r', Index.readNew r = (none, r')
    | some r' => ∃ D, Index.readNew r = (some D, r') := by
  have := readUnits_part 4 unitsOfBytes r
  have he := (Index.read_eq Index.new r).1
  unfold Index.readNew
  rcases hr : Index.new.read r with ⟨x, ok, r'⟩
  rw [hr] at he
  cases hs : skipPart 4 r with
  | none =>
    rw [hs] at this; obtain ⟨r'', h⟩ := this
    rw [h] at he
    cases he
    exact ⟨_, rfl⟩
  | some r'' =>
    rw [hs] at this; obtain ⟨us, h⟩ := this
    rw [h] at he
    cases he
    exact ⟨_, rfl⟩

/-- **C93**, for the dictionary file: the message names the first part of the file that is needed and not complete; without one the file is loaded. -/
theorem C93_load (o : Opts) (file : List UInt8) :
    match loadMessage o file with
    | some m => loadMsg o file = .error (.fatal m)
    | none => ∃ l, loadMsg o file = .ok l := by
  have hd := dictionary_part file
  unfold loadMessage loadMsg
  cases h1 : skipPart 4 file with
  | none =>
    rw [h1] at hd
    obtain ⟨r', hd⟩ := hd
    rw [hd]
  | some rest =>
    rw [h1] at hd
    obtain ⟨D, hd⟩ := hd
    rw [hd]
    simp only
    by_cases hg : o.ranked = true ∨ o.guide = true
    · have hg' : (o.ranked || o.guide) = true := by simpa using hg
      rw [if_pos hg, if_pos hg']
      have hgp := guide_part rest
      cases h2 : skipPart 2 rest with
      | none =>
        rw [h2] at hgp
        obtain ⟨r', hgp⟩ := hgp
        rw [hgp]
      | some rest' =>
        rw [h2] at hgp
        obtain ⟨g, hgp⟩ := hgp
        rw [hgp]
        simp only
        have hip := index_part rest'
        cases hi : o.index with
        | false => simp only [Bool.false_eq_true, if_false, false_and]; exact ⟨_, rfl⟩
        | true =>
          simp only [true_and, if_true]
          cases h3 : skipPart 4 rest' with
          | none =>
            rw [h3] at hip
            obtain ⟨r', hip⟩ := hip
            rw [hip]
            simp
          | some r'' =>
            rw [h3] at hip
            obtain ⟨x, hip⟩ := hip
            rw [hip]
            simp
            exact ⟨_, rfl⟩
    · have hg' : ¬ (o.ranked || o.guide) = true := by simpa using hg
      rw [if_neg hg, if_neg hg']
      exact ⟨_, rfl⟩

/-- A dictionary without a guide, queried with `-g` and with `-r`. -/
example : loadMsg { guide := true } [1, 0, 0, 0, 7, 7, 7, 7] = .error (.fatal .readGuide) ∧ loadMsg { ranked := true } [1, 0, 0, 0, 7, 7, 7, 7] = .error (.fatal .readRankedGuide) :=
  ⟨C93_load { guide := true } [1, 0, 0, 0, 7, 7, 7, 7], C93_load { ranked := true } [1, 0, 0, 0, 7, 7, 7, 7]⟩

/-! ### The program -/

/-- **C93**, for the program: it says something exactly when it stops with an error; and a missing file is named, the lexicon first. -/
theorem C93_program (ratio : Nat → Nat → List UInt8) (sorter : LineSorter) (linkSorter : Sorter) (grow : Nat → Nat) (creatable : List UInt8 → Bool) (fuel : Nat)
    (args : List (List UInt8)) (files : Files) :
    ((program ratio sorter linkSorter grow creatable fuel args files).ending = .stopped .fatal ↔ ∃ m, programMsg sorter linkSorter grow creatable fuel args files = some m) ∧
    ∀ f rest, parseArgs {} args = .ok (f, rest) →
      (files (lexiconName f rest) = none → programMsg sorter linkSorter grow creatable fuel args files = some (.noFile (lexiconName f rest))) ∧
      (files (lexiconName f rest) ≠ none → f.build = false → files (dictionaryName f rest) = none →
        programMsg sorter linkSorter grow creatable fuel args files = some (.noFile (dictionaryName f rest))) ∧
      (files (lexiconName f rest) ≠ none → f.build = true → creatable (dictionaryName f rest) = false →
        programMsg sorter linkSorter grow creatable fuel args files = some (.noCreate (dictionaryName f rest))) := by
  constructor
  · unfold program programMsg
    rcases parseArgs {} args with u | ⟨f, rest⟩
    · simp
    · simp only
      cases hl : files (lexiconName f rest) with
      | none => simp
      | some lexicon =>
        simp only
        by_cases hb : f.build = true
        · rw [if_pos hb, if_pos hb]
          by_cases hc : creatable (dictionaryName f rest) = true
          · rw [if_pos hc, if_pos hc, messageOf_forget, mainBuild_forget]
            simp only
            generalize (if dictionaryName f rest = lexiconName f rest then [] else lexicon) = lex
            rcases buildRun_cases ratio sorter linkSorter grow f.opts lex with ⟨e, _, h2, _, h3⟩ | ⟨d, _, h2, h3⟩
            · rw [h2, h3]
              simp [ended]
            · rw [h3, h2]
              simp only
              rcases buildFileRun_cases ratio linkSorter f.opts d with ⟨e, _, e2, e3⟩ | ⟨_, e2, e3⟩ | ⟨D, u, _, ⟨e, _, e2, e3⟩ | ⟨_, e2, e3⟩ | ⟨g, _, ⟨_, e2, e3⟩ | ⟨_, e, _, e2, e3⟩ | ⟨_, x, _, e2, e3⟩⟩⟩ <;>
                rw [e2, e3] <;> simp [ended, perform]
          · rw [if_neg hc, if_neg hc]
            simp
        · rw [if_neg hb, if_neg hb]
          cases hd : files (dictionaryName f rest) with
          | none => simp
          | some d =>
            simp only
            rw [messageOf_forget, mainQuery_forget]
            obtain ⟨h1, h2⟩ := queryRun_spec f.opts fuel d lexicon
            cases hm : mainQuery f.opts fuel d lexicon with
            | error e => rw [(h2 e hm).1]; simp [ended]
            | ok r => rw [h1 r.1 r.2 hm]; simp [ended]
  · intro f rest hp
    unfold programMsg
    rw [hp]
    simp only
    refine ⟨fun h => by rw [h], fun h1 h2 h3 => ?_, fun h1 h2 h3 => ?_⟩
    · cases hl : files (lexiconName f rest) with
      | none => exact absurd hl h1
      | some lexicon => simp [h2, h3]
    · cases hl : files (lexiconName f rest) with
      | none => exact absurd hl h1
      | some lexicon => simp [h2, h3]

/-- `dawgtool -b words dict` with the lexicon "b", "a". -/
example (sorter : LineSorter) (linkSorter : Sorter) (grow : Nat → Nat) (files : Files) (h : files [119, 111, 114, 100, 115] = some [98, 10, 97, 10]) (e : List UInt8 → List UInt8) :
    (programMsg sorter linkSorter grow (fun _ => true) 0 [[45, 98], [119, 111, 114, 100, 115], [100, 105, 99, 116]] files).map (·.text e e e) =
      some (ascii "error: failed to insert key: a" ++ [10]) := by
  have hp : parseArgs {} [[45, 98], [119, 111, 114, 100, 115], [100, 105, 99, 116]] = .ok ({ build := true }, [[119, 111, 114, 100, 115], [100, 105, 99, 116]]) := parse_build _ _ (by decide)
  have hl : processLinesMsg {} [[98], [97]] Builder.new = .error (.fatal (.badKey [97])) := by decide +kernel
  unfold programMsg
  rw [hp]
  simp only [show lexiconName { build := true } [[119, 111, 114, 100, 115], [100, 105, 99, 116]] = [119, 111, 114, 100, 115] by decide +kernel,
    show dictionaryName { build := true } [[119, 111, 114, 100, 115], [100, 105, 99, 116]] = [100, 105, 99, 116] by decide +kernel, h, if_true]
  have hm : mainBuildMsg sorter linkSorter grow {} [98, 10, 97, 10] = .error (.fatal (.badKey [97])) := by
    unfold mainBuildMsg buildDawgMsg
    rw [show orderLines sorter grow {} (scanLines [98, 10, 97, 10]) = [[98], [97]] from by show scanLines [98, 10, 97, 10] = _; decide +kernel, hl]
    rfl
  rw [if_neg (by decide), hm]
  rfl

end Dawg.Props
