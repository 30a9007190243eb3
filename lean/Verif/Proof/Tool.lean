import Verif.Proof.UtfcString
import Verif.Props.Builder
/-! # dawgtool: sorting and inserting the lexicon -/
namespace Dawg.Tool
open Dawg.Spec Dawg.Client

theorem bytesLess_eq (a b : List UInt8) : bytesLess a b = decide (a < b) := by
  induction a generalizing b with
  | nil => cases b <;> simp [bytesLess]
  | cons x a ih =>
    cases b with
    | nil => simp [bytesLess]
    | cons y b =>
      rw [bytesLess]
      by_cases h1 : x < y
      · simp [h1, List.cons_lt_cons_iff]
      · rw [if_neg h1]
        by_cases h2 : y < x
        · have : x ≠ y := by rintro rfl; exact h1 h2
          simp [h1, h2, List.cons_lt_cons_iff, this]
        · have : x = y := UInt8.le_antisymm (UInt8.not_lt.1 h2) (UInt8.not_lt.1 h1)
          subst this
          simp [ih, List.cons_lt_cons_iff, h1]

theorem bytesLess_weak : StrictWeak bytesLess := by
  constructor
  · intro a b h
    rw [bytesLess_eq, decide_eq_true_eq] at h
    rw [bytesLess_eq, decide_eq_false_iff_not]
    exact fun h' => List.lt_irrefl a (List.lt_trans h h')
  · intro a b c h1 h2
    rw [bytesLess_eq, decide_eq_false_iff_not] at *
    intro h
    exact absurd h (List.not_lt.2 (List.le_trans (List.not_lt.1 h2) (List.not_lt.1 h1)))

/-- Comparing with a string of which the other is a proper prefix. -/
theorem bytesLess_append (a b : List UInt8) : bytesLess a (a ++ b) = decide (0 < b.length) ∧ bytesLess (a ++ b) a = false := by
  induction a with
  | nil => cases b <;> simp [bytesLess]
  | cons x a ih =>
    rw [List.cons_append, bytesLess, bytesLess]
    simp [ih]

/-- The `-u` comparator: whatever the state of the shared buffer, it only compares the lengths of the encodings. -/
theorem lessMem_utfc {m : Utfc.Mem} (h : m.OK) (grow : Nat → Nat) (a b : List UInt8) :
    (lessMem grow true m a b).2 = decide ((Utfc.encode (runes a)).length < (Utfc.encode (runes b)).length) := by
  unfold lessMem
  simp only [Bool.not_true, Bool.false_eq_true, if_false]
  have h1 := Utfc.Mem.utfcEncode_overwrite h grow (runes a) (runes b)
  have h2 := (Utfc.Mem.utfcEncode_view (Utfc.Mem.utfcEncode_view h grow (runes a)).2 grow (runes b)).1
  rw [h1, h2]
  generalize Utfc.encode (runes a) = x, Utfc.encode (runes b) = y
  unfold compareLoop
  by_cases hl : x.length < y.length
  · rw [List.take_append_of_le_length (by omega), decide_eq_true hl]
    have := (bytesLess_append (y.take x.length) (y.drop x.length)).1
    rw [List.take_append_drop] at this
    rw [this, List.length_drop]
    exact decide_eq_true (by omega)
  · rw [decide_eq_false hl, List.take_append, List.take_of_length_le (by omega)]
    exact (bytesLess_append y _).2

theorem lessMem_bytes (grow : Nat → Nat) (m : Utfc.Mem) (a b : List UInt8) : (lessMem grow false m a b).2 = bytesLess a b := rfl

/-- The shared buffer stays usable, so that every comparison made by the sorting routine has the verdict of `lessMem_utfc`. -/
theorem lessMem_ok {m : Utfc.Mem} (h : m.OK) (grow : Nat → Nat) (utfc : Bool) (a b : List UInt8) : (lessMem grow utfc m a b).1.OK := by
  unfold lessMem
  split
  · exact h
  · exact (Utfc.Mem.utfcEncode_view (Utfc.Mem.utfcEncode_view h grow (runes a)).2 grow (runes b)).2

/-- The comparator's verdict does not depend on the calls made before. -/
theorem lessMem_state {m : Utfc.Mem} (h : m.OK) (grow : Nat → Nat) (utfc : Bool) (a b : List UInt8) :
    (lessMem grow utfc m a b).2 = (lessMem grow utfc Utfc.Mem.init a b).2 := by
  cases utfc
  · rfl
  · rw [lessMem_utfc h, lessMem_utfc Utfc.Mem.OK.init]

/-- Inserting lines whose insertions are all accepted. -/
theorem processLines_ok {o : Opts} : ∀ {lines : List (List UInt8)} {hist : List (Key × Int)} {b b' : Builder} {oks : List Bool},
    (lines.filter (fun l => l.length ≠ 0)).map (fun l => (fun p => (keyBytes o.utfc p.1, p.2)) <$> parseLine o.tab l) = hist.map Except.ok →
    insertAll b hist = .ok (b', oks) → (∀ ok ∈ oks, ok = true) → processLines o lines b = .ok b'
  | [], hist, b, b', oks, h1, h2, _ => by
    cases hist with
    | nil => simp only [insertAll, Except.ok.injEq, Prod.mk.injEq] at h2; rw [processLines, h2.1]
    | cons => simp at h1
  | l :: lines, hist, b, b', oks, h1, h2, h3 => by
    by_cases hl : l.length = 0
    · rw [List.filter_cons_of_neg (by simp [List.length_eq_zero_iff.1 hl])] at h1
      rw [processLines, processLine, if_pos hl]
      exact processLines_ok h1 h2 h3
    · rw [List.filter_cons_of_pos (by simpa using hl)] at h1
      cases hist with
      | nil => simp at h1
      | cons e hist =>
        rw [List.map_cons, List.map_cons, List.cons.injEq] at h1
        cases hp : parseLine o.tab l with
        | error x => rw [hp] at h1; cases h1.1
        | ok p =>
          rw [hp] at h1
          have he : (keyBytes o.utfc p.1, p.2) = e := Except.ok.inj h1.1
          subst he
          rw [insertAll] at h2
          obtain ⟨⟨b1, ok⟩, g1, g2⟩ := bind_eq_ok.1 h2
          obtain ⟨⟨b2, oks'⟩, g3, g4⟩ := bind_eq_ok.1 g2
          simp only [pure_eq_ok, Except.ok.injEq, Prod.mk.injEq] at g4
          obtain ⟨rfl, rfl⟩ := g4
          have hok : ok = true := h3 ok (by simp)
          subst hok
          rw [processLines, processLine, if_neg hl]
          unfold Builder.insertStringValue at g1
          have : processLine o b l = .ok (b1, true) := by
            rw [processLine, if_neg hl, hp]
            show (lift (b.insertKeyValue (keyBytes o.utfc p.1) (keyBytes o.utfc p.1).length p.2) >>= _) = _
            rw [g1]
            rfl
          rw [processLine, if_neg hl] at this
          rw [this]
          exact processLines_ok h1.2 g3 (fun ok hok => h3 ok (by simp [hok]))

/-- A history in key order is accepted throughout. -/
theorem verdicts_sorted : ∀ {hist acc : List (Key × Int)}, hist.Pairwise (fun a b => ¬ b.1 < a.1) →
    (∀ l, acc.getLast? = some l → ∀ e ∈ hist, ¬ e.1 < l.1) → ∀ ok ∈ verdicts acc hist, ok = true
  | [], _, _, _ => by simp [verdicts]
  | e :: hist, acc, h1, h2 => by
    rw [List.pairwise_cons] at h1
    have ha : accepts acc e.1 = true := by
      unfold accepts
      cases hl : acc.getLast? with
      | none => rfl
      | some l => simp [h2 l hl e (by simp)]
    intro ok hok
    rw [verdicts, List.mem_cons] at hok
    rcases hok with rfl | hok
    · exact ha
    · refine verdicts_sorted h1.2 ?_ ok hok
      intro l hl x hx
      have : l.1 = e.1 := by
        unfold add at hl
        cases hl' : acc.getLast? with
        | none => rw [hl'] at hl; simp only [List.getLast?_singleton, Option.some.injEq] at hl; rw [← hl]
        | some l' =>
          rw [hl'] at hl
          simp only [if_neg (h2 l' hl' e (by simp))] at hl
          split at hl <;> simp only [List.getLast?_append, List.getLast?_singleton, Option.some_or, Option.some.injEq] at hl <;> rw [← hl]
      rw [this]
      exact h1.1 x hx

/-- A rejected line ends the program. -/
theorem processLines_fatal {o : Opts} : ∀ {lines : List (List UInt8)} {hist : List (Key × Int)} {b b' : Builder} {oks : List Bool},
    (lines.filter (fun l => l.length ≠ 0)).map (fun l => (fun p => (keyBytes o.utfc p.1, p.2)) <$> parseLine o.tab l) = hist.map Except.ok →
    insertAll b hist = .ok (b', oks) → false ∈ oks → processLines o lines b = .error .fatal
  | [], hist, b, b', oks, h1, h2, h3 => by
    cases hist with
    | nil =>
      simp only [insertAll, Except.ok.injEq, Prod.mk.injEq] at h2
      rw [← h2.2] at h3
      simp at h3
    | cons => simp at h1
  | l :: lines, hist, b, b', oks, h1, h2, h3 => by
    by_cases hl : l.length = 0
    · rw [List.filter_cons_of_neg (by simp [List.length_eq_zero_iff.1 hl])] at h1
      rw [processLines, processLine, if_pos hl]
      exact processLines_fatal h1 h2 h3
    · rw [List.filter_cons_of_pos (by simpa using hl)] at h1
      cases hist with
      | nil => simp at h1
      | cons e hist =>
        rw [List.map_cons, List.map_cons, List.cons.injEq] at h1
        cases hp : parseLine o.tab l with
        | error x => rw [hp] at h1; cases h1.1
        | ok p =>
          rw [hp] at h1
          have he : (keyBytes o.utfc p.1, p.2) = e := Except.ok.inj h1.1
          subst he
          rw [insertAll] at h2
          obtain ⟨⟨b1, ok⟩, g1, g2⟩ := bind_eq_ok.1 h2
          obtain ⟨⟨b2, oks'⟩, g3, g4⟩ := bind_eq_ok.1 g2
          simp only [pure_eq_ok, Except.ok.injEq, Prod.mk.injEq] at g4
          obtain ⟨rfl, rfl⟩ := g4
          unfold Builder.insertStringValue at g1
          have : processLine o b l = if ok then .ok (b1, true) else .error .fatal := by
            rw [processLine, if_neg hl, hp]
            show (lift (b.insertKeyValue (keyBytes o.utfc p.1) (keyBytes o.utfc p.1).length p.2) >>= _) = _
            rw [g1]
            cases ok <;> rfl
          rw [processLines, this]
          cases ok with
          | false => rfl
          | true => exact processLines_fatal h1.2 g3 (by simpa using h3)

theorem add_last {acc : List (Key × Int)} {k : Key} {v : Int} (h : accepts acc k = true) : ∃ w, (add acc k v).getLast? = some (k, w) := by
  unfold accepts at h
  unfold add
  cases hl : acc.getLast? with
  | none => exact ⟨v, by simp⟩
  | some l =>
    rw [hl] at h
    simp only [decide_eq_true_eq] at h
    simp only [if_neg h]
    split <;> exact ⟨v, by simp⟩

/-- Only histories with non-decreasing keys are accepted completely. -/
theorem sorted_of_verdicts : ∀ {hist acc : List (Key × Int)}, (∀ ok ∈ verdicts acc hist, ok = true) →
    hist.Pairwise (fun a b => ¬ b.1 < a.1) ∧ (∀ l, acc.getLast? = some l → ∀ e ∈ hist, ¬ e.1 < l.1)
  | [], _, _ => by simp
  | e :: hist, acc, h => by
    rw [verdicts] at h
    have ha : accepts acc e.1 = true := h _ (by simp)
    obtain ⟨h1, h2⟩ := sorted_of_verdicts (hist := hist) (acc := add acc e.1 e.2) (fun ok hok => h ok (by simp [hok]))
    obtain ⟨w, hw⟩ := add_last (v := e.2) ha
    have h3 := h2 _ hw
    refine ⟨List.pairwise_cons.2 ⟨h3, h1⟩, ?_⟩
    intro l hl x hx
    have hle : ¬ e.1 < l.1 := by
      unfold accepts at ha
      rw [hl] at ha
      simpa using ha
    rcases List.mem_cons.1 hx with rfl | hx
    · exact hle
    · have := h3 x hx
      intro hc
      have h4 : ¬ e.1 < l.1 := hle
      rw [List.not_lt] at this h4
      exact (List.not_lt.2 (List.le_trans h4 this)) hc

end Dawg.Tool
