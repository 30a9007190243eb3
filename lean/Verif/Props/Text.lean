import Verif.Props.Lexicon
/-! # C55–C58: the text that dawgtool reads -/
namespace Dawg.Props
open Dawg Dawg.Spec Dawg.Client Dawg.Abs Dawg.Dict Dawg.Guided Dawg.Tool
attribute [-simp] List.length_flatten

/-! ## C55: UTF-8 -/

theorem char_ofNat_toNat (c : Char) : Char.ofNat c.val.toNat = c := Char.ofNat_toNat c

theorem char_valid (c : Char) : c.val.toNat < 0xD800 ∨ (0xDFFF < c.val.toNat ∧ c.val.toNat < 0x110000) := c.valid

theorem utf8Char_length (c : Char) : 1 ≤ (String.utf8EncodeChar c).length := by
  unfold String.utf8EncodeChar
  simp only
  split
  · simp
  · split
    · simp
    · split <;> simp

theorem cons_ofNat {m v : Nat} {c : Char} (h : m = v) (hc : Char.ofNat v = c) (l : List Char) : Char.ofNat m :: l = c :: l := by rw [h, hc]

theorem runesLoop_char (c : Char) (rest : List UInt8) (fuel : Nat) : runesLoop (fuel + 1) (String.utf8EncodeChar c ++ rest) = c :: runesLoop fuel rest := by
  have hv := char_valid c
  have hc := char_ofNat_toNat c
  unfold String.utf8EncodeChar
  generalize c.val.toNat = v at hv hc
  simp only
  split
  · next h =>
    simp only [List.cons_append, List.nil_append]
    conv => lhs; unfold runesLoop
    rw [if_pos (by rw [UInt8.toNat_ofNat']; omega), UInt8.toNat_ofNat', Nat.mod_eq_of_lt (by omega), hc]
  · next h =>
    split
    · next h2 =>
      simp only [List.cons_append, List.nil_append]
      conv => lhs; unfold runesLoop cont
      simp only [UInt8.toNat_ofNat']
      rw [if_neg (by omega), if_pos (by omega), if_pos (by rw [decide_eq_true_eq]; omega)]
      refine cons_ofNat ?_ hc _
      omega
    · next h2 =>
      split
      · next h3 =>
        simp only [List.cons_append, List.nil_append]
        conv => lhs; unfold runesLoop cont
        simp only [UInt8.toNat_ofNat', decide_eq_true_eq]
        rw [if_neg (by omega), if_neg (by omega), if_pos (by omega), if_pos (by
          refine ⟨⟨?_, ?_⟩, ?_⟩
          · split <;> omega
          · split <;> omega
          · omega)]
        refine cons_ofNat ?_ hc _
        omega
      · next h3 =>
        simp only [List.cons_append, List.nil_append]
        conv => lhs; unfold runesLoop cont
        simp only [UInt8.toNat_ofNat', decide_eq_true_eq]
        rw [if_neg (by omega), if_neg (by omega), if_neg (by omega), if_pos (by omega), if_pos (by
          refine ⟨⟨?_, ?_⟩, ?_, ?_⟩
          · split <;> omega
          · split <;> omega
          · omega
          · omega)]
        refine cons_ofNat ?_ hc _
        omega

theorem runesLoop_flat : ∀ (s : List Char) (fuel : Nat), s.length ≤ fuel → runesLoop fuel (s.flatMap String.utf8EncodeChar) = s := by
  intro s
  induction s with
  | nil =>
    intro fuel _
    cases fuel <;> rfl
  | cons c s ih =>
    intro fuel h
    cases fuel with
    | zero => simp at h
    | succ fuel =>
      rw [List.flatMap_cons, runesLoop_char, ih fuel (by simpa using h)]

/-- **C55.** The key bytes that `dawgtool -u` inserts for a line of UTF-8 text are the UTF-C encoding of that text. -/
theorem C55_utf8_lines (s : List Char) : keyBytes true (s.flatMap String.utf8EncodeChar) = Utfc.encode s := by
  unfold keyBytes runes
  rw [if_pos rfl, runesLoop_flat s _ ?_]
  induction s with
  | nil => simp
  | cons c s ih =>
    have := utf8Char_length c
    rw [List.flatMap_cons, List.length_append, List.length_cons]
    omega

example : ("aé漢😀".toList.flatMap String.utf8EncodeChar) = [97, 0xC3, 0xA9, 0xE6, 0xBC, 0xA2, 0xF0, 0x9F, 0x98, 0x80] ∧
    keyBytes true [97, 0xC3, 0xA9, 0xE6, 0xBC, 0xA2, 0xF0, 0x9F, 0x98, 0x80] = Utfc.encode ['a', 'é', '漢', '😀'] := by decide +kernel

/-- The claim of **C55**: with `-u`, different lines are different keys. -/
def C55_statement : Prop := ∀ a b : List UInt8, keyBytes true a = keyBytes true b → a = b

/-- **C55 is false**: bytes that are not UTF-8 are all read as U+FFFD. -/
theorem C55_invalid_false : ¬ C55_statement := by
  intro h
  exact absurd (h [0xFF] [0xC0] (by decide +kernel)) (by decide)

theorem utf8_injective {s t : List Char} (h : s.flatMap String.utf8EncodeChar = t.flatMap String.utf8EncodeChar) : s = t := by
  have h1 := runesLoop_flat s (s.length + t.length) (by omega)
  rw [h, runesLoop_flat t _ (by omega)] at h1
  exact h1.symm

/-- **C55**, for lines of UTF-8 text: lines that start with another line, and equal lines, are recognised. -/
theorem C55_injective_partial (s t : List Char) :
    (keyBytes true (s.flatMap String.utf8EncodeChar) = keyBytes true (t.flatMap String.utf8EncodeChar) ↔ s.flatMap String.utf8EncodeChar = t.flatMap String.utf8EncodeChar) ∧
    (keyBytes true (s.flatMap String.utf8EncodeChar) <+: keyBytes true (t.flatMap String.utf8EncodeChar) ↔ s <+: t) := by
  rw [C55_utf8_lines, C55_utf8_lines]
  refine ⟨⟨fun h => ?_, fun h => ?_⟩, C38_prefix_iff s t⟩
  · rw [C38_injective s t h]
  · rw [utf8_injective h]

example : keyBytes true ("né".toList.flatMap String.utf8EncodeChar) <+: keyBytes true ("née".toList.flatMap String.utf8EncodeChar) :=
  (C55_injective_partial _ _).2.2 (by decide)

/-! ## C56: lines -/

/-- A file with the given lines. -/
def fileOf (lines : List (List UInt8)) : List UInt8 := lines.flatMap (fun l => l ++ [10])

/-- What a line may be. -/
def IsLine (l : List UInt8) : Prop := 10 ∉ l ∧ l.getLast? ≠ some 13

theorem dropCR_id {l : List UInt8} (h : l.getLast? ≠ some 13) : dropCR l = l := if_neg h

theorem dropCR_cr (l : List UInt8) : dropCR (l ++ [13]) = l := by
  unfold dropCR
  rw [if_pos (by simp)]
  simp

theorem scanLoop_line : ∀ (l cur rest : List UInt8), 10 ∉ l → cur.length + l.length < 65536 → scanLoop (l ++ 10 :: rest) cur = dropCR (cur ++ l) :: scanLoop rest [] := by
  intro l
  induction l with
  | nil => intro cur rest _ _; simp [scanLoop]
  | cons b l ih =>
    intro cur rest h h2
    simp only [List.length_cons] at h2
    rw [List.cons_append, scanLoop, if_neg (by rintro rfl; simp at h), if_neg (by omega), ih _ _ (by simp at h; exact h.2) (by simp; omega)]
    simp

theorem scanLoop_last : ∀ (l cur : List UInt8), 10 ∉ l → cur.length + l.length < 65536 → scanLoop l cur = if cur ++ l = [] then [] else [dropCR (cur ++ l)] := by
  intro l
  induction l with
  | nil => intro cur _ _; simp [scanLoop]
  | cons b l ih =>
    intro cur h h2
    simp only [List.length_cons] at h2
    rw [scanLoop, if_neg (by rintro rfl; simp at h), if_neg (by omega), ih _ (by simp at h; exact h.2) (by simp; omega)]
    simp

theorem scanLoop_long : ∀ (l cur rest : List UInt8), 10 ∉ l → cur.length < 65536 → 65536 ≤ cur.length + l.length → scanLoop (l ++ rest) cur = [] := by
  intro l
  induction l with
  | nil => intro cur rest _ h2 h3; simp at h3; omega
  | cons b l ih =>
    intro cur rest h h2 h3
    simp only [List.length_cons] at h3
    rw [List.cons_append, scanLoop, if_neg (by rintro rfl; simp at h)]
    split
    · rfl
    · exact ih _ _ (by simp at h; exact h.2) (by simp; omega) (by simp; omega)

theorem scanLoop_lines {lines : List (List UInt8)} (h : ∀ l ∈ lines, IsLine l ∧ l.length < 65536) (rest : List UInt8) : scanLoop (fileOf lines ++ rest) [] = lines ++ scanLoop rest [] := by
  induction lines with
  | nil => rfl
  | cons l lines ih =>
    obtain ⟨⟨h1, h2⟩, h3⟩ := h l (by simp)
    have := ih (fun l hl => h l (by simp [hl]))
    unfold fileOf at this ⊢
    rw [List.flatMap_cons, List.append_assoc, List.append_assoc, List.singleton_append, scanLoop_line l [] _ h1 (by simpa using h3), this, List.nil_append, dropCR_id h2,
      List.cons_append]

/-- The claim of **C56**: the tool reads all lines of a file. -/
def C56_statement : Prop := ∀ lines : List (List UInt8), (∀ l ∈ lines, IsLine l) → scanLines (fileOf lines) = lines

/-- **C56 is false**: at a line of 65536 bytes or more, the tool silently stops reading; this line and all following ones are missing. -/
theorem C56_long_line_stops {lines rest : List (List UInt8)} {l : List UInt8} (h : ∀ l ∈ lines, IsLine l ∧ l.length < 65536) (h1 : 10 ∉ l) (h2 : 65536 ≤ l.length) :
    scanLines (fileOf (lines ++ l :: rest)) = lines := by
  unfold scanLines
  have : fileOf (lines ++ l :: rest) = fileOf lines ++ (l ++ (10 :: fileOf rest)) := by simp [fileOf]
  rw [this, scanLoop_lines h, scanLoop_long l [] _ h1 (by simp) (by simpa using h2), List.append_nil]

theorem C56_long_line_false : ¬ C56_statement := by
  intro h
  have h1 := h [[97], List.replicate 65536 98, [99]] (by
    intro l hl
    simp only [List.mem_cons, List.not_mem_nil, or_false] at hl
    rcases hl with rfl | rfl | rfl
    · exact ⟨by decide, by decide⟩
    · refine ⟨fun h => ?_, fun h => ?_⟩
      · exact absurd (List.eq_of_mem_replicate h) (by decide)
      · rw [List.getLast?_replicate] at h
        simp at h
    · exact ⟨by decide, by decide⟩)
  have h2 := C56_long_line_stops (lines := [[97]]) (l := List.replicate 65536 98) (rest := [[99]]) (by simp [IsLine]) (fun h => absurd (List.eq_of_mem_replicate h) (by decide))
    (by rw [List.length_replicate]; exact Nat.le_refl _)
  exact absurd (congrArg List.length (h1.symm.trans h2)) (by rw [List.length_cons, List.length_cons, List.length_cons, List.length_cons]; decide)

/-- **C56**, for lines shorter than 64 KiB; the newline after the last line may be missing, and every newline may be preceded by a carriage return. -/
theorem C56_lines_partial {lines : List (List UInt8)} (h : ∀ l ∈ lines, IsLine l ∧ l.length < 65536) :
    scanLines (fileOf lines) = lines ∧ (∀ l, l ≠ [] → IsLine l → l.length < 65536 → scanLines (fileOf lines ++ l) = lines ++ [l]) ∧
      ((∀ l ∈ lines, l.length < 65535) → scanLines (lines.flatMap (fun l => l ++ [13, 10])) = lines) := by
  refine ⟨?_, ?_, ?_⟩
  · have := scanLoop_lines h []
    unfold scanLines
    simpa [scanLoop] using this
  · intro l h1 h2 h3
    unfold scanLines
    rw [scanLoop_lines h, scanLoop_last l [] h2.1 (by simpa using h3), List.nil_append, if_neg h1, dropCR_id h2.2]
  · intro hl
    unfold scanLines
    induction lines with
    | nil => rfl
    | cons l lines ih =>
      obtain ⟨⟨h1, h2⟩, h3⟩ := h l (by simp)
      have h4 := hl l (by simp)
      rw [List.flatMap_cons, show (l ++ [13, 10]) ++ lines.flatMap (fun l => l ++ [13, 10]) = (l ++ [13]) ++ 10 :: lines.flatMap (fun l => l ++ [13, 10]) by simp,
        scanLoop_line _ _ _ (by simp [h1]) (by simp; omega), List.nil_append, dropCR_cr, ih (fun l hl => h l (by simp [hl])) (fun l h => hl l (by simp [h]))]

example : scanLines [97, 13, 10, 10, 98, 99, 10, 100] = [[97], [], [98, 99], [100]] := by decide

/-- **C53**, from the bytes of the lexicon file and of the file of queries to all answers, without a guide. -/
theorem C53_file_answers {sorter : LineSorter} (hs : StableSort sorter) (grow : Nat → Nat) {linkSorter : Sorter} (hls : StableSort linkSorter) {lines : List (List UInt8)}
    (hnul : ∀ l ∈ lines, (0 : UInt8) ∉ l) (hline : ∀ l ∈ lines, IsLine l ∧ l.length < 65536) (hsz : (fileOf lines).length < 2097152) :
    ∃ file, mainBuild sorter linkSorter grow { sort := true } (fileOf lines) = .ok file ∧
      ∀ (qs : List Key), (∀ q ∈ qs, (0 : UInt8) ∉ q ∧ IsLine q ∧ q.length < 65536) → ∀ fuel, mainQuery {} fuel file (fileOf qs) = .ok
        (qs.map (fun q => ⟨q, none, ((List.range q.length).filter (fun i => decide (q.take (i + 1) ∈ lines))).map (fun i => (q.take (i + 1), 0))⟩), none) := by
  have hl : (fileOf lines).length = (lines.map (fun l => l.length + 1)).sum := by
    unfold fileOf
    rw [List.length_flatMap]
    congr 1
    exact List.map_congr_left (fun l _ => by simp)
  obtain ⟨d, file, h1, h2, h3⟩ := C53_prefix_answers hs grow linkSorter hls hnul (hl ▸ hsz)
  refine ⟨file, ?_, fun qs hqs fuel => ?_⟩
  · unfold mainBuild
    rw [(C56_lines_partial hline).1, h1]
    exact h2
  · unfold mainQuery
    rw [(C56_lines_partial (fun q hq => (hqs q hq).2)).1]
    exact h3 qs (fun q hq => (hqs q hq).1) fuel

/-! ## C57: numbers -/

/-- A number as text. -/
def decimal (n : Nat) : List UInt8 := if n < 10 then [UInt8.ofNat (48 + n)] else decimal (n / 10) ++ [UInt8.ofNat (48 + n % 10)]
  termination_by n

/-- A number as text, with its sign. -/
def signed (v : Int) : List UInt8 := if v < 0 then 45 :: decimal v.natAbs else decimal v.natAbs

theorem digits_append : ∀ (l m : List UInt8) (n : Nat), digits (l ++ m) n = (digits l n).bind (digits m)
  | [], _, _ => rfl
  | b :: l, m, n => by
    rw [List.cons_append, digits, digits]
    split
    · exact digits_append l m _
    · rfl

theorem digits_decimal (n : Nat) : digits (decimal n) 0 = some n := by
  induction n using decimal.induct with
  | case1 n h =>
    rw [decimal, if_pos h, digits, UInt8.toNat_ofNat', if_pos (by omega), digits]
    congr 1
    omega
  | case2 n h ih =>
    rw [decimal, if_neg h, digits_append, ih, Option.bind_some, digits, UInt8.toNat_ofNat', if_pos (by omega), digits]
    congr 1
    omega

theorem decimal_head (n : Nat) : ∃ b l, decimal n = b :: l ∧ 48 ≤ b.toNat ∧ b.toNat ≤ 57 := by
  induction n using decimal.induct with
  | case1 n h => exact ⟨_, [], by rw [decimal, if_pos h], by rw [UInt8.toNat_ofNat']; omega, by rw [UInt8.toNat_ofNat']; omega⟩
  | case2 n h ih =>
    obtain ⟨b, l, h1, h2, h3⟩ := ih
    exact ⟨b, l ++ [UInt8.ofNat (48 + n % 10)], by rw [decimal, if_neg h, h1]; rfl, h2, h3⟩

theorem decimal_digit (n : Nat) : ∀ b ∈ decimal n, 48 ≤ b.toNat ∧ b.toNat ≤ 57 := by
  induction n using decimal.induct with
  | case1 n h =>
    rw [decimal, if_pos h]
    intro b hb
    rw [List.mem_singleton.1 hb, UInt8.toNat_ofNat']
    omega
  | case2 n h ih =>
    rw [decimal, if_neg h]
    intro b hb
    rcases List.mem_append.1 hb with hb | hb
    · exact ih b hb
    · rw [List.mem_singleton.1 hb, UInt8.toNat_ofNat']
      omega

theorem atoi_decimal (n : Nat) : atoi (decimal n) = if n ≤ 9223372036854775807 then some (n : Int) else none := by
  obtain ⟨b, l, h1, h2, h3⟩ := decimal_head n
  have hd := digits_decimal n
  rw [h1] at hd ⊢
  unfold atoi
  have h45 : b ≠ 45 := by rintro rfl; exact absurd h2 (by decide)
  have h43 : b ≠ 43 := by rintro rfl; exact absurd h2 (by decide)
  simp only [h45, h43, or_self, if_false, hd]

theorem atoi_minus (n : Nat) : atoi (45 :: decimal n) = if n ≤ 9223372036854775808 then some (-(n : Int)) else none := by
  obtain ⟨b, l, h1, _, _⟩ := decimal_head n
  have hd := digits_decimal n
  rw [h1] at hd ⊢
  unfold atoi
  simp only [true_or, if_true, hd]

theorem atoi_signed (v : Int) : atoi (signed v) = if -9223372036854775808 ≤ v ∧ v ≤ 9223372036854775807 then some v else none := by
  unfold signed
  split
  · rw [atoi_minus]
    split
    · rw [if_pos (by omega)]; congr 1; omega
    · rw [if_neg (by omega)]
  · rw [atoi_decimal]
    split
    · rw [if_pos (by omega)]; congr 1; omega
    · rw [if_neg (by omega)]

theorem signed_noTab (v : Int) : (9 : UInt8) ∉ signed v := by
  have := decimal_digit v.natAbs
  unfold signed
  intro h
  split at h
  · rcases List.mem_cons.1 h with h | h
    · exact absurd h (by decide)
    · exact absurd (this 9 h).1 (by decide)
  · exact absurd (this 9 h).1 (by decide)

theorem splitTab_none : ∀ (v : List UInt8), (9 : UInt8) ∉ v → splitTab v = [v]
  | [], _ => rfl
  | b :: v, h => by
    rw [splitTab, splitTab_none v (fun hc => h (by simp [hc]))]
    simp only
    rw [if_neg (by rintro rfl; simp at h)]

theorem splitTab_cons : ∀ (k r : List UInt8), (9 : UInt8) ∉ k → splitTab (k ++ 9 :: r) = k :: splitTab r := by
  have hne : ∀ l : List UInt8, ∃ p ps, splitTab l = p :: ps := by
    intro l
    cases l with
    | nil => exact ⟨_, _, rfl⟩
    | cons c l =>
      rw [splitTab]
      cases splitTab l with
      | nil => exact ⟨_, _, rfl⟩
      | cons => simp only; split <;> exact ⟨_, _, rfl⟩
  intro k
  induction k with
  | nil =>
    intro r _
    rw [List.nil_append, splitTab]
    obtain ⟨p, ps, h⟩ := hne r
    rw [h]
    rfl
  | cons b k ih =>
    intro r h
    rw [List.cons_append, splitTab, ih r (fun hc => h (by simp [hc]))]
    simp only
    rw [if_neg (by rintro rfl; simp at h)]

/-- A line of a lexicon with values. -/
def lineOf (e : Key × Int) : List UInt8 := e.1 ++ 9 :: signed e.2

/-- The value that is stored. -/
def limited (v : Int) : Int := max 0 (min v 2147483647)

/-- **C57**, one line: with `-t` a line is a key, a tab, a decimal number and possibly another tab and a comment.  Negative numbers count as 0, numbers above 2^31 - 1
as 2^31 - 1; numbers outside of the range of a Go `int` end the program with an error. -/
theorem C57_line (k : Key) (hk : (9 : UInt8) ∉ k) (v : Int) (comment : List UInt8) (line : List UInt8) (hl : line = lineOf (k, v) ∨ line = lineOf (k, v) ++ 9 :: comment) :
    parseLine true line = if -9223372036854775808 ≤ v ∧ v ≤ 9223372036854775807 then .ok (k, limited v) else .error .fatal := by
  have hcl : clamp v = limited v := by
    unfold clamp limited
    split
    · omega
    · split <;> omega
  have hsp : ∃ r, splitTab line = k :: signed v :: r := by
    rcases hl with rfl | rfl
    · exact ⟨[], by rw [lineOf, splitTab_cons _ _ hk, splitTab_none _ (signed_noTab v)]⟩
    · refine ⟨splitTab comment, ?_⟩
      rw [lineOf, List.append_assoc, List.cons_append, splitTab_cons _ _ hk, splitTab_cons _ _ (signed_noTab v)]
  obtain ⟨r, hr⟩ := hsp
  unfold parseLine
  simp only [Bool.not_true, Bool.false_eq_true, if_false, hr, atoi_signed]
  by_cases h : -9223372036854775808 ≤ v ∧ v ≤ 9223372036854775807
  · simp only [if_pos h, hcl]
  · simp only [if_neg h]

example : parseLine true "ab\t-12".toUTF8.toList = .ok ([97, 98], 0) ∧ parseLine true "ab\t3000000000\tx".toUTF8.toList = .ok ([97, 98], 2147483647) ∧
    lineOf ([97, 98], 354) = "ab\t354".toUTF8.toList := by
  refine ⟨by decide +kernel, by decide +kernel, ?_⟩
  unfold lineOf signed
  simp [decimal]
  decide +kernel

/-! ### The whole way -/

theorem accepted_of_nodup {hist : List (Key × Int)} (h : ∀ ok ∈ verdicts [] hist, ok = true) (hd : (hist.map (·.1)).Nodup) : accepted hist = hist ∧ hist.Pairwise (fun a b => a.1 < b.1) := by
  have hs := (sorted_of_verdicts h).1
  have hlt : hist.Pairwise (fun a b => a.1 < b.1) := by
    rw [List.nodup_iff_pairwise_ne, List.pairwise_map] at hd
    refine (hs.and hd).imp ?_
    intro a b ⟨h1, h2⟩
    exact Std.lt_of_le_of_ne (List.not_lt.1 h1) h2
  refine ⟨?_, hlt⟩
  have hp : (accepted hist).Perm hist := by
    refine (List.perm_ext_iff_of_nodup ?_ ?_).2 ?_
    · exact (accepted_sorted hist).imp (fun {a b} hab => by rintro rfl; exact absurd hab (List.lt_irrefl _))
    · exact hlt.imp (fun {a b} hab => by rintro rfl; exact absurd hab (List.lt_irrefl _))
    · intro e
      refine ⟨mem_of_accepted, fun he => ?_⟩
      obtain ⟨e', h1, h2⟩ := (keys_accepted h e.1).2 ⟨e, he, rfl⟩
      have h3 := mem_of_accepted h1
      have : e' = e := by
        refine Classical.byContradiction fun hne => ?_
        rcases List.mem_iff_getElem.1 he with ⟨i, hi, e1⟩
        rcases List.mem_iff_getElem.1 h3 with ⟨j, hj, e2⟩
        have hij : i ≠ j := by rintro rfl; exact hne (e2.symm.trans e1)
        rcases Nat.lt_or_gt_of_ne hij with hij | hij
        · have := List.pairwise_iff_getElem.1 hlt i j hi hj hij
          rw [e1, e2, h2] at this
          exact List.lt_irrefl _ this
        · have := List.pairwise_iff_getElem.1 hlt j i hj hi hij
          rw [e1, e2, h2] at this
          exact List.lt_irrefl _ this
      exact this ▸ h1
  refine hp.eq_of_pairwise (le := fun a b => a.1 < b.1) ?_ (accepted_sorted hist) hlt
  intro a b _ _ h1 h2
  exact absurd h1 (List.lt_asymm h2)

/-- A lexicon with values that the theorems below speak about: different keys with bytes above 10 (newline), values of a Go `int`, no line of 64 KiB or more, and
fewer than 2^21 bytes altogether. -/
structure Lexicon (ps : List (Key × Int)) : Prop where
  keys : (ps.map (·.1)).Nodup
  bytes : ∀ e ∈ ps, ∀ b ∈ e.1, 10 < b
  range : ∀ e ∈ ps, -9223372036854775808 ≤ e.2 ∧ e.2 ≤ 9223372036854775807
  short : ∀ e ∈ ps, (lineOf e).length < 65536
  small : (fileOf (ps.map lineOf)).length < 2097152

theorem fileOf_length (lines : List (List UInt8)) : (fileOf lines).length = (lines.map (fun l => l.length + 1)).sum := by
  unfold fileOf
  rw [List.length_flatMap]
  congr 1
  apply List.map_congr_left
  intro l _
  simp

theorem signed_last (v : Int) : ∃ b, (signed v).getLast? = some b ∧ 48 ≤ b.toNat := by
  have hd : ∃ b, (decimal v.natAbs).getLast? = some b ∧ 48 ≤ b.toNat := by
    cases h : (decimal v.natAbs).getLast? with
    | none =>
      obtain ⟨b, l, h1, _⟩ := decimal_head v.natAbs
      rw [h1] at h
      simp at h
    | some b => exact ⟨b, rfl, (decimal_digit _ b (List.mem_of_getLast? h)).1⟩
  obtain ⟨b, h1, h2⟩ := hd
  refine ⟨b, ?_, h2⟩
  unfold signed
  split
  · rw [List.getLast?_cons, h1]; rfl
  · exact h1

theorem signed_noNl (v : Int) : (10 : UInt8) ∉ signed v := by
  have := decimal_digit v.natAbs
  unfold signed
  intro h
  split at h
  · rcases List.mem_cons.1 h with h | h
    · exact absurd h (by decide)
    · exact absurd (this 10 h).1 (by decide)
  · exact absurd (this 10 h).1 (by decide)

theorem Lexicon.isLine {ps} (h : Lexicon ps) : ∀ l ∈ ps.map lineOf, IsLine l ∧ l.length < 65536 := by
  intro l hl
  obtain ⟨e, he, rfl⟩ := List.mem_map.1 hl
  refine ⟨⟨fun hc => ?_, fun hc => ?_⟩, h.short e he⟩
  · unfold lineOf at hc
    rcases List.mem_append.1 hc with hc | hc
    · exact absurd (h.bytes e he 10 hc) (by decide)
    · rcases List.mem_cons.1 hc with hc | hc
      · exact absurd hc (by decide)
      · exact signed_noNl _ hc
  · unfold lineOf at hc
    obtain ⟨b, h1, h2⟩ := signed_last e.2
    rw [List.getLast?_append, List.getLast?_cons, h1] at hc
    simp at hc
    subst hc
    exact absurd h2 (by decide)

/-- The keys of a lexicon with the values that are stored. -/
def limitedAll (ps : List (Key × Int)) : List (Key × Int) := ps.map (fun e => (e.1, limited e.2))

theorem limited_size (ps : List (Key × Int)) : ((limitedAll ps).map (fun e => e.1.length + 1)).sum ≤ ((ps.map lineOf).map (fun l => l.length + 1)).sum := by
  unfold limitedAll
  induction ps with
  | nil => simp
  | cons e ps ih =>
    simp only [List.map_cons, List.sum_cons, lineOf, List.length_append, List.length_cons] at ih ⊢
    omega

theorem values_made {ps : List (Key × Int)} (h : Lexicon ps) {sorter : LineSorter} (hs : StableSort sorter) (grow : Nat → Nat) :
    ∃ d D srt, buildDawg sorter grow { sort := true, tab := true } (scanLines (fileOf (ps.map lineOf))) = .ok d ∧ Made srt d D ∧ accepted srt = srt ∧
      srt.Perm (limitedAll ps) ∧ srt.Pairwise (fun a b => a.1 < b.1) := by
  rw [(C56_lines_partial h.isLine).1]
  have hsm := h.small
  rw [fileOf_length] at hsm
  have hpl : ∀ e ∈ ps, parseLine true (lineOf e) = .ok (e.1, limited e.2) := by
    intro e he
    rw [C57_line e.1 (fun hc => absurd (h.bytes e he 9 hc) (by decide)) e.2 [] (lineOf e) (.inl rfl), if_pos (h.range e he)]
  obtain ⟨d, ls, h1, h2, oks, b, h3, h4⟩ := C42_tab_partial hs grow (lines := ps.map lineOf) (by
    intro l hl
    obtain ⟨e, he, rfl⟩ := List.mem_map.1 hl
    exact ⟨_, _, hpl e he, fun b hb => by have := h.bytes e he b hb; rw [UInt8.lt_iff_toNat_lt] at this ⊢; exact Nat.lt_trans (by decide) this⟩) (Nat.lt_trans hsm (by omega))
  have hne : (ps.map lineOf).filter (fun l => l.length ≠ 0) = ps.map lineOf := by
    rw [List.filter_eq_self]
    intro l hl
    obtain ⟨e, he, rfl⟩ := List.mem_map.1 hl
    simp [lineOf]
  rw [hne] at h1
  have hperm : (ls.map (entry { sort := true, tab := true })).Perm (limitedAll ps) := by
    have := h1.map (entry { sort := true, tab := true })
    rw [List.map_map] at this
    refine this.trans (List.Perm.of_eq ?_)
    apply List.map_congr_left
    intro e he
    simp only [Function.comp_apply, entry, hpl e he]
    rfl
  have hnul : ∀ e ∈ ls.map (entry { sort := true, tab := true }), (0 : UInt8) ∉ e.1 := by
    intro e he hc
    obtain ⟨e', he', rfl⟩ := List.mem_map.1 (hperm.mem_iff.1 he)
    exact absurd (h.bytes e' he' 0 hc) (by decide)
  have hsum : ((ls.map (entry { sort := true, tab := true })).map (fun e => e.1.length + 1)).sum < 2097152 := by
    rw [(hperm.map _).sum_nat]
    exact Nat.lt_of_le_of_lt (limited_size ps) hsm
  obtain ⟨d', D, k1, oks', b', k2⟩ := C14_small_builds 256 (by omega) (by omega) _ hnul hsum
  rw [h3] at k2
  cases k2
  obtain ⟨b'', d'', k3⟩ := C07_build_returns 256 (by omega) (by omega) _ k1.1
  rw [h3] at k3
  simp only [Except.ok.injEq, Prod.mk.injEq] at k3
  rw [k3.1] at h4
  obtain ⟨k4, k5⟩ := accepted_of_nodup h4 (by
    refine (hperm.map (·.1)).nodup_iff.2 ?_
    unfold limitedAll
    rw [List.map_map]
    exact h.keys)
  exact ⟨d, D, _, h2, k1, k4, hperm, k5⟩

/-- The hypothesis on queries, as in `NoClash`, in terms of the lexicon. -/
def Harmless (ps : List (Key × Int)) (q : Key) : Prop := ∀ p b, p ++ [b] <+: q → (∃ e ∈ ps, p <+: e.1) → (¬ ∃ e ∈ ps, p ++ [b] <+: e.1) →
  ∀ e ∈ ps, limited e.2 % 256 ≠ b.toNat

theorem Harmless.noClash {ps srt : List (Key × Int)} {q : Key} (h : Harmless ps q) (ha : accepted srt = srt) (hp : srt.Perm (limitedAll ps)) : NoClash srt q := by
  have hkey : ∀ P : Key → Prop, (∃ e ∈ srt, P e.1) ↔ ∃ e ∈ ps, P e.1 := by
    intro P
    constructor
    · rintro ⟨e, he, h⟩
      obtain ⟨e', he', rfl⟩ := List.mem_map.1 (hp.mem_iff.1 he)
      exact ⟨e', he', h⟩
    · rintro ⟨e, he, h⟩
      exact ⟨_, hp.mem_iff.2 (List.mem_map.2 ⟨e, he, rfl⟩), h⟩
  intro p b h1 h2 h3
  rw [ha] at h2 h3 ⊢
  rw [hkey] at h2 h3
  have h5 := h p b h1 h2 h3
  intro e he
  obtain ⟨e', he', rfl⟩ := List.mem_map.1 (hp.mem_iff.1 he)
  have := h5 e' he'
  intro hc
  apply this
  show limited e'.2 % 256 = _
  have hr : 0 ≤ limited e'.2 ∧ limited e'.2 < 2147483648 := by unfold limited; omega
  have := stored_of_nonneg hr.1 hr.2
  simp only at hc
  omega

theorem find_perm {a b : List (Key × Int)} (hp : a.Perm b) (hd : (a.map (·.1)).Nodup) (k : Key) : a.find? (fun e => e.1 == k) = b.find? (fun e => e.1 == k) := by
  have huniq : ∀ e ∈ a, ∀ e' ∈ a, e.1 = e'.1 → e = e' := by
    clear hp
    induction a with
    | nil => simp
    | cons x a ih =>
      rw [List.map_cons, List.nodup_cons] at hd
      intro e he e' he' hk
      rcases List.mem_cons.1 he with h1 | h1 <;> rcases List.mem_cons.1 he' with h2 | h2
      · rw [h1, h2]
      · exact absurd (List.mem_map.2 ⟨e', h2, by rw [← hk, h1]⟩) hd.1
      · exact absurd (List.mem_map.2 ⟨e, h1, by rw [hk, h2]⟩) hd.1
      · exact ih hd.2 e h1 e' h2 hk
  cases ha : a.find? (fun e => e.1 == k) with
  | none =>
    symm
    rw [List.find?_eq_none] at ha ⊢
    exact fun e he => ha e (hp.mem_iff.2 he)
  | some x =>
    have h1 := List.find?_some ha
    have h2 := List.mem_of_find?_eq_some ha
    cases hb : b.find? (fun e => e.1 == k) with
    | none => exact absurd h1 (List.find?_eq_none.1 hb x (hp.mem_iff.1 h2))
    | some y =>
      have h3 := List.find?_some hb
      have h4 := hp.mem_iff.2 (List.mem_of_find?_eq_some hb)
      simp only [beq_iff_eq] at h1 h3
      rw [huniq x h2 y h4 (h1.trans h3.symm)]

theorem limited_stored (v : Int) : (stored (limited v) : Int) = limited v := stored_of_nonneg (by unfold limited; omega) (by unfold limited; omega)

theorem lookup_limited {ps srt : List (Key × Int)} (hd : (ps.map (·.1)).Nodup) (hp : srt.Perm (limitedAll ps)) (k : Key) :
    (lookup srt k).map (fun e => (e.1, Int.ofNat e.2)) = (ps.find? (fun e => e.1 == k)).map (fun e => (k, limited e.2)) := by
  have hd' : (srt.map (·.1)).Nodup := by
    refine (hp.map (·.1)).nodup_iff.2 ?_
    unfold limitedAll
    rw [List.map_map]
    exact hd
  unfold lookup
  rw [find_perm hp hd', limitedAll, List.find?_map, Option.map_map, Option.map_map]
  cases hf : ps.find? (fun e => e.1 == k) with
  | none =>
    rw [show ((fun e : Key × Int => e.1 == k) ∘ fun e : Key × Int => (e.1, limited e.2)) = fun e => e.1 == k from rfl, hf]
    rfl
  | some x =>
    rw [show ((fun e : Key × Int => e.1 == k) ∘ fun e : Key × Int => (e.1, limited e.2)) = fun e => e.1 == k from rfl, hf]
    simp only [Option.map_some, Function.comp_apply]
    congr 2
    exact limited_stored x.2

/-- **C57**, without a guide: from the bytes of a lexicon file with values (any order of lines) and the bytes of a file of queries to all answers: each query is
answered with those of its prefixes that are keys and their values, cut to 0 … 2^31 - 1. -/
theorem C57_prefix_answers {ps : List (Key × Int)} (h : Lexicon ps) {sorter : LineSorter} (hs : StableSort sorter) {linkSorter : Sorter} (hls : StableSort linkSorter)
    (grow : Nat → Nat) : ∃ file, mainBuild sorter linkSorter grow { sort := true, tab := true } (fileOf (ps.map lineOf)) = .ok file ∧
      ∀ (qs : List Key), (∀ q ∈ qs, (IsLine q ∧ q.length < 65536) ∧ Harmless ps q) → ∀ fuel, mainQuery {} fuel file (fileOf qs) = .ok
        (qs.map (fun q => ⟨q, none, (List.range q.length).filterMap (fun i => (ps.find? (fun e => e.1 == q.take (i + 1))).map (fun e => (q.take (i + 1), limited e.2)))⟩), none) := by
  obtain ⟨d, D, srt, h1, h2, h3, h4, h5⟩ := values_made h hs grow
  obtain ⟨file, h6⟩ := C45_tool_writes h2 hls { sort := true, tab := true } (by simp)
  refine ⟨file, ?_, fun qs hqs fuel => ?_⟩
  · unfold mainBuild
    rw [h1]
    exact h6
  · unfold mainQuery
    rw [(C56_lines_partial (fun q hq => (hqs q hq).1)).1]
    have h6' : buildFile linkSorter {} d = .ok file := h6
    obtain ⟨l, k1, k2, _, _, k3, _, _⟩ := C45_tool_roundtrip h2 hls {} h6'
    obtain ⟨k4, k5⟩ := k3 rfl rfl
    have k6 := answers_map (o := {}) (l := l) (fuel := fuel) (qs := qs)
      (f := fun q => ⟨q, none, (List.range q.length).filterMap (fun i => (ps.find? (fun e => e.1 == q.take (i + 1))).map (fun e => (q.take (i + 1), limited e.2)))⟩) (fun q hq c => by
        refine ⟨c, ?_⟩
        unfold answer
        rw [k4]
        simp only [k2]
        rw [C48_prefixes_partial h2 ((hqs q hq).2.noClash h3 h4)]
        simp only [ok_bind, pure_eq_ok]
        congr 3
        unfold prefixesOf
        rw [List.map_filterMap, h3]
        exact filterMap_congr' fun i _ => lookup_limited h.keys h4 _) Completers.new
    unfold handleLoad
    rw [k1]
    change (lift (answers {} l fuel Completers.new qs) >>= _) = _
    rw [k6]
    rfl

theorem extensions_perm {a b : List (Key × Int)} (hp : a.Perm b) (q : Key) : (extensions a q).Perm (extensions b q) := (hp.filter _).map _

theorem extensions_limited (ps : List (Key × Int)) (q : Key) :
    extensions (limitedAll ps) q = (ps.filter (fun e => q.isPrefixOf e.1)).map (fun e => (e.1, limited e.2)) := by
  unfold extensions limitedAll
  rw [List.filter_map, List.map_map]
  apply List.map_congr_left
  intro e _
  simp only [Function.comp_apply, limited_stored]

/-- **C57**, with `-g`: each query is answered with the keys that start with it in increasing order, with their values (each key is followed by a NUL byte). -/
theorem C57_completion_answers {ps : List (Key × Int)} (h : Lexicon ps) {sorter : LineSorter} (hs : StableSort sorter) {linkSorter : Sorter} (hls : StableSort linkSorter)
    (grow : Nat → Nat) : ∃ file, mainBuild sorter linkSorter grow { sort := true, tab := true, guide := true } (fileOf (ps.map lineOf)) = .ok file ∧
      ∀ (qs : List Key), (∀ q ∈ qs, (IsLine q ∧ q.length < 65536) ∧ Harmless ps q) → ¬ ([] ∈ qs ∧ [] ∈ ps.map (·.1)) → ∀ fuel, ps.length < fuel →
        ∃ as, mainQuery { guide := true } fuel file (fileOf qs) = .ok (as, none) ∧ as.map (·.query) = qs ∧ ∀ a ∈ as, a.rank = none ∧
          ∃ xs, xs.Perm ((ps.filter (fun e => a.query.isPrefixOf e.1)).map (fun e => (e.1, limited e.2))) ∧ xs.Pairwise (fun a b => a.1 < b.1) ∧ a.hits = withNul xs := by
  obtain ⟨d, D, srt, h1, h2, h3, h4, h5⟩ := values_made h hs grow
  obtain ⟨file, h6⟩ := C45_tool_writes h2 hls { guide := true } (by simp)
  have hlen : srt.length = ps.length := by rw [h4.length_eq]; exact List.length_map ..
  refine ⟨file, ?_, fun qs hqs hne fuel hfuel => ?_⟩
  · unfold mainBuild
    rw [buildDawg_congr (o := { sort := true, tab := true, guide := true }) (o' := { sort := true, tab := true }) rfl rfl rfl, h1]
    exact h6
  · unfold mainQuery
    rw [(C56_lines_partial (fun q hq => (hqs q hq).1)).1, C49_completions_partial h2 hls rfl rfl h6 (fun q hq => (hqs q hq).2.noClash h3 h4) (by
      rw [h3]
      rintro ⟨k1, e, k2, k3⟩
      obtain ⟨e', he', rfl⟩ := List.mem_map.1 (h4.mem_iff.1 k2)
      exact hne ⟨k1, List.mem_map.2 ⟨e', he', k3⟩⟩) (by rw [h3, hlen]; exact hfuel)]
    refine ⟨_, rfl, by rw [List.map_map]; exact List.map_id _, ?_⟩
    intro a ha
    obtain ⟨q, hq, rfl⟩ := List.mem_map.1 ha
    refine ⟨rfl, extensions (accepted srt) q, ?_, ?_, rfl⟩
    · rw [← extensions_limited, h3]
      exact extensions_perm h4 q
    · rw [h3]
      unfold extensions
      rw [List.pairwise_map]
      exact h5.filter _

/-- **C57**, with `-r`: each query is answered with the keys that start with it and their values, the values never increasing. -/
theorem C57_ranked_answers {ps : List (Key × Int)} (h : Lexicon ps) {sorter : LineSorter} (hs : StableSort sorter) {linkSorter : Sorter} (hls : StableSort linkSorter)
    (grow : Nat → Nat) : ∃ file, mainBuild sorter linkSorter grow { sort := true, tab := true, ranked := true } (fileOf (ps.map lineOf)) = .ok file ∧
      ∀ (qs : List Key), (∀ q ∈ qs, (IsLine q ∧ q.length < 65536) ∧ Harmless ps q) → ∀ fuel, ps.length < fuel →
        ∃ as, mainQuery { ranked := true } fuel file (fileOf qs) = .ok (as, none) ∧ as.map (·.query) = qs ∧ ∀ a ∈ as, a.rank = none ∧
          ∃ xs, xs.Perm ((ps.filter (fun e => a.query.isPrefixOf e.1)).map (fun e => (e.1, limited e.2))) ∧ xs.Pairwise (fun a b => a.2 ≥ b.2) ∧ a.hits = withNul xs := by
  obtain ⟨d, D, srt, h1, h2, h3, h4, h5⟩ := values_made h hs grow
  obtain ⟨file, h6⟩ := C45_tool_writes h2 hls { ranked := true } (by simp)
  have hlen : srt.length = ps.length := by rw [h4.length_eq]; exact List.length_map ..
  refine ⟨file, ?_, fun qs hqs fuel hfuel => ?_⟩
  · unfold mainBuild
    rw [buildDawg_congr (o := { sort := true, tab := true, ranked := true }) (o' := { sort := true, tab := true }) rfl rfl rfl, h1]
    exact h6
  · unfold mainQuery
    rw [(C56_lines_partial (fun q hq => (hqs q hq).1)).1]
    obtain ⟨as, k1, k2, k3⟩ := C50_ranked_partial h2 hls rfl rfl h6 (fun q hq => (hqs q hq).2.noClash h3 h4) (fuel := fuel) (by rw [h3, hlen]; exact hfuel)
    refine ⟨as, k1, k2, fun a ha => ?_⟩
    obtain ⟨k4, xs, k5, k6, k7⟩ := k3 a ha
    refine ⟨k4, xs, k5.trans ?_, k6, k7⟩
    rw [← extensions_limited, h3]
    exact extensions_perm h4 _

/-- The file "ba\t-5\nb\t300\n". -/
theorem lexicon_ex : Lexicon [([98, 97], -5), ([98], 300)] := by
  have hl : ∀ e ∈ [(([98, 97] : Key), (-5 : Int)), ([98], 300)], (lineOf e).length < 10 := by
    intro e he
    simp only [List.mem_cons, List.not_mem_nil, or_false] at he
    rcases he with rfl | rfl <;> simp [lineOf, signed, decimal]
  refine ⟨by decide, by decide, by decide, fun e he => Nat.lt_trans (hl e he) (by omega), ?_⟩
  rw [fileOf_length]
  have h1 := hl ([98, 97], -5) (by simp)
  have h2 := hl ([98], 300) (by simp)
  simp only [List.map_cons, List.map_nil, List.sum_cons, List.sum_nil]
  omega

theorem harmless_ex (q : Key) (h : ∀ b ∈ q, b ≠ 0 ∧ b ≠ 44) : Harmless [([98, 97], -5), ([98], 300)] q := by
  intro p b hp _ _
  have := h b (hp.subset (by simp))
  intro e he hc
  simp only [List.mem_cons, List.not_mem_nil, or_false] at he
  rcases he with rfl | rfl
  · exact this.1 (UInt8.toNat_inj.1 (by simp [limited] at hc; simp; omega))
  · exact this.2 (UInt8.toNat_inj.1 (by simp [limited] at hc; simp; omega))

example : ∃ file, mainBuild (fun less l => l.mergeSort (fun a b => !less b a)) insertionSort (fun n => n) { sort := true, tab := true }
      (fileOf ([([98, 97], -5), ([98], 300)].map lineOf)) = .ok file ∧
    mainQuery {} 0 file (fileOf [[98, 97, 99], [99]]) = .ok ([⟨[98, 97, 99], none, [([98], 300), ([98, 97], 0)]⟩, ⟨[99], none, []⟩], none) := by
  obtain ⟨file, h1, h2⟩ := C57_prefix_answers lexicon_ex (exists_stableSort _) insertionSort_stableSort (fun n => n)
  exact ⟨file, h1, h2 [[98, 97, 99], [99]] (by
    intro q hq
    simp only [List.mem_cons, List.not_mem_nil, or_false] at hq
    rcases hq with rfl | rfl
    · exact ⟨⟨⟨by decide, by decide⟩, by decide⟩, harmless_ex _ (by decide)⟩
    · exact ⟨⟨⟨by decide, by decide⟩, by decide⟩, harmless_ex _ (by decide)⟩) 0⟩

end Dawg.Props
