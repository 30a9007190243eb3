import Verif.Props.Utfc
/-! # C64, C65: how long UTF-C encodings are -/
namespace Dawg.Props
open Dawg Dawg.Utfc
attribute [-simp] List.length_flatten

/-- The number of bytes of the UTF-8 form of a string. -/
def utf8Length (s : List Char) : Nat := (s.map Char.utf8Size).sum

/-- Letters, digits, the space and the hyphen. -/
def Plain (c : Char) : Prop :=
  0x41 ≤ c.toNat ∧ c.toNat ≤ 0x5A ∨ 0x61 ≤ c.toNat ∧ c.toNat ≤ 0x7A ∨ 0x30 ≤ c.toNat ∧ c.toNat ≤ 0x39 ∨ c.toNat = 0x20 ∨ c.toNat = 0x2D

theorem utf8Size_eq (c : Char) : c.utf8Size = if c.toNat ≤ 0x7F then 1 else if c.toNat ≤ 0x7FF then 2 else if c.toNat ≤ 0xFFFF then 3 else 4 := by
  have h : ∀ n : UInt32, c.val ≤ n ↔ c.toNat ≤ n.toNat := fun n => UInt32.le_iff_toNat_le
  unfold Char.utf8Size
  simp only [h]
  rfl

theorem extra_ge {cp : Nat} (h : inRanges cp rangesExtra = true) : 0x2000 ≤ cp := by
  simp only [inRanges, rangesExtra] at h
  repeat' split at h
  all_goals first | omega | cases h

theorem latin_lt {cp : Nat} (h : inRanges cp rangesLatin = true) : cp < 128 := by
  simp only [inRanges, rangesLatin] at h
  repeat' split at h
  all_goals first | omega | cases h

theorem plain_latin {c : Char} (h : Plain c) : inRanges c.toNat rangesLatin = true := by
  unfold Plain at h
  simp only [inRanges, rangesLatin]
  repeat' split
  all_goals first | rfl | omega

/-- How a character below 0x2000 is coded: by one byte that leaves the state, or by two bytes that change it. -/
theorem short_cases (st : State) {cp : Nat} (h : cp < 0x2000) :
    (∃ b, encodeChar st cp = ([b], st)) ∧ (st.auxOffs = 0 ∧ inRanges cp rangesLatin = true ∨ st.auxOffs ≠ 0 ∧ cp ≥ st.auxOffs ∧ cp ≤ st.auxOffs + 0x3F ∨
      st.is21Bit = false ∧ cp / 128 * 128 = st.offs) ∨
    (∃ a b, encodeChar st cp = ([a, b], { offs := if cp ≤ 0x02FF then 0 else cp / 128 * 128, auxOffs := getAuxOffset st.offs, is21Bit := false })) ∧
      ¬ (st.auxOffs = 0 ∧ inRanges cp rangesLatin = true) ∧ ¬ (st.auxOffs ≠ 0 ∧ cp ≥ st.auxOffs ∧ cp ≤ st.auxOffs + 0x3F) ∧
      ¬ (st.is21Bit = false ∧ cp / 128 * 128 = st.offs) := by
  have e : cp &&& offsMask13Bit = cp / 128 * 128 := and_mask13 (by omega)
  have hx : ¬ inRanges cp rangesExtra = true := fun h' => by have := extra_ge h'; omega
  have hm : ¬ cp ≥ min21BitCp := by unfold min21BitCp; omega
  unfold encodeChar
  by_cases h1 : st.auxOffs = 0 ∧ inRanges cp rangesLatin = true
  · rw [if_pos h1]; exact .inl ⟨⟨_, rfl⟩, .inl h1⟩
  · rw [if_neg h1]
    by_cases h2 : st.auxOffs ≠ 0 ∧ cp ≥ st.auxOffs ∧ cp ≤ st.auxOffs + 0x3F
    · rw [if_pos h2]; exact .inl ⟨⟨_, rfl⟩, .inr (.inl h2)⟩
    · rw [if_neg h2, if_neg hx, if_neg hm]
      simp only [e]
      by_cases h3 : st.is21Bit = false ∧ cp / 128 * 128 = st.offs
      · left
        refine ⟨?_, .inr (.inr h3)⟩
        simp only [h3, Bool.not_false, and_self, if_true]
        split <;> exact ⟨_, rfl⟩
      · right
        refine ⟨?_, h1, h2, h3⟩
        rw [if_neg (by simpa using h3)]
        split <;> exact ⟨_, _, rfl⟩

/-- The same for Hiragana and Katakana. -/
theorem kana_cases (st : State) {cp : Nat} (h : 0x3000 ≤ cp ∧ cp < 0x3100) :
    (∃ b, encodeChar st cp = ([b], st)) ∧ (st.auxOffs ≠ 0 ∧ cp ≥ st.auxOffs ∧ cp ≤ st.auxOffs + 0x3F ∨ st.is21Bit = false ∧ cp / 128 * 128 = st.offs) ∨
    (∃ a b, encodeChar st cp = ([a, b], { offs := cp / 128 * 128, auxOffs := getAuxOffset st.offs, is21Bit := false })) ∧
      ¬ (st.auxOffs ≠ 0 ∧ cp ≥ st.auxOffs ∧ cp ≤ st.auxOffs + 0x3F) ∧ ¬ (st.is21Bit = false ∧ cp / 128 * 128 = st.offs) := by
  have e : cp &&& offsMask13Bit = cp / 128 * 128 := and_mask13 (by omega)
  have hx : inRanges cp rangesExtra = true := by
    simp only [inRanges, rangesExtra]
    rw [if_neg (by omega), if_pos (by omega)]
  have hk : inHK cp = true := by simp only [inHK, decide_eq_true_eq]; omega
  have hl : ¬ (st.auxOffs = 0 ∧ inRanges cp rangesLatin = true) := fun h' => by have := latin_lt h'.2; omega
  unfold encodeChar
  rw [if_neg hl]
  by_cases h2 : st.auxOffs ≠ 0 ∧ cp ≥ st.auxOffs ∧ cp ≤ st.auxOffs + 0x3F
  · rw [if_pos h2]; exact .inl ⟨⟨_, rfl⟩, .inl h2⟩
  · rw [if_neg h2, if_pos hx]
    simp only [e, hk, if_true]
    by_cases h3 : st.is21Bit = false ∧ cp / 128 * 128 = st.offs
    · left
      refine ⟨?_, .inr h3⟩
      simp only [h3, Bool.not_false, and_self, if_true]
      split <;> exact ⟨_, rfl⟩
    · right
      refine ⟨?_, h2, h3⟩
      rw [if_neg (by simpa using h3)]
      split <;> exact ⟨_, _, rfl⟩

theorem encFrom_cons (st : State) (c : Char) (s : List Char) : encFrom st (c :: s) = (encodeChar st c.toNat).1 ++ encFrom (encodeChar st c.toNat).2 s := rfl

/-! ## C64 -/

/-- The state of ASCII text. -/
def InLatin (st : State) : Prop := st.offs = 0 ∧ st.is21Bit = false
instance (st : State) : Decidable (InLatin st) := inferInstanceAs (Decidable (_ ∧ _))

/-- Bytes that may be owed: switching back to ASCII costs one more byte than in UTF-8. -/
def debt (st : State) : Nat := if InLatin st then 0 else 2

theorem debt_le (st : State) : debt st ≤ 2 := by unfold debt; split <;> omega

theorem char_debt (st : State) (c : Char) : 3 * (encodeChar st c.toNat).1.length + debt (encodeChar st c.toNat).2 ≤ 4 * c.utf8Size + debt st := by
  have hd := debt_le (encodeChar st c.toNat).2
  rw [utf8Size_eq]
  by_cases h : c.toNat < 0x2000
  · rcases short_cases st h with ⟨⟨b, e⟩, _⟩ | ⟨⟨a, b, e⟩, _, _, h3⟩
    · rw [e] at hd ⊢
      simp only [List.length_cons, List.length_nil] at hd ⊢
      split <;> try split <;> try split
      all_goals omega
    · rw [e] at hd ⊢
      simp only [List.length_cons, List.length_nil] at hd ⊢
      by_cases h4 : c.toNat ≤ 0x7F
      · rw [if_pos h4]
        have h5 : debt st = 2 := by
          unfold debt
          rw [if_neg]
          rintro ⟨h6, h7⟩
          exact h3 ⟨h7, by omega⟩
        have h6 : debt { offs := if c.toNat ≤ 0x02FF then 0 else c.toNat / 128 * 128, auxOffs := getAuxOffset st.offs, is21Bit := false } = 0 := by
          unfold debt
          rw [if_pos]
          exact ⟨by simp only; rw [if_pos (by omega)], rfl⟩
        omega
      · rw [if_neg h4]
        generalize debt { offs := if c.toNat ≤ 0x02FF then 0 else c.toNat / 128 * 128, auxOffs := getAuxOffset st.offs, is21Bit := false } = x at hd ⊢
        split
        · omega
        · split <;> omega
  · have := (enc_char st c).length
    split
    · omega
    · split
      · omega
      · split <;> omega

theorem string_debt : ∀ (s : List Char) (st : State), 3 * (encFrom st s).length + debt (run st s) ≤ 4 * utf8Length s + debt st
  | [], st => by simp [encFrom, run, utf8Length]
  | c :: s, st => by
    have h1 := char_debt st c
    have h2 := string_debt s (encodeChar st c.toNat).2
    rw [encFrom_cons, List.length_append, run]
    simp only [utf8Length, List.map_cons, List.sum_cons] at h2 ⊢
    omega

/-- **C64** fails: UTF-C can be longer than UTF-8: the Greek letter alpha and `!` take 4 bytes, 3 in UTF-8. -/
theorem C64_longer : ∃ s : List Char, utf8Length s < (encode s).length := ⟨['α', '!'], by decide⟩

/-- **C64** (part): a UTF-C encoding is at most a third longer than UTF-8. -/
theorem C64_third_partial (s : List Char) : 3 * (encode s).length ≤ 4 * utf8Length s := by
  have := string_debt s State.init
  rw [encode_eq]
  have h : debt State.init = 0 := by decide
  omega

/-- `k` times the text "α!я!" -/
def worst : Nat → List Char
  | 0 => []
  | k + 1 => 'α' :: '!' :: 'я' :: '!' :: worst k

theorem worst_from : ∀ (k : Nat), (encFrom State.init (worst k)).length = 8 * k ∧ utf8Length (worst k) = 6 * k
  | 0 => ⟨rfl, rfl⟩
  | k + 1 => by
    have h := worst_from k
    have h1 : encodeChar State.init 'α'.toNat = ([131, 177], { offs := 0x380, auxOffs := 0, is21Bit := false }) := by decide
    have h2 : encodeChar { offs := 0x380, auxOffs := 0, is21Bit := false } '!'.toNat = ([128, 33], { offs := 0, auxOffs := 0x391, is21Bit := false }) := by decide
    have h3 : encodeChar { offs := 0, auxOffs := 0x391, is21Bit := false } 'я'.toNat = ([132, 79], { offs := 0x400, auxOffs := 0, is21Bit := false }) := by decide
    have h4 : encodeChar { offs := 0x400, auxOffs := 0, is21Bit := false } '!'.toNat = ([128, 33], State.init) := by decide
    have h5 : 'α'.utf8Size = 2 ∧ '!'.utf8Size = 1 ∧ 'я'.utf8Size = 2 := by decide
    simp only [worst, encFrom_cons, h1, h2, h3, h4, utf8Length, List.map_cons, List.sum_cons, h5, List.length_append, List.length_cons, List.length_nil] at h ⊢
    omega

/-- **C64**: the bound of `C64_third_partial` is reached by texts of any length. -/
theorem C64_third_tight (n : Nat) : ∃ s : List Char, n ≤ s.length ∧ 3 * (encode s).length = 4 * utf8Length s := by
  have hl : ∀ k, (worst k).length = 4 * k := by
    intro k
    induction k with
    | zero => rfl
    | succ k ih => simp only [worst, List.length_cons, ih]; omega
  refine ⟨worst n, by rw [hl]; omega, ?_⟩
  have := worst_from n
  rw [encode_eq]
  omega

/-- **C64** (part): texts without ASCII characters never get longer. -/
theorem C64_no_ascii_partial (s : List Char) (h : ∀ c ∈ s, 128 ≤ c.toNat) : (encode s).length ≤ utf8Length s := by
  rw [encode_eq]
  generalize State.init = st
  induction s generalizing st with
  | nil => simp [encFrom, utf8Length]
  | cons c s ih =>
    have h1 := ih (fun c hc => h c (.tail _ hc)) (encodeChar st c.toNat).2
    rw [encFrom_cons, List.length_append]
    simp only [utf8Length, List.map_cons, List.sum_cons] at h1 ⊢
    have h2 : (encodeChar st c.toNat).1.length ≤ c.utf8Size := by
      have h3 := h c (.head _)
      rw [utf8Size_eq, if_neg (by omega)]
      by_cases h4 : c.toNat < 0x2000
      · rcases short_cases st h4 with ⟨⟨b, e⟩, _⟩ | ⟨⟨a, b, e⟩, _⟩ <;> rw [e] <;> simp only [List.length_cons, List.length_nil] <;> split
        all_goals first | omega | (split <;> omega)
      · have := (enc_char st c).length
        rw [if_neg (by omega)]
        split <;> omega
    omega

example : (encode "Ελλάδα".toList).length = 7 ∧ utf8Length "Ελλάδα".toList = 12 := by decide

theorem encodeChar_ascii {c : Nat} (hc : 1 ≤ c ∧ c < 128) : encodeChar State.init c = ([UInt8.ofNat c], State.init) := by
  have hx : ¬ inRanges c rangesExtra = true := fun h' => by have := extra_ge h'; omega
  have e : c &&& offsMask13Bit = c / 128 * 128 := and_mask13 (by omega)
  have e2 : c &&& 127 = c % 128 := Nat.and_two_pow_sub_one_eq_mod _ 7
  have e3 : ¬ byte (c % 128) = 0 := fun h' => by have := byte_eq_zero.1 h'; omega
  unfold encodeChar
  rw [if_neg (by simp [State.init, offsInitAux]), if_neg (by simp only [State.init, offsInitAux]; omega), if_neg hx, if_neg (by unfold min21BitCp; omega)]
  simp only [e, e2]
  rw [if_pos ⟨rfl, by simp only [State.init]; omega⟩, if_neg e3, Nat.mod_eq_of_lt hc.2]
  rfl

/-- **C64** (part): ASCII texts without NUL are their own encodings. -/
theorem C64_ascii_partial (s : List Char) (h : ∀ c ∈ s, 1 ≤ c.toNat ∧ c.toNat < 128) : encode s = s.map (fun c => UInt8.ofNat c.toNat) := by
  rw [encode_eq]
  induction s with
  | nil => rfl
  | cons c s ih =>
    rw [encFrom_cons, encodeChar_ascii (h c (.head _)), ih (fun c hc => h c (.tail _ hc))]
    rfl

example : encode "Hello, world!".toList = "Hello, world!".toUTF8.toList := by decide +kernel

/-- **C64** (part): a text of plain ASCII characters and one alphabet of 128 code points takes one byte for each character, and one more. -/
theorem C64_one_alphabet_partial (W : Nat) (hW : 0x300 ≤ W ∧ W < 0x2000 ∨ W = 0x3000 ∨ W = 0x3080) (s : List Char) (h : ∀ c ∈ s, Plain c ∨ c.toNat / 128 * 128 = W) :
    (encode s).length ≤ s.length + 1 := by
  rw [encode_eq]
  have hin : ∀ (c : Char), (Plain c ∨ c.toNat / 128 * 128 = W) → (encodeChar { offs := W, auxOffs := 0, is21Bit := false } c.toNat).1.length = 1 ∧
      (encodeChar { offs := W, auxOffs := 0, is21Bit := false } c.toNat).2 = { offs := W, auxOffs := 0, is21Bit := false } := by
    intro c hc
    rcases hc with hc | hc
    · have h1 := plain_latin hc
      have h2 := latin_lt h1
      rcases short_cases { offs := W, auxOffs := 0, is21Bit := false } (show c.toNat < 0x2000 by omega) with ⟨⟨b, e⟩, _⟩ | ⟨_, h3, _⟩
      · rw [e]; exact ⟨rfl, rfl⟩
      · exact absurd ⟨rfl, h1⟩ h3
    · by_cases hk : c.toNat < 0x2000
      · rcases short_cases { offs := W, auxOffs := 0, is21Bit := false } hk with ⟨⟨b, e⟩, _⟩ | ⟨_, _, _, h3⟩
        · rw [e]; exact ⟨rfl, rfl⟩
        · exact absurd ⟨rfl, hc⟩ h3
      · rcases kana_cases { offs := W, auxOffs := 0, is21Bit := false } (cp := c.toNat) (by omega) with ⟨⟨b, e⟩, _⟩ | ⟨_, _, h3⟩
        · rw [e]; exact ⟨rfl, rfl⟩
        · exact absurd ⟨rfl, hc⟩ h3
  have hout : ∀ (c : Char), (Plain c ∨ c.toNat / 128 * 128 = W) → (encodeChar State.init c.toNat).1.length = 1 ∧ (encodeChar State.init c.toNat).2 = State.init ∨
      (encodeChar State.init c.toNat).1.length = 2 ∧ (encodeChar State.init c.toNat).2 = { offs := W, auxOffs := 0, is21Bit := false } := by
    intro c hc
    have h0 : getAuxOffset State.init.offs = 0 := by decide
    rcases hc with hc | hc
    · have h2 := latin_lt (plain_latin hc)
      rcases short_cases State.init (show c.toNat < 0x2000 by omega) with ⟨⟨b, e⟩, _⟩ | ⟨_, _, _, h3⟩
      · rw [e]; exact .inl ⟨rfl, rfl⟩
      · exact absurd ⟨rfl, by simp only [State.init]; omega⟩ h3
    · by_cases hk : c.toNat < 0x2000
      · rcases short_cases State.init hk with ⟨⟨b, e⟩, _⟩ | ⟨⟨a, b, e⟩, _⟩
        · rw [e]; exact .inl ⟨rfl, rfl⟩
        · rw [e, h0, if_neg (by omega), hc]; exact .inr ⟨rfl, rfl⟩
      · rcases kana_cases State.init (cp := c.toNat) (by omega) with ⟨⟨b, e⟩, _⟩ | ⟨⟨a, b, e⟩, _⟩
        · rw [e]; exact .inl ⟨rfl, rfl⟩
        · rw [e, h0, hc]; exact .inr ⟨rfl, rfl⟩
  have h1 : ∀ (s : List Char), (∀ c ∈ s, Plain c ∨ c.toNat / 128 * 128 = W) → (encFrom { offs := W, auxOffs := 0, is21Bit := false } s).length = s.length := by
    intro s
    induction s with
    | nil => intro _; rfl
    | cons c s ih =>
      intro h
      obtain ⟨e1, e2⟩ := hin c (h c (.head _))
      rw [encFrom_cons, e2, List.length_append, e1, ih (fun c hc => h c (.tail _ hc)), List.length_cons]
      omega
  induction s with
  | nil => simp [encFrom]
  | cons c s ih =>
    have ht : ∀ c ∈ s, Plain c ∨ c.toNat / 128 * 128 = W := fun c hc => h c (.tail _ hc)
    rw [encFrom_cons, List.length_append, List.length_cons]
    rcases hout c (h c (.head _)) with ⟨e1, e2⟩ | ⟨e1, e2⟩
    · rw [e1, e2]; have := ih ht; omega
    · rw [e1, e2, h1 s ht]; omega

example : (encode "Ελληνικά words and 123".toList).length = 23 ∧ "Ελληνικά words and 123".toList.length = 22 := by decide +kernel

/-! ## C65 -/

/-- The alphabets for which utfc.go:53-76 names the 64 code points that stay reachable by one byte: the first code point of the alphabet and the first one
of the 64. -/
def alphabets : List (Nat × Nat) := [
  (0x0080, 0x00C0), (0x0380, 0x0391), (0x0400, 0x0410), (0x0580, 0x05BE), (0x0530, 0x0531), (0x0600, 0x060B), (0x0900, 0x090D),
  (0x0980, 0x098F), (0x0A00, 0x0A02), (0x0A80, 0x0A8F), (0x0B00, 0x0B0F), (0x0B80, 0x0B8E), (0x0C80, 0x0C8E), (0x0D00, 0x0D0E),
  (0x0D80, 0x0D9B), (0x0E00, 0x0E01), (0x0E80, 0x0E81), (0x0F00, 0x0F40), (0x0F80, 0x0F90), (0x1080, 0x10B0), (0x3000, 0x3040)]

/-- The number of bytes by which the text `t` makes the encoding of `s` longer. -/
def cost (s t : List Char) : Nat := (encode (s ++ t)).length - (encode s).length

/-- The claim about one alphabet with first code point `lo`, whose 64 frequent code points begin with `start`: if `c` of this alphabet made it the current
one (it took two bytes), and then `d` of another alphabet took two bytes, with texts `r` and `t` of one byte for each character after them, then each of the
64 code points takes one byte. -/
def Reachable (lo start : Nat) : Prop :=
  ∀ (p r t : List Char) (c d e : Char), lo ≤ c.toNat ∧ c.toNat < lo + 128 → cost p [c] = 2 → cost (p ++ [c]) r = r.length →
    d.toNat < 0x2000 → cost (p ++ [c] ++ r) [d] = 2 → cost (p ++ [c] ++ r ++ [d]) t = t.length →
    start ≤ e.toNat ∧ e.toNat < start + 64 → cost (p ++ [c] ++ r ++ [d] ++ t) [e] = 1

theorem cost_eq (s t : List Char) : cost s t = (encFrom (run State.init s) t).length := by
  rw [cost, encode_eq, encode_eq, encFrom_append, List.length_append]
  omega

theorem run_append (st : State) (p q : List Char) : run st (p ++ q) = run (run st p) q := by
  induction p generalizing st with
  | nil => rfl
  | cons c p ih => exact ih _

/-- A character of one byte leaves the state. -/
theorem one_byte {st st' : State} {cp : Nat} {bs : List UInt8} (h : Code st cp bs st') (h1 : bs.length = 1) : st' = st := by
  cases h with
  | aux | win | winLong => rfl
  | extra | long | short => repeat' split at h1
                            all_goals simp at h1

theorem one_bytes : ∀ {r : List Char} {st : State}, (encFrom st r).length = r.length → run st r = st
  | [], _, _ => rfl
  | c :: r, st, h => by
    have h1 := (enc_char st c).length
    have h2 : ∀ (r : List Char) (st : State), r.length ≤ (encFrom st r).length := by
      intro r
      induction r with
      | nil => intro st; simp
      | cons c r ih =>
        intro st
        have h1 := (enc_char st c).length
        have := ih (encodeChar st c.toNat).2
        rw [encFrom_cons, List.length_append, List.length_cons]
        omega
    have h3 := h2 r (encodeChar st c.toNat).2
    rw [encFrom_cons, List.length_append, List.length_cons] at h
    have h4 := one_byte (enc_char st c) (by omega)
    rw [h4] at h h3
    rw [run, h4]
    exact one_bytes (by omega)

/-- **C65** (part): the claim holds for every alphabet that begins at a multiple of 128 and is not Latin: the 64 code points are those of the table, and for
alphabets that are not in the table the first 64. -/
theorem C65_reachable_partial (lo : Nat) (h128 : lo % 128 = 0) (hlo : 0x300 ≤ lo ∧ lo < 0x2000 ∨ lo = 0x3000 ∨ lo = 0x3080) :
    Reachable lo (((alphabets.find? (·.1 == lo)).map (·.2)).getD lo) := by
  have ha : alphabets = auxOffset := rfl
  rw [ha, ← getAuxOffset]
  intro p r t c d e hc h1 h2 hd h3 h4 he
  simp only [cost_eq, run_append] at *
  generalize run State.init p = st at *
  have hs : ∀ (st : State) (x : Char), run st [x] = (encodeChar st x.toNat).2 ∧ encFrom st [x] = (encodeChar st x.toNat).1 := fun st x => ⟨rfl, List.append_nil _⟩
  simp only [hs] at *
  have hst : (encodeChar st c.toNat).2 = { offs := lo, auxOffs := getAuxOffset st.offs, is21Bit := false } := by
    by_cases hk : c.toNat < 0x2000
    · rcases short_cases st hk with ⟨⟨b, e⟩, _⟩ | ⟨⟨a, b, e⟩, _⟩
      · rw [e] at h1; simp at h1
      · rw [e]; simp only [State.mk.injEq, and_true]; rw [if_neg (by omega)]; omega
    · rcases kana_cases st (cp := c.toNat) (by omega) with ⟨⟨b, e⟩, _⟩ | ⟨⟨a, b, e⟩, _⟩
      · rw [e] at h1; simp at h1
      · rw [e]; simp only [State.mk.injEq, and_true]; omega
  rw [hst] at h2 h3 h4 ⊢
  rw [one_bytes h2] at h3 h4 ⊢
  have hst2 : (encodeChar { offs := lo, auxOffs := getAuxOffset st.offs, is21Bit := false } d.toNat).2.auxOffs = getAuxOffset lo := by
    rcases short_cases { offs := lo, auxOffs := getAuxOffset st.offs, is21Bit := false } hd with ⟨⟨b, e⟩, _⟩ | ⟨⟨a, b, e⟩, _⟩
    · rw [e] at h3; simp at h3
    · rw [e]
  rw [one_bytes h4]
  generalize (encodeChar { offs := lo, auxOffs := getAuxOffset st.offs, is21Bit := false } d.toNat).2 = st2 at hst2 ⊢
  have hne : getAuxOffset lo ≠ 0 := by
    unfold getAuxOffset
    cases hf : auxOffset.find? (fun p => p.1 == lo) with
    | none => simp only [Option.map_none, Option.getD_none]; omega
    | some q =>
      have := List.mem_of_find?_eq_some hf
      have hall : ∀ q ∈ auxOffset, q.2 ≠ 0 := by decide
      exact hall q this
  unfold encodeChar
  rw [if_neg (by rw [hst2]; exact fun h => hne h.1), if_pos (by rw [hst2]; omega)]
  rfl

/-- **C65** is false for two of the listed alphabets, and true for the others: Armenian (listed at 0x0530, which is no multiple of 128) and Latin-1 Supplement
(listed at 0x0080, but texts below 0x0300 belong to the alphabet 0). -/
theorem C65_false_for_two : ∀ a ∈ alphabets, Reachable a.1 a.2 ↔ a.1 ≠ 0x0080 ∧ a.1 ≠ 0x0530 := by
  intro a ha
  constructor
  · intro h
    have h1 : ¬ Reachable 0x0080 0x00C0 := fun h => absurd (h [] [] [] 'é' 'α' 'é' (by decide) (by decide) (by decide) (by decide) (by decide) (by decide) (by decide)) (by decide)
    have h2 : ¬ Reachable 0x0530 0x0531 := fun h => absurd (h [] [] [] 'ա' 'α' 'ա' (by decide) (by decide) (by decide) (by decide) (by decide) (by decide) (by decide)) (by decide)
    refine ⟨fun e => ?_, fun e => ?_⟩
    · have : ∀ a ∈ alphabets, a.1 = 0x0080 → a = (0x0080, 0x00C0) := by decide
      rw [this a ha e] at h; exact h1 h
    · have : ∀ a ∈ alphabets, a.1 = 0x0530 → a = (0x0530, 0x0531) := by decide
      rw [this a ha e] at h; exact h2 h
  · rintro ⟨h1, h2⟩
    have : ∀ a ∈ alphabets, a.1 ≠ 0x0080 → a.1 ≠ 0x0530 → a.1 % 128 = 0 ∧ (0x300 ≤ a.1 ∧ a.1 < 0x2000 ∨ a.1 = 0x3000 ∨ a.1 = 0x3080) ∧
      ((alphabets.find? (·.1 == a.1)).map (·.2)).getD a.1 = a.2 := by decide
    obtain ⟨h3, h4, h5⟩ := this a ha h1 h2
    have := C65_reachable_partial a.1 h3 h4
    rwa [h5] at this

example : cost "Ελ".toList "я".toList = 2 ∧ cost "Ελя".toList "λ".toList = 1 ∧ cost "ա".toList "α".toList = 2 ∧ cost "աα".toList "ա".toList = 2 := by decide +kernel

end Dawg.Props
