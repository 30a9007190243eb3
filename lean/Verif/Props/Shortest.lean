import Verif.Props.Compact
/-! # C97: is the encoding a shortest one? -/
namespace Dawg.Props
open Dawg Dawg.Utfc
attribute [-simp] List.length_flatten

/-- The full claim C97: no byte array that decodes to a string is shorter than the encoding of the string. -/
def C97_statement : Prop := ∀ (s : List Char) (bs : List UInt8), decode bs = .ok s → (encode s).length ≤ bs.length

/-- Kanji and Hiragana in turn, `n + 1` times. -/
def kanjiKana (n : Nat) : List Char := (List.replicate n [Char.ofNat 0x6F22, Char.ofNat 0x3042]).flatten ++ [Char.ofNat 0x6F22]

/-- A shorter form of it: only the first character is coded by three bytes, all others by two. -/
def kanjiKanaShort (n : Nat) : List UInt8 := [0xA0, 0x49, 0x22] ++ (List.replicate n [0x0A, 0x42, 0x49, 0x22]).flatten

theorem kanjiKana_decodes (n : Nat) : decode (kanjiKanaShort n) = .ok (kanjiKana n) := by
  have hloop : ∀ n fuel, 4 * n ≤ fuel → decodeLoop fuel ⟨0, 0, true⟩ (List.replicate n [0x0A, 0x42, 0x49, 0x22]).flatten =
      .ok (List.replicate n [Char.ofNat 0x3042, Char.ofNat 0x6F22]).flatten := by
    intro n
    induction n with
    | zero => intro fuel _; cases fuel <;> rfl
    | succ n ih =>
      intro fuel hf
      obtain ⟨m, rfl⟩ : ∃ m, fuel = m + 2 := ⟨fuel - 2, by omega⟩
      rw [List.replicate_succ, List.flatten_cons, List.replicate_succ, List.flatten_cons]
      have h1 : ∀ r, decodeChar ⟨0, 0, true⟩ (0x0A :: 0x42 :: r) = .ok (Char.ofNat 0x3042, ⟨0, 0, true⟩, r) := fun _ => rfl
      have h2 : ∀ r, decodeChar ⟨0, 0, true⟩ (0x49 :: 0x22 :: r) = .ok (Char.ofNat 0x6F22, ⟨0, 0, true⟩, r) := fun _ => rfl
      simp only [List.cons_append, List.nil_append]
      rw [decodeLoop, h1, ok_bind]
      simp only
      rw [decodeLoop, h2, ok_bind]
      simp only
      rw [ih m (by omega)]
      rfl
      all_goals simp
  unfold decode kanjiKanaShort kanjiKana
  simp only [List.cons_append, List.nil_append, List.length_cons]
  rw [decodeLoop]
  · have h0 : ∀ r, decodeChar State.init (0xA0 :: 0x49 :: 0x22 :: r) = .ok (Char.ofNat 0x6F22, ⟨0, 0, true⟩, r) :=
      fun r => decode_code (st := State.init) (c := Char.ofNat 0x6F22) (.long 0 0x49 0x22 (by decide) (by decide) (by decide) (by decide)) (by decide) r
    rw [h0, ok_bind]
    simp only
    rw [hloop n _ (by simp only [List.length_flatten, List.map_replicate, List.sum_replicate_nat, List.length_cons, List.length_nil]; omega), ok_bind]
    simp only [pure_eq_ok, Except.ok.injEq]
    clear hloop h0
    induction n with
    | zero => rfl
    | succ n ih =>
      rw [List.replicate_succ, List.flatten_cons, List.replicate_succ, List.flatten_cons]
      simp only [List.cons_append, List.nil_append, List.cons.injEq, true_and]
      exact ih
  · simp

theorem kanjiKana_length (n : Nat) : (encode (kanjiKana n)).length = 5 * n + 3 ∧ (kanjiKanaShort n).length = 4 * n + 3 := by
  constructor
  · rw [encode_eq]
    unfold kanjiKana
    have h : ∀ n (st : State), (st = State.init ∨ st = ⟨0x3000, 0, false⟩) →
        (encFrom st ((List.replicate n [Char.ofNat 0x6F22, Char.ofNat 0x3042]).flatten ++ [Char.ofNat 0x6F22])).length = 5 * n + 3 := by
      intro n
      induction n with
      | zero => rintro st (rfl | rfl) <;> decide +kernel
      | succ n ih =>
        intro st hst
        rw [List.replicate_succ, List.flatten_cons]
        simp only [List.cons_append, List.nil_append]
        rw [encFrom_cons, encFrom_cons, List.length_append, List.length_append]
        have e1 : ∀ st : State, (st = State.init ∨ st = ⟨0x3000, 0, false⟩) → (encodeChar st (Char.ofNat 0x6F22).toNat).1.length = 3 ∧
            ((encodeChar (encodeChar st (Char.ofNat 0x6F22).toNat).2 (Char.ofNat 0x3042).toNat).1.length = 2 ∧
            (encodeChar (encodeChar st (Char.ofNat 0x6F22).toNat).2 (Char.ofNat 0x3042).toNat).2 = ⟨0x3000, 0, false⟩) := by
          rintro st (rfl | rfl) <;> decide +kernel
        obtain ⟨e2, e3, e4⟩ := e1 st hst
        rw [e2, e3, e4, ih _ (.inr rfl)]
        omega
    exact h n _ (.inl rfl)
  · unfold kanjiKanaShort
    simp only [List.length_append, List.length_flatten, List.map_replicate, List.sum_replicate_nat, List.length_cons, List.length_nil]
    omega

/-- **C97 is false**, and what is wasted has no bound: for text in which Kanji and Hiragana alternate (as is common in Japanese), the encoder switches its alphabet at
every character, although both kinds of characters can be coded by two bytes within the alphabet of the Kanji: 5 bytes for a pair instead of 4. -/
theorem C97_shortest_false : ¬ C97_statement ∧ ∀ n : Nat, ∃ (s : List Char) (bs : List UInt8), decode bs = .ok s ∧ bs.length + n = (encode s).length := by
  have key : ∀ n : Nat, ∃ (s : List Char) (bs : List UInt8), decode bs = .ok s ∧ bs.length + n = (encode s).length := by
    intro n
    obtain ⟨h1, h2⟩ := kanjiKana_length n
    exact ⟨kanjiKana n, kanjiKanaShort n, kanjiKana_decodes n, by omega⟩
  refine ⟨fun h => ?_, key⟩
  obtain ⟨s, bs, h1, h2⟩ := key 1
  have := h s bs h1
  omega

/-- Also without Japanese: after a Cyrillic letter by one byte, changing the alphabet at once would be better when Greek letters follow. -/
example : decode [0x84, 0x30, 0x83, 0xB1, 0xE1, 0x06] = .ok "аαбΆ".toList ∧ (encode "аαбΆ".toList).length = 7 := by decide +kernel

/-! ## One alphabet besides ASCII -/

/-- ASCII, or in the alphabet with the first code point `X`. -/
def InAlphabet (X : Nat) (c : Char) : Prop := c.toNat < 128 ∨ c.toNat / 128 * 128 = X

/-- The steps of the decoder: how a character `cp` can be read in a state, with a lower bound for the number of bytes and the state afterwards. -/
inductive Reading (st : State) (cp : Nat) : Nat → State → Prop
  | aux (x : Nat) : x < 64 → auxChar st x = some cp → Reading st cp 1 st
  | win (x : Nat) : x < 128 → st.is21Bit = false → cp = st.offs ||| x → Reading st cp 1 st
  | extra : inRanges cp rangesExtra = true → Reading st cp 2 (stExtra st cp)
  | winLong : st.is21Bit = true → 9728 ≤ cp → Reading st cp 2 st
  | long : 9728 ≤ cp → Reading st cp 2 (stLong st cp)
  | short : cp < 8192 → Reading st cp 2 (stShort st cp)

theorem decodeRanges_in {cp : Nat} : ∀ {rs : List (Nat × Nat)} {x : Nat}, decodeRanges x rs = some cp → inRanges cp rs = true
  | [], _, h => by cases h
  | r :: rs, x, h => by
    rw [decodeRanges] at h
    rw [inRanges]
    by_cases hx : x < r.2 - r.1
    · rw [if_pos hx] at h
      cases h
      rw [if_pos (by omega)]
    · rw [if_neg hx] at h
      rw [decodeRanges_in h]
      split <;> rfl

theorem runeOf_eq {n : Nat} {c : Char} (h : runeOf (some n) = c) (hc : c.toNat ≠ 65533) : n = c.toNat := by
  rcases @runeOf_toNat n with h1 | h1
  · rw [← h, h1]
  · rw [h] at h1; exact absurd h1 hc

theorem takeIf_length {b : Bool} {buf buf' : List UInt8} {x : Nat} (h : takeIf b buf = .ok (x, buf')) :
    buf'.length + (if b then 1 else 0) = buf.length ∧ x < 256 := by
  cases b with
  | false => cases h; exact ⟨rfl, by omega⟩
  | true =>
    cases buf with
    | nil => cases h
    | cons a buf => cases h; exact ⟨rfl, a.toNat_lt⟩

theorem reading_rest {st st' : State} {zm b : Nat} {c : Char} {buf buf' : List UInt8} (hb : b < 256) (h : decodeRest st zm b buf = .ok (c, st', buf')) (hc : c.toNat ≠ 65533) :
    ∃ n, Reading st c.toNat n st' ∧ n + buf'.length ≤ buf.length + 1 + (if zm = 190 ∨ zm = 191 then 1 else 0) := by
  unfold decodeRest at h
  by_cases h1 : b &&& markerAux = markerAux
  · rw [if_pos h1] at h
    simp only [pure_eq_ok, Except.ok.injEq, Prod.mk.injEq] at h
    obtain ⟨e1, rfl, rfl⟩ := h
    have hge := (cls_aux b hb).1 h1
    have hx := xor_aux (b - 192) (by omega)
    rw [show 192 + (b - 192) = b by omega] at hx
    rw [hx] at e1
    refine ⟨1, .aux (b - 192) (by omega) ?_, by omega⟩
    unfold auxChar
    by_cases ha : st.auxOffs = 0
    · rw [if_pos ha] at e1 ⊢
      cases hd : decodeRanges (b - 192) rangesLatin with
      | none => rw [hd] at e1; rw [← e1] at hc; exact absurd rfl hc
      | some x => rw [hd] at e1; rw [runeOf_eq e1 hc]
    · rw [if_neg ha] at e1 ⊢
      rw [runeOf_eq e1 hc]
  · rw [if_neg h1] at h
    have hlt : b < 192 := by
      rcases Nat.lt_or_ge b 192 with h | h
      · exact h
      · exact absurd ((cls_aux b hb).2 h) h1
    by_cases h2 : b &&& markerExtra = markerExtra ∧ b ^^^ markerExtra ≠ 0
    · rw [if_pos h2, bind_eq_ok] at h
      obtain ⟨⟨lo, buf1⟩, e1, e2⟩ := h
      simp only [pure_eq_ok, Except.ok.injEq, Prod.mk.injEq] at e2
      obtain ⟨e3, e4, rfl⟩ := e2
      obtain ⟨l1, l2⟩ := takeIf_length e1
      cases hd : decodeRanges (((b ^^^ markerExtra) - 1) <<< 8 ||| lo) rangesExtra with
      | none => rw [hd] at e3; rw [← e3] at hc; exact absurd rfl hc
      | some x =>
        rw [hd] at e3 e4
        have hx := runeOf_eq e3 hc
        have hin := decodeRanges_in hd
        have hst : st' = stExtra st c.toNat := by
          rw [← e4, hx]
          rfl
        rw [hst]
        rw [hx] at hin
        refine ⟨2, .extra hin, ?_⟩
        unfold marker10 at l1
        by_cases hz : zm = 190
        · rw [if_pos (.inl hz)]; omega
        · rw [if_pos (by simpa using hz)] at l1; omega
    · rw [if_neg h2] at h
      have hlt2 : b < 177 := by
        rcases Nat.lt_or_ge b 177 with h | h
        · exact h
        · exact absurd ((cls_extra b hlt).2 h) h2
      by_cases h3 : b &&& marker21Bit = marker21Bit
      · rw [if_pos h3, bind_eq_ok] at h
        obtain ⟨⟨hi, buf1⟩, e1, e2⟩ := h
        rw [bind_eq_ok] at e2
        obtain ⟨⟨lo, buf2⟩, e3, e4⟩ := e2
        simp only [pure_eq_ok, Except.ok.injEq, Prod.mk.injEq] at e4
        obtain ⟨e5, e6, rfl⟩ := e4
        obtain ⟨l1, _⟩ := takeIf_length e1
        obtain ⟨l2, _⟩ := takeIf_length e3
        have hx := runeOf_eq e5 hc
        unfold min21BitCp at hx
        have hst : st' = stLong st c.toNat := by
          rw [← e6, ← hx]
          unfold stLong
          rw [Nat.add_sub_cancel]
        rw [hst]
        refine ⟨2, .long (by omega), ?_⟩
        unfold marker10 marker11 at l1
        unfold marker01 marker11 at l2
        by_cases hz : zm = 190 ∨ zm = 191
        · rw [if_pos hz]; omega
        · rw [if_pos (by simpa [not_or] using hz)] at l1; omega
      · rw [if_neg h3] at h
        have hlt3 : b < 160 := by
          rcases Nat.lt_or_ge b 160 with h | h
          · exact h
          · exact absurd ((cls_long b hlt2).2 h) h3
        by_cases h4 : b &&& marker13Bit = marker13Bit
        · rw [if_pos h4, bind_eq_ok] at h
          obtain ⟨⟨hi, buf1⟩, e1, e2⟩ := h
          simp only [pure_eq_ok, Except.ok.injEq, Prod.mk.injEq] at e2
          obtain ⟨e5, e6, rfl⟩ := e2
          obtain ⟨l1, l3⟩ := takeIf_length e1
          have hx := runeOf_eq e5 hc
          have hge := (cls_short b hlt3).1 h4
          have hxor := xor_short (b - 128) (by omega)
          rw [show 128 + (b - 128) = b by omega] at hxor
          have hst : st' = stShort st c.toNat := by
            rw [← e6, ← hx]
            rfl
          rw [hst]
          refine ⟨2, .short ?_, ?_⟩
          · rw [← hx, hxor, or_shift8 l3]; omega
          · unfold marker10 at l1
            by_cases hz : zm = 190
            · rw [if_pos (.inl hz)]; omega
            · rw [if_pos (by simpa using hz)] at l1; omega
        · rw [if_neg h4] at h
          have hlt4 : b < 128 := by
            rcases Nat.lt_or_ge b 128 with h | h
            · exact h
            · exact absurd ((cls_short b hlt3).2 h) h4
          by_cases h5 : st.is21Bit = true
          · rw [if_pos h5, bind_eq_ok] at h
            obtain ⟨⟨hi, buf1⟩, e1, e2⟩ := h
            simp only [pure_eq_ok, Except.ok.injEq, Prod.mk.injEq] at e2
            obtain ⟨e5, rfl, rfl⟩ := e2
            obtain ⟨l1, l3⟩ := takeIf_length e1
            have hx := runeOf_eq e5 hc
            unfold min21BitCp at hx
            refine ⟨2, .winLong h5 (by omega), ?_⟩
            unfold marker10 at l1
            by_cases hz : zm = 190
            · rw [if_pos (.inl hz)]; omega
            · rw [if_pos (by simpa using hz)] at l1; omega
          · rw [if_neg h5] at h
            simp only [pure_eq_ok, Except.ok.injEq, Prod.mk.injEq] at h
            obtain ⟨e1, rfl, rfl⟩ := h
            exact ⟨1, .win b hlt4 (by simpa using h5) (runeOf_eq e1 hc).symm, by omega⟩

theorem reading {st st' : State} {c : Char} {buf buf' : List UInt8} (h : decodeChar st buf = .ok (c, st', buf')) (hc : c.toNat ≠ 65533) :
    ∃ n, Reading st c.toNat n st' ∧ n + buf'.length ≤ buf.length := by
  cases buf with
  | nil => cases h
  | cons a buf =>
    have ha : byte a.toNat = a := by unfold byte; simp
    have hlt : a.toNat < 256 := a.toNat_lt
    rw [← ha] at h
    by_cases h1 : a.toNat < 187 ∨ 191 < a.toNat
    · rw [decodeChar_plain hlt h1] at h
      obtain ⟨n, h2, h3⟩ := reading_rest hlt h hc
      exact ⟨n, h2, by simpa using h3⟩
    · by_cases h6 : a.toNat = 187 ∨ a.toNat = 188
      · rw [decodeChar_zero h6] at h
        obtain ⟨n, h2, h3⟩ := reading_rest (by omega) h hc
        rw [if_neg (by omega)] at h3
        exact ⟨n, h2, by simpa using h3⟩
      · have h7 : a.toNat = 189 ∨ a.toNat = 190 ∨ a.toNat = 191 := by omega
        cases buf with
        | nil =>
          rw [decodeChar_rest] at h
          have hz1 : decide (a.toNat ≥ marker0 ∧ a.toNat ≤ marker11) = true := decide_eq_true (by unfold marker0 marker11; omega)
          have hz2 : decide (a.toNat ≠ marker0 ∧ a.toNat ≠ marker00) = true := decide_eq_true (by unfold marker0 marker00; omega)
          simp only [ha, take1, ok_bind, takeIf, hz1, hz2, if_true] at h
          cases h
        | cons d buf =>
          have hd : byte d.toNat = d := by unfold byte; simp
          have hltd : d.toNat < 256 := d.toNat_lt
          rw [← hd, decodeChar_two hltd h7] at h
          obtain ⟨n, h2, h3⟩ := reading_rest hltd h hc
          refine ⟨n, h2, ?_⟩
          simp only [List.length_cons]
          have : (if a.toNat = 190 ∨ a.toNat = 191 then 1 else 0) ≤ 1 := by split <;> omega
          omega

/-- The alphabets that the theorem is about. -/
def Alphabet (X : Nat) : Prop := X % 128 = 0 ∧ (0x300 ≤ X ∧ X < 0x2000 ∨ X = 0x3000 ∨ X = 0x3080)

theorem aux_within {X : Nat} (h : Alphabet X) : X ≤ getAuxOffset X ∧ getAuxOffset X + 63 < X + 128 := by
  have key : ∀ k < 98, 6 ≤ k → k * 128 ≤ getAuxOffset (k * 128) ∧ getAuxOffset (k * 128) + 63 < k * 128 + 128 := by decide +kernel
  have := key (X / 128) (by unfold Alphabet at h; omega) (by unfold Alphabet at h; omega)
  rwa [show X / 128 * 128 = X by unfold Alphabet at h; omega] at this

theorem aux_zero : getAuxOffset 0 = 0 := by decide

/-- A code of one byte exists. -/
def OneByte (st : State) (cp : Nat) : Prop :=
  st.auxOffs = 0 ∧ inRanges cp rangesLatin = true ∨ st.auxOffs ≠ 0 ∧ cp ≥ st.auxOffs ∧ cp ≤ st.auxOffs + 0x3F ∨ st.is21Bit = false ∧ cp / 128 * 128 = st.offs

/-- The state after the two bytes that change the alphabet. -/
def changed (X : Nat) (st : State) (cp : Nat) : State := ⟨if cp < 128 then 0 else X, getAuxOffset st.offs, false⟩

theorem enc_alphabet {X : Nat} (hX : Alphabet X) (st : State) {c : Char} (hc : InAlphabet X c) :
    OneByte st c.toNat ∧ (encodeChar st c.toNat).1.length = 1 ∧ (encodeChar st c.toNat).2 = st ∨
    ¬ OneByte st c.toNat ∧ (encodeChar st c.toNat).1.length = 2 ∧ (encodeChar st c.toNat).2 = changed X st c.toNat := by
  unfold InAlphabet at hc
  unfold Alphabet at hX
  by_cases hk : c.toNat < 0x2000
  · rcases short_cases st hk with ⟨⟨b, e⟩, h⟩ | ⟨⟨a, b, e⟩, h1, h2, h3⟩
    · rw [e]; exact .inl ⟨h, rfl, rfl⟩
    · rw [e]
      refine .inr ⟨?_, rfl, ?_⟩
      · rintro (h | h | h)
        · exact h1 h
        · exact h2 h
        · exact h3 h
      · unfold changed
        by_cases h128 : c.toNat < 128
        · rw [if_pos h128, if_pos (by omega)]
        · rw [if_neg h128, if_neg (by omega), show c.toNat / 128 * 128 = X by omega]
  · rcases kana_cases st (cp := c.toNat) (by omega) with ⟨⟨b, e⟩, h⟩ | ⟨⟨a, b, e⟩, h2, h3⟩
    · rw [e]; exact .inl ⟨.inr h, rfl, rfl⟩
    · rw [e]
      refine .inr ⟨?_, rfl, ?_⟩
      · rintro (h | h | h)
        · have := latin_lt h.2; omega
        · exact h2 h
        · exact h3 h
      · unfold changed
        rw [if_neg (by omega), show c.toNat / 128 * 128 = X by omega]

/-- What the decoder can do with a character of the alphabet. -/
theorem dec_alphabet {X : Nat} (hX : Alphabet X) {st st' : State} {c : Char} {n : Nat} (hc : InAlphabet X c) (hst : st.offs % 128 = 0) (h : Reading st c.toNat n st') :
    1 ≤ n ∧ OneByte st c.toNat ∧ st' = st ∨ 2 ≤ n ∧ st' = changed X st c.toNat ∨
    2 ≤ n ∧ 128 ≤ c.toNat ∧ (st.is21Bit = true ∧ st' = st ∨ st' = ⟨0, st.offs, true⟩) := by
  unfold InAlphabet at hc
  unfold Alphabet at hX
  cases h with
  | aux x hx hax =>
    refine .inl ⟨by omega, ?_, rfl⟩
    unfold auxChar at hax
    by_cases ha : st.auxOffs = 0
    · rw [if_pos ha] at hax
      exact .inl ⟨ha, decodeRanges_in hax⟩
    · rw [if_neg ha] at hax
      simp only [Option.some.injEq] at hax
      exact .inr (.inl ⟨ha, by omega, by omega⟩)
  | win x hx h21 he =>
    refine .inl ⟨by omega, .inr (.inr ⟨h21, ?_⟩), rfl⟩
    rw [or_low 7 (by omega) (by omega)] at he
    omega
  | extra hin =>
    have hge := extra_ge hin
    have h1 : ¬ c.toNat < 128 := by omega
    have h2 : c.toNat / 128 * 128 = X := by omega
    refine .inr (.inl ⟨by omega, ?_⟩)
    have hk : inHK c.toNat = true := by simp only [inHK, decide_eq_true_eq]; omega
    have e : c.toNat &&& offsMask13Bit = c.toNat / 128 * 128 := and_mask13 (by omega)
    unfold stExtra changed
    rw [if_pos hk, if_neg h1, e, h2]
  | winLong h21 hge => exact .inr (.inr ⟨by omega, by omega, .inl ⟨h21, rfl⟩⟩)
  | long hge =>
    refine .inr (.inr ⟨by omega, by omega, .inr ?_⟩)
    have e : (c.toNat - 9728) &&& offsMask21Bit = (c.toNat - 9728) / 32768 * 32768 := and_mask21 (by omega)
    unfold stLong
    rw [e, show (c.toNat - 9728) / 32768 * 32768 = 0 by omega]
  | short hlt =>
    refine .inr (.inl ⟨by omega, ?_⟩)
    have e : c.toNat &&& offsMask13Bit = c.toNat / 128 * 128 := and_mask13 (by omega)
    unfold stShort changed maxLatinCp
    by_cases h128 : c.toNat < 128
    · rw [if_pos h128, if_pos (by omega)]
    · rw [if_neg h128, if_neg (by omega), e, show c.toNat / 128 * 128 = X by omega]

/-- The decoder is in ASCII. -/
def Low (X : Nat) (t : State) : Prop := t.offs = 0 ∧ t.is21Bit = false ∧ (t.auxOffs = 0 ∨ t.auxOffs = getAuxOffset X)

/-- The decoder is in the alphabet, or in the long mode. -/
def High (X : Nat) (t : State) : Prop :=
  t.offs = X ∧ t.is21Bit = false ∧ (t.auxOffs = 0 ∨ t.auxOffs = getAuxOffset X) ∨ t.offs = 0 ∧ t.is21Bit = true ∧ (t.auxOffs = 0 ∨ t.auxOffs = X)

/-- The states of the encoder and of a decoder that reads another encoding of the same string, and how many bytes the encoder may be behind. -/
inductive Race (X : Nat) : State → State → Nat → Prop
  | start {t} : getAuxOffset X ≠ 0x410 → t = State.init ∨ t = ⟨0, 0, false⟩ → Race X State.init t 0
  | low {t} : Low X t → Race X ⟨0, getAuxOffset X, false⟩ t 0
  | high {t} : High X t → Race X ⟨X, 0, false⟩ t 0
  | lowHigh {t} : High X t → Race X ⟨0, getAuxOffset X, false⟩ t 1
  | highLow {t} : Low X t → Race X ⟨X, 0, false⟩ t 1

theorem Race.offs {X : Nat} (hX : Alphabet X) {s t k} (h : Race X s t k) : t.offs % 128 = 0 := by
  unfold Alphabet at hX
  cases h with
  | start _ h => rcases h with rfl | rfl <;> rfl
  | low h | highLow h => rw [h.1]
  | high h | lowHigh h =>
    rcases h with ⟨h, _⟩ | ⟨h, _⟩
    · rw [h]; exact hX.1
    · rw [h]

theorem low_ascii {st : State} {cp : Nat} (h0 : st.offs = 0) (h1 : st.is21Bit = false) (h : cp < 128) : OneByte st cp := .inr (.inr ⟨h1, by omega⟩)

theorem win_own {X : Nat} {st : State} {cp : Nat} (h0 : st.offs = X) (h1 : st.is21Bit = false) (h : cp / 128 * 128 = X) : OneByte st cp := .inr (.inr ⟨h1, by omega⟩)

/-- The changes of the alphabet keep the classes. -/
theorem Low.changed {X : Nat} {t : State} {cp : Nat} (h : Low X t) : cp < 128 ∧ changed X t cp = ⟨0, 0, false⟩ ∨ 128 ≤ cp ∧ changed X t cp = ⟨X, 0, false⟩ := by
  unfold Props.changed
  rw [h.1, aux_zero]
  by_cases hc : cp < 128
  · rw [if_pos hc]; exact .inl ⟨hc, rfl⟩
  · rw [if_neg hc]; exact .inr ⟨by omega, rfl⟩

theorem High.changed {X : Nat} {t : State} {cp : Nat} (h : High X t) :
    cp < 128 ∧ Low X (changed X t cp) ∨ 128 ≤ cp ∧ High X (changed X t cp) := by
  have ha : getAuxOffset t.offs = 0 ∨ getAuxOffset t.offs = getAuxOffset X := by
    rcases h with ⟨h, _⟩ | ⟨h, _⟩
    · exact .inr (by rw [h])
    · exact .inl (by rw [h, aux_zero])
  unfold Props.changed
  by_cases hc : cp < 128
  · rw [if_pos hc]; exact .inl ⟨hc, rfl, rfl, ha⟩
  · rw [if_neg hc]; exact .inr ⟨by omega, .inl ⟨rfl, rfl, ha⟩⟩

/-- Into the long mode, or on in it. -/
theorem long_high {X : Nat} {t t' : State} (ht : Low X t ∨ High X t) (h : t.is21Bit = true ∧ t' = t ∨ t' = ⟨0, t.offs, true⟩) : High X t' := by
  rcases h with ⟨h, rfl⟩ | rfl
  · rcases ht with ht | ht
    · rw [ht.2.1] at h; cases h
    · exact ht
  · refine .inr ⟨rfl, rfl, ?_⟩
    rcases ht with ht | ⟨ht, _⟩ | ⟨ht, _⟩
    · exact .inl ht.1
    · exact .inr ht
    · exact .inl ht

/-- Where the decoder is after a character, and how many bytes it has read at least. -/
theorem low_step {X : Nat} {t t' : State} {cp n : Nat} (h : Low X t)
    (hd : 1 ≤ n ∧ OneByte t cp ∧ t' = t ∨ 2 ≤ n ∧ t' = changed X t cp ∨ 2 ≤ n ∧ 128 ≤ cp ∧ (t.is21Bit = true ∧ t' = t ∨ t' = ⟨0, t.offs, true⟩)) :
    1 ≤ n ∧ Low X t' ∧ OneByte t cp ∨ 2 ≤ n ∧ cp < 128 ∧ Low X t' ∨ 2 ≤ n ∧ 128 ≤ cp ∧ High X t' := by
  rcases hd with ⟨h1, h2, rfl⟩ | ⟨h1, rfl⟩ | ⟨h1, h2, h3⟩
  · exact .inl ⟨h1, h, h2⟩
  · rcases h.changed (cp := cp) with ⟨h2, e⟩ | ⟨h2, e⟩
    · rw [e]; exact .inr (.inl ⟨h1, h2, rfl, rfl, .inl rfl⟩)
    · rw [e]; exact .inr (.inr ⟨h1, h2, .inl ⟨rfl, rfl, .inl rfl⟩⟩)
  · exact .inr (.inr ⟨h1, h2, long_high (.inl h) h3⟩)

theorem high_step {X : Nat} {t t' : State} {cp n : Nat} (h : High X t)
    (hd : 1 ≤ n ∧ OneByte t cp ∧ t' = t ∨ 2 ≤ n ∧ t' = changed X t cp ∨ 2 ≤ n ∧ 128 ≤ cp ∧ (t.is21Bit = true ∧ t' = t ∨ t' = ⟨0, t.offs, true⟩)) :
    1 ≤ n ∧ High X t' ∧ OneByte t cp ∨ 2 ≤ n ∧ cp < 128 ∧ Low X t' ∨ 2 ≤ n ∧ 128 ≤ cp ∧ High X t' := by
  rcases hd with ⟨h1, h2, rfl⟩ | ⟨h1, rfl⟩ | ⟨h1, h2, h3⟩
  · exact .inl ⟨h1, h, h2⟩
  · rcases h.changed (cp := cp) with ⟨h2, e⟩ | ⟨h2, e⟩
    · exact .inr (.inl ⟨h1, h2, e⟩)
    · exact .inr (.inr ⟨h1, h2, e⟩)
  · exact .inr (.inr ⟨h1, h2, long_high (.inr h) h3⟩)

theorem high_latin {X : Nat} (hX : Alphabet X) {t : State} {cp : Nat} (h : High X t) (hc : cp < 128) (ho : OneByte t cp) : inRanges cp rangesLatin = true := by
  have hA := aux_within hX
  unfold Alphabet at hX
  rcases ho with ⟨_, ho⟩ | ⟨h1, h2, _⟩ | ⟨h1, h2⟩
  · exact ho
  · rcases h with ⟨_, _, h | h⟩ | ⟨_, _, h | h⟩ <;> omega
  · rcases h with ⟨h, _⟩ | ⟨_, h, _⟩
    · omega
    · rw [h] at h1; cases h1

theorem low_frequent {X : Nat} (hX : Alphabet X) {t : State} {cp : Nat} (h : Low X t) (hc : cp / 128 * 128 = X) (ho : OneByte t cp) :
    getAuxOffset X ≤ cp ∧ cp ≤ getAuxOffset X + 0x3F := by
  unfold Alphabet at hX
  rcases ho with ⟨_, ho⟩ | ⟨h1, h2, h3⟩ | ⟨h1, h2⟩
  · have := latin_lt ho; omega
  · rcases h.2.2 with h | h
    · exact absurd h h1
    · rw [h] at h2 h3; exact ⟨h2, h3⟩
  · have := h.1; omega

theorem race_step {X : Nat} (hX : Alphabet X) {s t t' : State} {k n : Nat} {c : Char} (hc : InAlphabet X c) (h : Race X s t k) (hr : Reading t c.toNat n t') :
    ∃ k', Race X (encodeChar s c.toNat).2 t' k' ∧ (encodeChar s c.toNat).1.length + k' ≤ n + k := by
  have hd := dec_alphabet hX hc (h.offs hX) hr
  have hA := aux_within hX
  have hX' := hX
  unfold Alphabet at hX'
  have hcls : c.toNat < 128 ∨ 128 ≤ c.toNat ∧ c.toNat / 128 * 128 = X := by
    unfold InAlphabet at hc
    omega
  cases h with
  | start hne ht =>
    have hoffs : t.offs = 0 ∧ t.is21Bit = false := by rcases ht with rfl | rfl <;> exact ⟨rfl, rfl⟩
    have h4 : X ≠ 0x400 := by rintro rfl; exact hne (by decide)
    rcases hcls with hlt | ⟨hge, hx⟩
    · -- ASCII
      rcases enc_alphabet hX State.init hc with ⟨_, e1, e2⟩ | ⟨hno, _⟩
      · rw [e1, e2]
        refine ⟨0, ?_, by rcases hd with h | h | h <;> omega⟩
        rcases hd with ⟨_, _, rfl⟩ | ⟨_, rfl⟩ | ⟨_, h, _⟩
        · exact .start hne ht
        · refine .start hne (.inr ?_)
          unfold changed
          rw [if_pos hlt, hoffs.1, aux_zero]
        · omega
      · exact absurd (low_ascii rfl rfl hlt) hno
    · -- the first character of the alphabet
      have hno : ∀ t : State, t = State.init ∨ t = ⟨0, 0, false⟩ → ¬ OneByte t c.toNat := by
        rintro t (rfl | rfl) (⟨_, h⟩ | ⟨h1, h2, h3⟩ | ⟨_, h⟩)
        · have := latin_lt h; omega
        · simp only [State.init, offsInitAux] at h2 h3; omega
        · simp only [State.init] at h; omega
        · have := latin_lt h; omega
        · exact h1 rfl
        · simp only at h; omega
      rcases enc_alphabet hX State.init hc with ⟨ho, _⟩ | ⟨_, e1, e2⟩
      · exact absurd ho (hno _ (.inl rfl))
      · have e3 : changed X State.init c.toNat = ⟨X, 0, false⟩ := by
          unfold changed
          rw [if_neg (by omega), show State.init.offs = 0 from rfl, aux_zero]
        rw [e1, e2, e3]
        refine ⟨0, .high ?_, ?_⟩
        · rcases hd with ⟨_, h, _⟩ | ⟨_, rfl⟩ | ⟨_, _, h⟩
          · exact absurd h (hno t ht)
          · unfold changed
            rw [if_neg (by omega), hoffs.1, aux_zero]
            exact .inl ⟨rfl, rfl, .inl rfl⟩
          · rcases h with ⟨h, _⟩ | rfl
            · rw [hoffs.2] at h; cases h
            · exact .inr ⟨rfl, rfl, .inl hoffs.1⟩
        · rcases hd with ⟨_, h, _⟩ | h | h
          · exact absurd h (hno t ht)
          · omega
          · omega
  | low hl =>
    have hst : Low X ⟨0, getAuxOffset X, false⟩ := ⟨rfl, rfl, .inr rfl⟩
    rcases enc_alphabet hX ⟨0, getAuxOffset X, false⟩ hc with ⟨ho, e1, e2⟩ | ⟨hno, e1, e2⟩
    · rw [e1, e2]
      rcases low_step hl hd with ⟨h1, h2, _⟩ | ⟨h1, _, h2⟩ | ⟨h1, _, h2⟩
      · exact ⟨0, .low h2, by omega⟩
      · exact ⟨0, .low h2, by omega⟩
      · exact ⟨1, .lowHigh h2, by omega⟩
    · rcases hcls with hlt | ⟨hge, hx⟩
      · exact absurd (low_ascii rfl rfl hlt) hno
      · have e3 : changed X ⟨0, getAuxOffset X, false⟩ c.toNat = ⟨X, 0, false⟩ := by
          rcases hst.changed (cp := c.toNat) with ⟨h, _⟩ | ⟨_, h⟩
          · omega
          · exact h
        rw [e1, e2, e3]
        rcases low_step hl hd with ⟨_, _, h3⟩ | ⟨_, h, _⟩ | ⟨h1, _, h2⟩
        · have := low_frequent hX hl hx h3
          exact absurd (.inr (.inl ⟨by simp only; omega, this⟩)) hno
        · omega
        · exact ⟨0, .high h2, by omega⟩
  | high hh =>
    have hst : High X ⟨X, 0, false⟩ := .inl ⟨rfl, rfl, .inl rfl⟩
    rcases enc_alphabet hX ⟨X, 0, false⟩ hc with ⟨ho, e1, e2⟩ | ⟨hno, e1, e2⟩
    · rw [e1, e2]
      rcases high_step hh hd with ⟨h1, h2, _⟩ | ⟨h1, _, h2⟩ | ⟨h1, _, h2⟩
      · exact ⟨0, .high h2, by omega⟩
      · exact ⟨1, .highLow h2, by omega⟩
      · exact ⟨0, .high h2, by omega⟩
    · rcases hcls with hlt | ⟨hge, hx⟩
      · have e3 : changed X ⟨X, 0, false⟩ c.toNat = ⟨0, getAuxOffset X, false⟩ := by
          unfold changed; rw [if_pos hlt]
        rw [e1, e2, e3]
        rcases high_step hh hd with ⟨_, _, h3⟩ | ⟨h1, _, h2⟩ | ⟨_, h, _⟩
        · exact absurd (.inl ⟨rfl, high_latin hX hh hlt h3⟩) hno
        · exact ⟨0, .low h2, by omega⟩
        · omega
      · exact absurd (win_own rfl rfl hx) hno
  | lowHigh hh =>
    have hst : Low X ⟨0, getAuxOffset X, false⟩ := ⟨rfl, rfl, .inr rfl⟩
    rcases enc_alphabet hX ⟨0, getAuxOffset X, false⟩ hc with ⟨ho, e1, e2⟩ | ⟨hno, e1, e2⟩
    · rw [e1, e2]
      rcases high_step hh hd with ⟨h1, h2, _⟩ | ⟨h1, _, h2⟩ | ⟨h1, _, h2⟩
      · exact ⟨1, .lowHigh h2, by omega⟩
      · exact ⟨0, .low h2, by omega⟩
      · exact ⟨1, .lowHigh h2, by omega⟩
    · rcases hcls with hlt | ⟨hge, hx⟩
      · exact absurd (low_ascii rfl rfl hlt) hno
      · have e3 : changed X ⟨0, getAuxOffset X, false⟩ c.toNat = ⟨X, 0, false⟩ := by
          rcases hst.changed (cp := c.toNat) with ⟨h, _⟩ | ⟨_, h⟩
          · omega
          · exact h
        rw [e1, e2, e3]
        rcases high_step hh hd with ⟨h1, h2, _⟩ | ⟨_, h, _⟩ | ⟨h1, _, h2⟩
        · exact ⟨0, .high h2, by omega⟩
        · omega
        · exact ⟨0, .high h2, by omega⟩
  | highLow hl =>
    rcases enc_alphabet hX ⟨X, 0, false⟩ hc with ⟨ho, e1, e2⟩ | ⟨hno, e1, e2⟩
    · rw [e1, e2]
      rcases low_step hl hd with ⟨h1, h2, _⟩ | ⟨h1, _, h2⟩ | ⟨h1, _, h2⟩
      · exact ⟨1, .highLow h2, by omega⟩
      · exact ⟨1, .highLow h2, by omega⟩
      · exact ⟨0, .high h2, by omega⟩
    · rcases hcls with hlt | ⟨hge, hx⟩
      · have e3 : changed X ⟨X, 0, false⟩ c.toNat = ⟨0, getAuxOffset X, false⟩ := by
          unfold changed; rw [if_pos hlt]
        rw [e1, e2, e3]
        rcases low_step hl hd with ⟨h1, h2, _⟩ | ⟨h1, _, h2⟩ | ⟨_, h, _⟩
        · exact ⟨0, .low h2, by omega⟩
        · exact ⟨0, .low h2, by omega⟩
        · omega
      · exact absurd (win_own rfl rfl hx) hno

theorem race {X : Nat} (hX : Alphabet X) : ∀ (fuel : Nat) {s t : State} {k : Nat} {bs : List UInt8} {str : List Char}, Race X s t k →
    decodeLoop fuel t bs = .ok str → (∀ c ∈ str, InAlphabet X c) → (encFrom s str).length ≤ bs.length + k
  | fuel, s, t, k, [], str, h, hd, hs => by
    have : str = [] := by
      cases fuel <;> (cases hd; rfl)
    subst this
    simp [encFrom]
  | 0, s, t, k, b :: bs, str, h, hd, hs => by cases hd
  | fuel + 1, s, t, k, b :: bs, str, h, hd, hs => by
    rw [decodeLoop_cons (by simp), bind_eq_ok] at hd
    obtain ⟨⟨c, t', bs'⟩, h1, h2⟩ := hd
    rw [bind_eq_ok] at h2
    obtain ⟨cs, h3, h4⟩ := h2
    cases h4
    have hc := hs c List.mem_cons_self
    have hne : c.toNat ≠ 65533 := by
      unfold InAlphabet at hc
      unfold Alphabet at hX
      omega
    obtain ⟨n, hr, hn⟩ := reading h1 hne
    obtain ⟨k', hk, hl⟩ := race_step hX hc h hr
    have := race hX fuel hk h3 (fun c hc => hs c (List.mem_cons_of_mem _ hc))
    rw [encFrom_cons, List.length_append]
    simp only at this ⊢
    omega

/-- **C97** (part): for a text of ASCII characters and characters of one alphabet of 128 code points (below U+2000, or Hiragana or Katakana), the encoding is a shortest one: no byte array
that `UtfcDecode` takes for this text is shorter. -/
theorem C97_one_alphabet_partial (X : Nat) (hX : X % 128 = 0 ∧ (0x300 ≤ X ∧ X < 0x2000 ∨ X = 0x3000 ∨ X = 0x3080)) (s : List Char)
    (hs : ∀ c ∈ s, c.toNat < 128 ∨ c.toNat / 128 * 128 = X) (bs : List UInt8) (h : decode bs = .ok s) : (encode s).length ≤ bs.length := by
  rw [encode_eq]
  have hX' : Alphabet X := hX
  have hstart : Race X State.init State.init 0 := by
    by_cases h4 : X = 0x400
    · subst h4
      have : Low 0x400 State.init := ⟨rfl, rfl, .inr (by decide)⟩
      have e : State.init = ⟨0, getAuxOffset 0x400, false⟩ := by decide
      rw [e] at this ⊢
      exact .low this
    · refine .start ?_ (.inl rfl)
      have := aux_within hX'
      omega
  exact race hX' _ hstart h hs

/-- There is choice: another shortest encoding changes the alphabet one character earlier. -/
example : decode [0x84, 0x30, 0x51, 0x80, 0x21] = .ok "аё!".toList ∧ (encode "аё!".toList).length = 5 ∧ encode "аё!".toList ≠ [0x84, 0x30, 0x51, 0x80, 0x21] ∧
    ∀ c ∈ "аё!".toList, c.toNat < 128 ∨ c.toNat / 128 * 128 = 0x400 := by decide +kernel

end Dawg.Props
