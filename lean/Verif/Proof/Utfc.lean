import Verif.Proof.Basic
import Verif.Model.UtfcMem
/-! # The UTF-C coder, character by character -/
namespace Dawg.Utfc

/-! ## Bit arithmetic -/

theorem and_mask13 {n : Nat} (h : n < 4294967296) : n &&& 4294967168 = n / 128 * 128 := by
  have h1 : (4294967168 : Nat) = 33554431 * 2 ^ 7 := by decide
  apply Nat.eq_of_testBit_eq
  intro i
  rw [h1, Nat.testBit_and, show n / 128 * 128 = n / 128 * 2 ^ 7 by rfl, Nat.testBit_mul_two_pow, Nat.testBit_mul_two_pow,
    show n / 128 = n / 2 ^ 7 by rfl, Nat.testBit_div_two_pow]
  by_cases hi : 7 ≤ i
  · have e : i - 7 + 7 = i := by omega
    simp only [hi, decide_true, Bool.true_and, e]
    by_cases h2 : i < 32
    · rw [show (33554431 : Nat) = 2 ^ 25 - 1 by decide, Nat.testBit_two_pow_sub_one]
      simp only [show i - 7 < 25 by omega, decide_true, Bool.and_true]
    · rw [Nat.testBit_lt_two_pow (Nat.lt_of_lt_of_le h (Nat.pow_le_pow_right (n := 2) (i := 32) (by decide) (by omega)))]
      simp
  · simp [hi]

theorem and_mask21 {n : Nat} (h : n < 4294967296) : n &&& 4294934528 = n / 32768 * 32768 := by
  have h1 : (4294934528 : Nat) = 131071 * 2 ^ 15 := by decide
  apply Nat.eq_of_testBit_eq
  intro i
  rw [h1, Nat.testBit_and, show n / 32768 * 32768 = n / 32768 * 2 ^ 15 by rfl, Nat.testBit_mul_two_pow, Nat.testBit_mul_two_pow,
    show n / 32768 = n / 2 ^ 15 by rfl, Nat.testBit_div_two_pow]
  by_cases hi : 15 ≤ i
  · have e : i - 15 + 15 = i := by omega
    simp only [hi, decide_true, Bool.true_and, e]
    by_cases h2 : i < 32
    · rw [show (131071 : Nat) = 2 ^ 17 - 1 by decide, Nat.testBit_two_pow_sub_one]
      simp only [show i - 15 < 17 by omega, decide_true, Bool.and_true]
    · rw [Nat.testBit_lt_two_pow (Nat.lt_of_lt_of_le h (Nat.pow_le_pow_right (n := 2) (i := 32) (by decide) (by omega)))]
      simp
  · simp [hi]

theorem or_shift8 {a b : Nat} (hb : b < 256) : a <<< 8 ||| b = a * 256 + b := by
  rw [← Nat.shiftLeft_add_eq_or_of_lt (i := 8) hb, Nat.shiftLeft_eq]

theorem or_low {a b : Nat} (i : Nat) (ha : a % 2 ^ i = 0) (hb : b < 2 ^ i) : a ||| b = a + b := by
  have h := Nat.shiftLeft_add_eq_or_of_lt (i := i) hb (a / 2 ^ i)
  rw [Nat.shiftLeft_eq, Nat.div_mul_cancel (Nat.dvd_of_mod_eq_zero ha)] at h
  exact h.symm

theorem or_three {t h l : Nat} (hh : h < 256) (hl : l < 256) : (t <<< 16 ||| h <<< 8) ||| l = t * 65536 + h * 256 + l := by
  have h1 : t <<< 16 ||| h <<< 8 = t * 65536 + h * 256 := by
    rw [Nat.shiftLeft_eq, Nat.shiftLeft_eq]
    exact or_low 16 (by omega) (by omega)
  rw [h1]
  exact or_low 8 (by omega) (by omega)

theorem byte_toNat {n : Nat} (h : n < 256) : (byte n).toNat = n := by
  unfold byte; rw [UInt8.toNat_ofNat']; exact Nat.mod_eq_of_lt h

theorem byte_mod (n : Nat) : byte (n % 256) = byte n := by
  apply UInt8.toNat_inj.1
  unfold byte
  rw [UInt8.toNat_ofNat', UInt8.toNat_ofNat']
  omega

theorem byte_eq_zero {n : Nat} : byte n = 0 ↔ n % 256 = 0 := by
  rw [← UInt8.toNat_inj]
  unfold byte
  rw [UInt8.toNat_ofNat']
  rfl

/-! ## Ranges -/

theorem decode_encodeRanges {cp : Nat} : ∀ {rs : List (Nat × Nat)} {v : Nat}, inRanges cp rs = true →
    ∃ x, encodeRanges cp v rs = some (v + x) ∧ decodeRanges x rs = some cp
  | [], _, h => by simp [inRanges] at h
  | r :: rs, v, h => by
    unfold inRanges at h
    unfold encodeRanges decodeRanges
    by_cases hr : r.1 ≤ cp ∧ cp < r.2
    · refine ⟨cp - r.1, by rw [if_pos hr], ?_⟩
      rw [if_pos (by omega)]; congr 1; omega
    · rw [if_neg hr] at h
      obtain ⟨x, h1, h2⟩ := decode_encodeRanges (v := v + (r.2 - r.1)) h
      refine ⟨(r.2 - r.1) + x, ?_, ?_⟩
      · rw [if_neg hr, h1]; congr 1; omega
      · rw [if_neg (by omega), show r.2 - r.1 + x - (r.2 - r.1) = x by omega, h2]

theorem decodeRanges_lt {cp : Nat} : ∀ {rs : List (Nat × Nat)} {x : Nat}, decodeRanges x rs = some cp → x < (rs.map (fun r => r.2 - r.1)).sum
  | [], _, h => by simp [decodeRanges] at h
  | r :: rs, x, h => by
    unfold decodeRanges at h
    rw [List.map_cons, List.sum_cons]
    split at h
    · omega
    · have := decodeRanges_lt h; omega

/-! ## The codes -/

/-- The character with offset `x` in the auxiliary alphabet. -/
def auxChar (st : State) (x : Nat) : Option Nat := if st.auxOffs = 0 then decodeRanges x rangesLatin else some (st.auxOffs + x)

/-- The state after an extra character. -/
def stExtra (st : State) (cp : Nat) : State :=
  if inHK cp then { offs := cp &&& offsMask13Bit, auxOffs := getAuxOffset st.offs, is21Bit := false } else st

/-- The state after a long code. -/
def stLong (st : State) (cp : Nat) : State := { offs := (cp - 9728) &&& offsMask21Bit, auxOffs := st.offs, is21Bit := true }

/-- The state after a short code. -/
def stShort (st : State) (cp : Nat) : State :=
  { offs := if cp ≤ maxLatinCp then 0 else cp &&& offsMask13Bit, auxOffs := getAuxOffset st.offs, is21Bit := false }

/-- The six kinds of codes of a character, with their bytes and the state afterwards. -/
inductive Code (st : State) (cp : Nat) : List UInt8 → State → Prop
  | aux (x : Nat) : x < 64 → auxChar st x = some cp → Code st cp [byte (192 + x)] st
  | win (x : Nat) : x < 128 → st.is21Bit = false → cp = st.offs ||| x → Code st cp [byte (if x = 0 then 187 else x)] st
  | extra (hi lo : Nat) : hi < 10 → lo < 256 → decodeRanges (hi <<< 8 ||| lo) rangesExtra = some cp →
      Code st cp (if lo = 0 then [byte 190, byte (177 + hi)] else [byte (177 + hi), byte lo]) (stExtra st cp)
  | winLong (hi lo : Nat) : hi < 128 → lo < 256 → st.is21Bit = true → cp = 9728 + ((st.offs ||| hi <<< 8) ||| lo) →
      Code st cp (if hi = 0 ∧ lo = 0 then [byte 187] else if hi = 0 then [byte 188, byte lo] else if lo = 0 then [byte 190, byte hi]
        else [byte hi, byte lo]) st
  | long (top hi lo : Nat) : top ≤ 16 → hi < 256 → lo < 256 → cp = ((top <<< 16 ||| hi <<< 8) ||| lo) + 9728 →
      Code st cp (if hi = 0 ∧ lo = 0 then [byte 191, byte (160 + top)] else if hi = 0 then [byte 190, byte (160 + top), byte lo]
        else if lo = 0 then [byte 189, byte (160 + top), byte hi] else [byte (160 + top), byte hi, byte lo]) (stLong st cp)
  | short (hi lo : Nat) : hi < 32 → lo < 256 → cp = hi <<< 8 ||| lo →
      Code st cp (if lo = 0 then [byte 190, byte (128 + hi)] else [byte (128 + hi), byte lo]) (stShort st cp)

theorem or192 : ∀ x < 64, 192 ||| x = 192 + x := by decide
theorem or128 : ∀ x < 32, 128 ||| x = 128 + x := by decide
theorem or160 : ∀ x < 17, 160 ||| x = 160 + x := by decide
theorem or176 : ∀ x < 10, 176 ||| (1 + x) = 177 + x := by decide

theorem win_code {st : State} {cp : Nat} (h : cp < 1114112) (h1 : st.is21Bit = false) (h2 : cp &&& offsMask13Bit = st.offs) :
    Code st cp [byte (if cp % 128 = 0 then 187 else cp % 128)] st := by
  refine .win _ (Nat.mod_lt _ (by decide)) h1 ?_
  have e : cp &&& offsMask13Bit = cp / 128 * 128 := and_mask13 (by omega)
  rw [← h2, e, or_low 7 (by omega) (by omega)]
  omega

theorem win_bytes (cp : Nat) : (if byte (cp &&& 127) = 0 then [byte 187] else [byte (cp &&& 127)]) = [byte (if cp % 128 = 0 then 187 else cp % 128)] := by
  have h1 : cp &&& 127 = cp % 128 := Nat.and_two_pow_sub_one_eq_mod cp 7
  rw [h1]
  by_cases h : cp % 128 = 0
  · rw [if_pos h, if_pos (byte_eq_zero.2 (by omega))]
  · rw [if_neg h, if_neg (fun h' => h (by have := byte_eq_zero.1 h'; omega))]

theorem enc_code (st : State) {cp : Nat} (h : cp < 1114112) : Code st cp (encodeChar st cp).1 (encodeChar st cp).2 := by
  unfold encodeChar
  split
  · next h1 =>
    obtain ⟨x, e1, e2⟩ := decode_encodeRanges (v := 0) h1.2
    have hx : x < 64 := by have := decodeRanges_lt e2; simpa [rangesLatin] using this
    rw [e1, Option.getD_some, Nat.zero_add, show markerAux = 192 by rfl, or192 x hx]
    exact .aux x hx (by rw [auxChar, if_pos h1.1, e2])
  · split
    · next _ h1 =>
      rw [show markerAux = 192 by rfl, or192 _ (by omega)]
      exact .aux _ (by omega) (by rw [auxChar, if_neg h1.1]; congr 1; omega)
    · split
      · next h1 =>
        by_cases h2 : (!st.is21Bit) = true ∧ cp &&& offsMask13Bit = st.offs
        · rw [if_pos h2]
          have := win_code h (by simpa using h2.1) h2.2
          rw [← win_bytes] at this
          dsimp only
          split
          · next h3 => rw [if_pos h3] at this; exact this
          · next h3 => rw [if_neg h3] at this; exact this
        · rw [if_neg h2]
          obtain ⟨x, e1, e2⟩ := decode_encodeRanges (v := 0) h1
          have hx : x < 2560 := by have := decodeRanges_lt e2; simpa [rangesExtra] using this
          rw [Nat.zero_add] at e1
          simp only [e1, Option.getD_some]
          have hhi : x >>> 8 = x / 256 := by rw [Nat.shiftRight_eq_div_pow]
          have hb : byte (markerExtra ||| (1 + x >>> 8)) = byte (177 + x / 256) := by
            rw [hhi, show markerExtra = 176 by rfl, or176 _ (by omega)]
          have hc : Code st cp (if x % 256 = 0 then [byte 190, byte (177 + x / 256)] else [byte (177 + x / 256), byte (x % 256)]) (stExtra st cp) := by
            refine .extra _ _ (by omega) (by omega) ?_
            rw [or_shift8 (by omega), show x / 256 * 256 + x % 256 = x by omega, e2]
          rw [byte_mod] at hc
          rw [hb]
          have hbs : (if byte x = 0 then [byte marker10, byte (177 + x / 256)] else [byte (177 + x / 256), byte x]) =
              (if x % 256 = 0 then [byte 190, byte (177 + x / 256)] else [byte (177 + x / 256), byte x]) := by
            simp only [byte_eq_zero]; rfl
          rw [hbs]
          unfold stExtra at hc
          by_cases h3 : inHK cp = true
          · rw [if_pos h3] at hc ⊢; exact hc
          · rw [if_neg h3] at hc ⊢; exact hc
      · split
        · next h1 =>
          have h1 : 9728 ≤ cp := h1
          have hm : min21BitCp = 9728 := rfl
          simp only [hm]
          have hd : (cp - 9728) &&& offsMask21Bit = (cp - 9728) / 32768 * 32768 := and_mask21 (by omega)
          have hs8 : (cp - 9728) >>> 8 = (cp - 9728) / 256 := by rw [Nat.shiftRight_eq_div_pow]
          have hs16 : (cp - 9728) >>> 16 = (cp - 9728) / 65536 := by rw [Nat.shiftRight_eq_div_pow]
          by_cases h2 : st.is21Bit = true ∧ (cp - 9728) &&& offsMask21Bit = st.offs
          · rw [if_pos h2]
            have h127 : ((cp - 9728) / 256) &&& 127 = ((cp - 9728) / 256) % 128 := Nat.and_two_pow_sub_one_eq_mod _ 7
            rw [hs8, h127]
            have := Code.winLong (st := st) (cp := cp) (((cp - 9728) / 256) % 128) ((cp - 9728) % 256) (by omega) (by omega) h2.1 (by
              rw [← h2.2, hd, or_low (b := (((cp - 9728) / 256) % 128) <<< 8) 15 (by omega) (by rw [Nat.shiftLeft_eq]; omega), Nat.shiftLeft_eq,
                or_low 8 (by omega) (by omega)]
              omega)
            rw [byte_mod] at this
            simp only [byte_eq_zero]
            rw [show ((cp - 9728) / 256 % 128) % 256 = (cp - 9728) / 256 % 128 by omega]
            exact this
          · rw [if_neg h2]
            rw [hs8, hs16, show marker21Bit = 160 by rfl, or160 _ (by omega)]
            have := Code.long (st := st) (cp := cp) ((cp - 9728) / 65536) (((cp - 9728) / 256) % 256) ((cp - 9728) % 256) (by omega) (by omega) (by omega) (by
              rw [or_three (by omega) (by omega)]; omega)
            rw [byte_mod, byte_mod] at this
            simp only [byte_eq_zero]
            exact this
        · next h0 h1 =>
          have h1 : ¬ 9728 ≤ cp := h1
          by_cases h2 : (!st.is21Bit) = true ∧ cp &&& offsMask13Bit = st.offs
          · rw [if_pos h2]
            have := win_code h (by simpa using h2.1) h2.2
            rw [← win_bytes] at this
            dsimp only
            split
            · next h3 => rw [if_pos h3] at this; exact this
            · next h3 => rw [if_neg h3] at this; exact this
          · rw [if_neg h2]
            have h3 : cp < 8192 := by
              apply Classical.byContradiction
              intro h3
              apply h0
              simp only [inRanges, rangesExtra]
              rw [if_pos (by constructor <;> omega)]
            have h255 : cp &&& 255 = cp % 256 := Nat.and_two_pow_sub_one_eq_mod cp 8
            have hs8 : cp >>> 8 = cp / 256 := by rw [Nat.shiftRight_eq_div_pow]
            rw [h255, hs8, show marker13Bit = 128 by rfl, or128 _ (by omega)]
            dsimp only
            have := Code.short (st := st) (cp := cp) (cp / 256) (cp % 256) (by omega) (by omega) (by
              rw [or_shift8 (by omega)]; omega)
            rw [show (if byte (cp % 256) = 0 then [byte marker10, byte (128 + cp / 256)] else [byte (128 + cp / 256), byte (cp % 256)]) =
              (if cp % 256 = 0 then [byte 190, byte (128 + cp / 256)] else [byte (128 + cp / 256), byte (cp % 256)]) by
                simp only [byte_eq_zero, Nat.mod_mod]; rfl]
            exact this

/-! ## Decoding a code -/

theorem cls_aux : ∀ b < 256, (b &&& markerAux = markerAux ↔ 192 ≤ b) := by decide +kernel
theorem cls_extra : ∀ b < 192, (b &&& markerExtra = markerExtra ∧ b ^^^ markerExtra ≠ 0 ↔ 177 ≤ b) := by decide +kernel
theorem cls_long : ∀ b < 177, (b &&& marker21Bit = marker21Bit ↔ 160 ≤ b) := by decide +kernel
theorem cls_short : ∀ b < 160, (b &&& marker13Bit = marker13Bit ↔ 128 ≤ b) := by decide +kernel
theorem xor_aux : ∀ x < 64, (192 + x) ^^^ markerAux = x := by decide +kernel
theorem xor_extra : ∀ x < 10, ((177 + x) ^^^ markerExtra) - 1 = x := by decide +kernel
theorem xor_long : ∀ x < 17, (160 + x) ^^^ marker21Bit = x := by decide +kernel
theorem xor_short : ∀ x < 32, (128 + x) ^^^ marker13Bit = x := by decide +kernel

theorem runeOf_char (c : Char) : runeOf (some c.toNat) = c := by
  unfold runeOf
  have h : c.toNat.isValidChar := c.valid
  simp only []
  rw [if_pos h]
  exact Char.ofNat_toNat c

/-- The part of `decodeChar` (utfc.go:327-384) after the zero marker and the first byte have been read. -/
def decodeRest (st : State) (zm cp : Nat) (buf : List UInt8) : Go (Char × State × List UInt8) := do
  if cp &&& markerAux = markerAux then
    let cp := if st.auxOffs = 0 then decodeRanges (cp ^^^ markerAux) rangesLatin
      else some (st.auxOffs + (cp ^^^ markerAux))
    return (runeOf cp, st, buf)
  else if cp &&& markerExtra = markerExtra ∧ cp ^^^ markerExtra ≠ 0 then
    let (lo, buf) ← takeIf (zm ≠ marker10) buf
    let cp := decodeRanges ((((cp ^^^ markerExtra) - 1) <<< 8) ||| lo) rangesExtra
    let st := match cp with
      | some c => if inHK c then
          { offs := c &&& offsMask13Bit, auxOffs := getAuxOffset st.offs, is21Bit := false } else st
      | none => st
    return (runeOf cp, st, buf)
  else if cp &&& marker21Bit = marker21Bit then
    let (hi, buf) ← takeIf (zm ≠ marker10 ∧ zm ≠ marker11) buf
    let (lo, buf) ← takeIf (zm ≠ marker01 ∧ zm ≠ marker11) buf
    let cp := (((cp ^^^ marker21Bit) <<< 16) ||| (hi <<< 8)) ||| lo
    return (runeOf (some (cp + min21BitCp)),
      { offs := cp &&& offsMask21Bit, auxOffs := st.offs, is21Bit := true }, buf)
  else if cp &&& marker13Bit = marker13Bit then
    let (hi, buf) ← takeIf (zm ≠ marker10) buf
    let cp := ((cp ^^^ marker13Bit) <<< 8) ||| hi
    return (runeOf (some cp),
      { offs := if cp ≤ maxLatinCp then 0 else cp &&& offsMask13Bit,
        auxOffs := getAuxOffset st.offs, is21Bit := false }, buf)
  else if st.is21Bit then
    let (hi, buf) ← takeIf (zm ≠ marker10) buf
    return (runeOf (some (min21BitCp + ((st.offs ||| (cp <<< 8)) ||| hi))), st, buf)
  else
    return (runeOf (some (st.offs ||| cp)), st, buf)

theorem decodeChar_rest (st : State) (buf : List UInt8) : decodeChar st buf = (take1 buf >>= fun p =>
    takeIf (decide (p.1 ≥ marker0 ∧ p.1 ≤ marker11)) buf >>= fun q =>
    takeIf (q.1 ≠ marker0 ∧ q.1 ≠ marker00) q.2 >>= fun r => decodeRest st q.1 r.1 r.2) := rfl

theorem decodeChar_plain {st : State} {b : Nat} {buf : List UInt8} (hb : b < 256) (h : b < 187 ∨ 191 < b) :
    decodeChar st (byte b :: buf) = decodeRest st 0 b buf := by
  rw [decodeChar_rest]
  simp only [take1, ok_bind, byte_toNat hb, takeIf]
  rw [decide_eq_false (by unfold marker0 marker11; omega)]
  simp only [Bool.false_eq_true, if_false, ok_bind, show decide ((0 : Nat) ≠ marker0 ∧ (0 : Nat) ≠ marker00) = true by rfl, if_true, byte_toNat hb]

theorem decodeChar_two {st : State} {m b : Nat} {buf : List UInt8} (hb : b < 256) (h : m = 189 ∨ m = 190 ∨ m = 191) :
    decodeChar st (byte m :: byte b :: buf) = decodeRest st m b buf := by
  rw [decodeChar_rest]
  have hm : m < 256 := by omega
  have h1 : decide (m ≥ marker0 ∧ m ≤ marker11) = true := decide_eq_true (by unfold marker0 marker11; omega)
  have h2 : decide (m ≠ marker0 ∧ m ≠ marker00) = true := decide_eq_true (by unfold marker0 marker00; omega)
  simp only [take1, ok_bind, byte_toNat hb, byte_toNat hm, takeIf, h1, h2, if_true]

theorem decodeChar_zero {st : State} {m : Nat} {buf : List UInt8} (h : m = 187 ∨ m = 188) :
    decodeChar st (byte m :: buf) = decodeRest st m 0 buf := by
  rw [decodeChar_rest]
  have hm : m < 256 := by omega
  have h1 : decide (m ≥ marker0 ∧ m ≤ marker11) = true := decide_eq_true (by unfold marker0 marker11; omega)
  have h2 : decide (m ≠ marker0 ∧ m ≠ marker00) = false := decide_eq_false (by unfold marker0 marker00; omega)
  simp only [take1, ok_bind, byte_toNat hm, takeIf, h1, h2, if_true, Bool.false_eq_true, if_false]

theorem rest_aux {st : State} {x : Nat} {c : Char} {buf : List UInt8} (hx : x < 64) (h : auxChar st x = some c.toNat) (zm : Nat) :
    decodeRest st zm (192 + x) buf = .ok (c, st, buf) := by
  unfold decodeRest
  rw [if_pos ((cls_aux _ (by omega)).2 (by omega)), xor_aux x hx]
  unfold auxChar at h
  simp only [h, runeOf_char, pure_eq_ok]

theorem takeIf_true {b : UInt8} {buf : List UInt8} : takeIf true (b :: buf) = .ok (b.toNat, buf) := rfl
theorem takeIf_false {buf : List UInt8} : takeIf false buf = .ok (0, buf) := rfl

/-- What `takeIf` reads: the byte that is there unless it is zero and left out. -/
def Reads (c : Bool) (buf : List UInt8) (n : Nat) (buf' : List UInt8) : Prop := takeIf c buf = .ok (n, buf')

theorem rest_extra {st : State} {hi lo zm : Nat} {c : Char} {buf buf' : List UInt8} (hhi : hi < 10)
    (h : decodeRanges (hi <<< 8 ||| lo) rangesExtra = some c.toNat) (hr : takeIf (decide (zm ≠ marker10)) buf = .ok (lo, buf')) :
    decodeRest st zm (177 + hi) buf = .ok (c, stExtra st c.toNat, buf') := by
  unfold decodeRest
  rw [if_neg (fun hh => by have := (cls_aux _ (by omega)).1 hh; omega), if_pos ((cls_extra _ (by omega)).2 (by omega)), hr]
  simp only [ok_bind]
  rw [xor_extra hi hhi, h]
  simp only [runeOf_char, pure_eq_ok]
  rfl

theorem rest_long {st : State} {top hi lo zm : Nat} {c : Char} {buf buf' buf'' : List UInt8} (ht : top ≤ 16)
    (h : c.toNat = ((top <<< 16 ||| hi <<< 8) ||| lo) + 9728) (hr : takeIf (decide (zm ≠ marker10 ∧ zm ≠ marker11)) buf = .ok (hi, buf'))
    (hr' : takeIf (decide (zm ≠ marker01 ∧ zm ≠ marker11)) buf' = .ok (lo, buf'')) :
    decodeRest st zm (160 + top) buf = .ok (c, stLong st c.toNat, buf'') := by
  unfold decodeRest
  rw [if_neg (fun hh => by have := (cls_aux _ (by omega)).1 hh; omega), if_neg (fun hh => by have := (cls_extra _ (by omega)).1 hh; omega),
    if_pos ((cls_long _ (by omega)).2 (by omega)), hr]
  simp only [ok_bind]
  rw [hr']
  simp only [ok_bind]
  rw [xor_long top (by omega), show min21BitCp = 9728 by rfl, ← h]
  have e : (top <<< 16 ||| hi <<< 8) ||| lo = c.toNat - 9728 := by omega
  simp only [runeOf_char, pure_eq_ok, stLong, e]

theorem rest_short {st : State} {hi lo zm : Nat} {c : Char} {buf buf' : List UInt8} (hhi : hi < 32)
    (h : c.toNat = hi <<< 8 ||| lo) (hr : takeIf (decide (zm ≠ marker10)) buf = .ok (lo, buf')) :
    decodeRest st zm (128 + hi) buf = .ok (c, stShort st c.toNat, buf') := by
  unfold decodeRest
  rw [if_neg (fun hh => by have := (cls_aux _ (by omega)).1 hh; omega), if_neg (fun hh => by have := (cls_extra _ (by omega)).1 hh; omega),
    if_neg (fun hh => by have := (cls_long _ (by omega)).1 hh; omega), if_pos ((cls_short _ (by omega)).2 (by omega)), hr]
  simp only [ok_bind]
  rw [xor_short hi hhi, ← h]
  simp only [runeOf_char, pure_eq_ok]
  rfl

theorem rest_winLong {st : State} {hi lo zm : Nat} {c : Char} {buf buf' : List UInt8} (hhi : hi < 128) (hl : st.is21Bit = true)
    (h : c.toNat = 9728 + ((st.offs ||| hi <<< 8) ||| lo)) (hr : takeIf (decide (zm ≠ marker10)) buf = .ok (lo, buf')) :
    decodeRest st zm hi buf = .ok (c, st, buf') := by
  unfold decodeRest
  rw [if_neg (fun hh => by have := (cls_aux _ (by omega)).1 hh; omega), if_neg (fun hh => by have := (cls_extra _ (by omega)).1 hh; omega),
    if_neg (fun hh => by have := (cls_long _ (by omega)).1 hh; omega), if_neg (fun hh => by have := (cls_short _ (by omega)).1 hh; omega),
    if_pos hl, hr]
  simp only [ok_bind]
  rw [show min21BitCp = 9728 by rfl, ← h]
  simp only [runeOf_char, pure_eq_ok]

theorem rest_win {st : State} {x zm : Nat} {c : Char} {buf : List UInt8} (hx : x < 128) (hl : st.is21Bit = false)
    (h : c.toNat = st.offs ||| x) : decodeRest st zm x buf = .ok (c, st, buf) := by
  unfold decodeRest
  rw [if_neg (fun hh => by have := (cls_aux _ (by omega)).1 hh; omega), if_neg (fun hh => by have := (cls_extra _ (by omega)).1 hh; omega),
    if_neg (fun hh => by have := (cls_long _ (by omega)).1 hh; omega), if_neg (fun hh => by have := (cls_short _ (by omega)).1 hh; omega),
    if_neg (by simp [hl]), ← h]
  simp only [runeOf_char, pure_eq_ok]

/-- A character is decoded from its code, except for the single byte `marker0` in the 21-bit mode. -/
theorem decode_code {st st' : State} {c : Char} {bs : List UInt8} (h : Code st c.toNat bs st') (hz : st.is21Bit = true → bs ≠ [byte 187]) (rest : List UInt8) :
    decodeChar st (bs ++ rest) = .ok (c, st', rest) := by
  cases h with
  | aux x hx h => rw [List.singleton_append, decodeChar_plain (by omega) (by omega), rest_aux hx h]
  | win x hx hl h =>
    rw [List.singleton_append]
    by_cases h0 : x = 0
    · subst h0
      rw [if_pos rfl, decodeChar_zero (.inl rfl), rest_win (by omega) hl h]
    · rw [if_neg h0, decodeChar_plain (by omega) (by omega), rest_win hx hl h]
  | extra hi lo hhi hlo h =>
    by_cases h0 : lo = 0
    · subst h0
      rw [if_pos rfl, List.cons_append, List.singleton_append, decodeChar_two (by omega) (by omega), rest_extra hhi h rfl]
    · rw [if_neg h0, List.cons_append, List.singleton_append, decodeChar_plain (by omega) (by omega), rest_extra hhi h]
      rw [decide_eq_true (by decide), takeIf_true, byte_toNat hlo]
  | winLong hi lo hhi hlo hl h =>
    by_cases h0 : hi = 0
    · subst h0
      by_cases h1 : lo = 0
      · subst h1
        exact absurd rfl (hz hl)
      · rw [if_neg (by omega), if_pos rfl, List.cons_append, List.singleton_append, decodeChar_zero (.inr rfl), rest_winLong (by omega) hl h]
        rw [decide_eq_true (by decide), takeIf_true, byte_toNat hlo]
    · by_cases h1 : lo = 0
      · subst h1
        rw [if_neg (by omega), if_neg h0, if_pos rfl, List.cons_append, List.singleton_append, decodeChar_two (by omega) (by omega), rest_winLong hhi hl h rfl]
      · rw [if_neg (by omega), if_neg h0, if_neg h1, List.cons_append, List.singleton_append, decodeChar_plain (by omega) (by omega), rest_winLong hhi hl h]
        rw [decide_eq_true (by decide), takeIf_true, byte_toNat hlo]
  | long top hi lo ht hhi hlo h =>
    by_cases h0 : hi = 0
    · subst h0
      by_cases h1 : lo = 0
      · subst h1
        rw [if_pos ⟨rfl, rfl⟩, List.cons_append, List.singleton_append, decodeChar_two (by omega) (by omega), rest_long ht h rfl rfl]
      · rw [if_neg (by omega), if_pos rfl, List.cons_append, List.cons_append, List.singleton_append, decodeChar_two (by omega) (by omega), rest_long ht h rfl]
        rw [decide_eq_true (by decide), takeIf_true, byte_toNat hlo]
    · by_cases h1 : lo = 0
      · subst h1
        rw [if_neg (by omega), if_neg h0, if_pos rfl, List.cons_append, List.cons_append, List.singleton_append, decodeChar_two (by omega) (by omega),
          rest_long (buf' := rest) ht h _ rfl]
        rw [decide_eq_true (by decide), takeIf_true, byte_toNat hhi]
      · rw [if_neg (by omega), if_neg h0, if_neg h1, List.cons_append, List.cons_append, List.singleton_append, decodeChar_plain (by omega) (by omega),
          rest_long (buf' := byte lo :: rest) ht h]
        · rw [decide_eq_true (by decide), takeIf_true, byte_toNat hhi]
        · rw [decide_eq_true (by decide), takeIf_true, byte_toNat hlo]
  | short hi lo hhi hlo h =>
    by_cases h0 : lo = 0
    · subst h0
      rw [if_pos rfl, List.cons_append, List.singleton_append, decodeChar_two (by omega) (by omega), rest_short hhi h rfl]
    · rw [if_neg h0, List.cons_append, List.singleton_append, decodeChar_plain (by omega) (by omega), rest_short hhi h]
      rw [decide_eq_true (by decide), takeIf_true, byte_toNat hlo]

end Dawg.Utfc
