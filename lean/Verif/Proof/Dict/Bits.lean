import Verif.Proof.Basic
import Verif.Model.DictionaryBuilder
/-! # Bit fields of dictionary units and extra units -/
namespace Dawg.Dict

/-! ## Labels inside a block -/

theorem xor_lt_256 {a b : Nat} (ha : a < 256) (hb : b < 256) : a ^^^ b < 256 :=
  Nat.xor_lt_two_pow (n := 8) ha hb

theorem xor_div (o l : Nat) (hl : l < 256) : (o ^^^ l) / 256 = o / 256 := by
  have h := Nat.shiftRight_xor_distrib (a := o) (b := l) (i := 8)
  rw [Nat.shiftRight_eq_div_pow, Nat.shiftRight_eq_div_pow, Nat.shiftRight_eq_div_pow] at h
  have : l / 2 ^ 8 = 0 := Nat.div_eq_of_lt hl
  rw [this, Nat.xor_zero] at h
  exact h

theorem xor_mod (o l : Nat) : (o ^^^ l) % 256 = o % 256 ^^^ l % 256 :=
  Nat.xor_mod_two_pow (n := 8)

theorem xor_lt_of_block {o l B : Nat} (hl : l < 256) : o ^^^ l < 256 * B ↔ o < 256 * B := by
  have := xor_div o l hl; omega

theorem xor_ge_of_block {o l B : Nat} (hl : l < 256) : 256 * B ≤ o ^^^ l ↔ 256 * B ≤ o := by
  have := xor_div o l hl; omega

theorem xor_left_cancel {a b c : Nat} (h : a ^^^ b = a ^^^ c) : b = c := by
  have := congrArg (a ^^^ ·) h
  simpa [← Nat.xor_assoc] using this

theorem xor_right_cancel {a b c : Nat} (h : b ^^^ a = c ^^^ a) : b = c := by
  rw [Nat.xor_comm b, Nat.xor_comm c] at h; exact xor_left_cancel h

theorem xor_xor_self (a b : Nat) : a ^^^ (a ^^^ b) = b := by rw [← Nat.xor_assoc]; simp

theorem label_lt (l : UInt8) : l.toNat < 256 := l.toNat_lt

theorem block_xor {N i : Nat} (hN : N % 256 = 0) : N ||| (i &&& 255) = N + i % 256 := by
  have h1 : i &&& 255 = i % 256 := Nat.and_two_pow_sub_one_eq_mod i 8
  rw [h1]
  have h2 := Nat.two_pow_add_eq_or_of_lt (i := 8) (b := i % 256) (by omega) (N / 256)
  have h3 : 2 ^ 8 * (N / 256) = N := by omega
  rw [h3] at h2; exact h2.symm

/-! ## Units -/

theorem and_two_pow (w i : Nat) : w &&& 2 ^ i = 2 ^ i * (w.testBit i).toNat := by
  apply Nat.eq_of_testBit_eq
  intro j
  rw [Nat.testBit_and, Nat.testBit_two_pow_mul, Nat.testBit_two_pow]
  by_cases h : i = j
  · subst h; cases w.testBit i <;> simp
  · simp only [h, decide_false, Bool.and_false, Bool.false_eq, Bool.and_eq_false_imp, decide_eq_true_eq]
    intro h2
    cases w.testBit i
    · simp
    · exact Nat.testBit_lt_two_pow (Nat.lt_of_lt_of_le (by decide : 1 < 2 ^ 1) (Nat.pow_le_pow_right (by decide) (by omega)))

/-- Relative offsets that a unit can hold. -/
def Enc (off : Nat) : Prop := off < 536870912 ∧ (off < 2097152 ∨ off % 256 = 0)

/-- The offset part of a unit. -/
def encOff (off : Nat) : Nat := if off < 2097152 then off * 1024 else off * 4 + 512

/-- The word of an arranged node. -/
def nodeWord (l : UInt8) (hl : Bool) (off : Nat) : Nat := l.toNat + (if hl then 256 else 0) + encOff off

/-- The word of a leaf. -/
def leafWord (v : Nat) : Nat := v % 2147483648 + 2147483648

theorem and_255 (w : Nat) : w &&& 255 = w % 256 := Nat.and_two_pow_sub_one_eq_mod w 8

theorem or_label {w : Nat} (l : UInt8) (h : w % 256 = 0) : w ||| l.toNat = w + l.toNat := by
  have h2 := Nat.two_pow_add_eq_or_of_lt (i := 8) (b := l.toNat) (label_lt l) (w / 256)
  have h3 : 2 ^ 8 * (w / 256) = w := by omega
  rw [h3] at h2; exact h2.symm

theorem setLabel_zero (l : UInt8) : dictSetLabel 0 l = l.toNat := by simp [dictSetLabel]

theorem setLabel_1024 : dictSetLabel 1024 0 = 1024 := by decide

theorem setOffset_one : dictSetOffset 0 1 = some 1024 := by decide

theorem dictLabel_mod (w : Nat) : dictLabel w = UInt8.ofNat w := by
  apply UInt8.toNat.inj
  unfold dictLabel
  simp only [UInt8.toNat_ofNat']
  have : (w &&& (isLeafBit ||| 255)) % 2 ^ 8 = w % 2 ^ 8 := by
    rw [← Nat.and_two_pow_sub_one_eq_mod, Nat.and_assoc]
    have : (isLeafBit ||| 255) &&& (2 ^ 8 - 1) = 255 := by decide
    rw [this, ← Nat.and_two_pow_sub_one_eq_mod]
  exact this

theorem ofNat_label (l : UInt8) (k : Nat) : UInt8.ofNat (l.toNat + 256 * k) = l := by
  apply UInt8.toNat.inj
  have := label_lt l
  simp only [UInt8.toNat_ofNat']; omega

theorem encOff_256 {off : Nat} : encOff off = 256 * (if off < 2097152 then off * 4 else (off / 64) + 2) ∨ ¬ Enc off := by
  unfold encOff Enc
  by_cases h : off < 2097152
  · left; simp [h]; omega
  · by_cases h' : off % 256 = 0
    · left; simp [h]; omega
    · right; simp [h, h']

theorem nodeWord_label (l : UInt8) (hl : Bool) {off : Nat} (h : Enc off) : dictLabel (nodeWord l hl off) = l := by
  rw [dictLabel_mod]
  rcases encOff_256 (off := off) with h' | h'
  · unfold nodeWord
    rw [h']
    cases hl
    · simp only [Bool.false_eq_true, if_false, Nat.add_zero]; exact ofNat_label l _
    · simp only [if_true]
      rw [Nat.add_assoc, show 256 + 256 * (if off < 2097152 then off * 4 else off / 64 + 2) =
        256 * (1 + (if off < 2097152 then off * 4 else off / 64 + 2)) by omega]
      exact ofNat_label l _
  · exact absurd h h'

theorem testBit_8 (w : Nat) : ((w &&& 256) != 0) = decide (w / 256 % 2 = 1) := by
  have h : w &&& 256 = 256 * (w / 256 % 2) := by
    have h1 : w &&& 2 ^ 8 = 2 ^ 8 * (w.testBit 8).toNat := and_two_pow w 8
    rw [show (256 : Nat) = 2 ^ 8 from rfl, h1, Nat.toNat_testBit]
  rw [h, Bool.eq_iff_iff]
  simp only [bne_iff_ne, decide_eq_true_eq]
  omega

theorem testBit_9 (w : Nat) : (w &&& 512) = 512 * (w / 512 % 2) := by
  have h1 : w &&& 2 ^ 9 = 2 ^ 9 * (w.testBit 9).toNat := and_two_pow w 9
  rw [show (512 : Nat) = 2 ^ 9 from rfl, h1, Nat.toNat_testBit]

theorem nodeWord_lt (l : UInt8) (hl : Bool) {off : Nat} (h : Enc off) : nodeWord l hl off < 2147483648 := by
  have := label_lt l
  unfold nodeWord encOff
  obtain ⟨h1, h2⟩ := h
  cases hl <;> simp <;> split <;> omega

theorem nodeWord_hasLeaf (l : UInt8) (hl : Bool) {off : Nat} (h : Enc off) : dictHasLeaf (nodeWord l hl off) = hl := by
  have := label_lt l
  unfold dictHasLeaf hasLeafBit
  rw [testBit_8]
  unfold nodeWord encOff
  obtain ⟨h1, h2⟩ := h
  cases hl <;> simp <;> split <;> omega

theorem nodeWord_offset (l : UInt8) (hl : Bool) {off : Nat} (h : Enc off) : dictOffset (nodeWord l hl off) = off := by
  have h0 := label_lt l
  unfold dictOffset extensionBit
  rw [testBit_9]
  obtain ⟨h1, h2⟩ := h
  have hb : nodeWord l hl off / 512 % 2 = if off < 2097152 then 0 else 1 := by
    unfold nodeWord encOff
    cases hl <;> simp <;> split <;> omega
  have hq : nodeWord l hl off / 1024 = if off < 2097152 then off else off / 256 := by
    unfold nodeWord encOff
    cases hl <;> simp <;> split <;> omega
  rw [hb, Nat.shiftRight_eq_div_pow, show 2 ^ 10 = 1024 from rfl, hq]
  split
  · rw [u32_of_lt (by simp; omega)]; simp
  · have e : (512 * 1) >>> 6 = 8 := by decide
    rw [e, Nat.shiftLeft_eq, u32_of_lt (by omega)]; omega

theorem nodeWord_notLeaf (l : UInt8) (hl : Bool) {off : Nat} (h : Enc off) : dictIsLeaf (nodeWord l hl off) = false := by
  have := nodeWord_lt l hl h
  unfold dictIsLeaf isLeafBit
  have h1 : nodeWord l hl off &&& 2 ^ 31 = 2 ^ 31 * ((nodeWord l hl off).testBit 31).toNat := and_two_pow _ 31
  rw [show (2147483648 : Nat) = 2 ^ 31 from rfl, h1, Nat.testBit_lt_two_pow this]
  rfl

theorem dictValue_eq (w : Nat) : dictValue w = w % 2147483648 := Nat.and_two_pow_sub_one_eq_mod w 31

theorem leafWord_value (v : Nat) : dictValue (leafWord v) = v % 2147483648 := by
  rw [dictValue_eq]
  unfold leafWord; omega

theorem leafWord_label (v : Nat) : dictLabel (leafWord v) = UInt8.ofNat v := by
  rw [dictLabel_mod]
  apply UInt8.toNat.inj
  simp only [UInt8.toNat_ofNat', leafWord]; omega

theorem setValue_eq {v : Nat} (h : v < 2147483648) : dictSetValue v = leafWord v := by
  unfold dictSetValue isLeafBit leafWord
  rw [u32_of_lt (by omega), Nat.mod_eq_of_lt h, Nat.or_comm]
  have h2 := Nat.two_pow_add_eq_or_of_lt (i := 31) (b := v) h 1
  simp at h2
  rw [← h2]; omega

/-- What the fields of a unit under construction are: label, leaf flag, whatever. -/
theorem setOffset_eq {w off : Nat} (l : UInt8) (hl : Bool) (hw : w &&& (isLeafBit ||| hasLeafBit ||| 255) = l.toNat + (if hl then 256 else 0))
    (h : Enc off) : dictSetOffset w off = some (nodeWord l hl off) := by
  have h0 := label_lt l
  obtain ⟨h1, h2⟩ := h
  unfold dictSetOffset
  rw [if_neg (by simp [u32, offsetMax]; omega), hw]
  have hb : l.toNat + (if hl then 256 else 0) < 2 ^ 9 := by cases hl <;> simp <;> omega
  by_cases hlt : off < 2097152
  · show (if off < 2097152 then _ else _) = _
    rw [if_pos hlt]
    have e := Nat.two_pow_add_eq_or_of_lt (i := 10) (b := l.toNat + (if hl then 256 else 0)) (by omega) off
    rw [Nat.or_comm, Nat.shiftLeft_eq, u32_of_lt (by omega), Nat.mul_comm off, ← e]
    simp only [nodeWord, encOff, if_pos hlt, Option.some.injEq]; omega
  · have h3 : off % 256 = 0 := by omega
    show (if off < 2097152 then _ else _) = _
    rw [if_neg hlt]
    have e1 : u32 (off <<< 2) ||| extensionBit = 512 * (off / 128 + 1) := by
      rw [Nat.shiftLeft_eq, u32_of_lt (by omega)]
      have e := Nat.two_pow_add_eq_or_of_lt (i := 10) (b := 512) (by omega) (off / 256)
      unfold extensionBit
      rw [show off * 2 ^ 2 = 2 ^ 10 * (off / 256) by omega, ← e]
      omega
    rw [e1, Nat.or_comm]
    have e := Nat.two_pow_add_eq_or_of_lt (i := 9) (b := l.toNat + (if hl then 256 else 0)) hb (off / 128 + 1)
    rw [show (512 : Nat) = 2 ^ 9 from rfl, ← e]
    simp only [nodeWord, encOff, if_neg hlt, Option.some.injEq]; omega

theorem and_mask {a b : Nat} (hb : b < 512) : (1024 * a + b) &&& (isLeafBit ||| hasLeafBit ||| 255) =
    ((1024 * a) &&& isLeafBit) + b := by
  have e := Nat.two_pow_add_eq_or_of_lt (i := 10) (b := b) (by omega) a
  rw [show 1024 = 2 ^ 10 from rfl, e, Nat.and_or_distrib_right]
  have h1 : b &&& (isLeafBit ||| hasLeafBit ||| 255) = b := by
    apply Nat.eq_of_testBit_eq
    intro i
    rw [Nat.testBit_and]
    by_cases hi : i < 9
    · have : (isLeafBit ||| hasLeafBit ||| 255).testBit i = true := by
        match i, hi with
        | 0, _ | 1, _ | 2, _ | 3, _ | 4, _ | 5, _ | 6, _ | 7, _ | 8, _ => decide
      rw [this, Bool.and_true]
    · rw [Nat.testBit_lt_two_pow (Nat.lt_of_lt_of_le hb (Nat.pow_le_pow_right (by decide) (by omega) : 2 ^ 9 ≤ 2 ^ i))]; rfl
  have h2 : 2 ^ 10 * a &&& (isLeafBit ||| hasLeafBit ||| 255) = 2 ^ 10 * a &&& isLeafBit := by
    apply Nat.eq_of_testBit_eq
    intro i
    rw [Nat.testBit_and, Nat.testBit_and]
    by_cases hi : i < 10
    · rw [Nat.testBit_two_pow_mul, decide_eq_false (by omega : ¬ 10 ≤ i)]; rfl
    · congr 1
      unfold isLeafBit hasLeafBit
      rw [show (2147483648 ||| 256 ||| 255 : Nat) = 2 ^ 31 ||| 511 by decide, Nat.testBit_or,
        Nat.testBit_lt_two_pow (x := 511) (Nat.lt_of_lt_of_le (by decide : 511 < 2 ^ 9) (Nat.pow_le_pow_right (by decide) (by omega)))]
      simp
  rw [h1, h2]
  have h3 : 2 ^ 10 * a &&& isLeafBit = 2 ^ 10 * ((2 ^ 10 * a &&& isLeafBit) / 2 ^ 10) := by
    have : (2 ^ 10 * a &&& isLeafBit) % 2 ^ 10 = 0 := by
      rw [Nat.and_mod_two_pow]; simp
    omega
  rw [h3, ← Nat.two_pow_add_eq_or_of_lt (by omega)]

/-- A placed unit before it gets its offset. -/
theorem mask_label (l : UInt8) (hl : Bool) :
    (l.toNat + (if hl then 256 else 0)) &&& (isLeafBit ||| hasLeafBit ||| 255) = l.toNat + (if hl then 256 else 0) := by
  have := label_lt l
  have := and_mask (a := 0) (b := l.toNat + (if hl then 256 else 0)) (by cases hl <;> simp <;> omega)
  simpa using this

/-- The root before it gets its offset. -/
theorem mask_root (hl : Bool) :
    (1024 + (if hl then 256 else 0)) &&& (isLeafBit ||| hasLeafBit ||| 255) = (0 : UInt8).toNat + (if hl then 256 else 0) := by
  cases hl <;> decide

theorem setHasLeaf_eq {w : Nat} (h : w / 256 % 2 = 0) : dictSetHasLeaf w = w + 256 := by
  unfold dictSetHasLeaf hasLeafBit
  have e1 := Nat.two_pow_add_eq_or_of_lt (i := 9) (b := w % 512) (by omega) (w / 512)
  have e2 := Nat.two_pow_add_eq_or_of_lt (i := 8) (b := w % 256) (by omega) 1
  have e3 := Nat.two_pow_add_eq_or_of_lt (i := 9) (b := 256 + w % 256) (by omega) (w / 512)
  have hw : w % 512 = w % 256 := by omega
  have e0 : w = 2 ^ 9 * (w / 512) ||| w % 256 := by rw [hw] at e1; omega
  have e4 : w % 256 ||| 256 = 256 + w % 256 := by rw [Nat.or_comm]; exact e2.symm
  calc w ||| 256 = (2 ^ 9 * (w / 512) ||| w % 256) ||| 256 := by rw [← e0]
    _ = 2 ^ 9 * (w / 512) ||| (256 + w % 256) := by rw [Nat.or_assoc, e4]
    _ = w + 256 := by rw [← e3]; omega

theorem setHasLeaf_idem {w : Nat} (h : w / 256 % 2 = 1) : dictSetHasLeaf w = w := by
  have := setHasLeaf_eq (w := w - 256) (by omega)
  unfold dictSetHasLeaf at *
  have h2 : w = (w - 256) ||| hasLeafBit := by rw [this]; omega
  rw [h2, Nat.or_assoc, Nat.or_self]

theorem nodeWord_setHasLeaf (l : UInt8) (hl : Bool) {off : Nat} (h : Enc off) :
    dictSetHasLeaf (nodeWord l hl off) = nodeWord l true off := by
  have h0 := label_lt l
  obtain ⟨h1, h2⟩ := h
  cases hl
  · rw [setHasLeaf_eq]
    · simp only [nodeWord, if_true, Bool.false_eq_true, if_false]; omega
    · unfold nodeWord encOff
      simp; split <;> omega
  · rw [setHasLeaf_idem]
    unfold nodeWord encOff
    simp; split <;> omega

/-- Every other relative offset is refused. -/
theorem setOffset_none {w off : Nat} (h : 536870912 ≤ off) : dictSetOffset w off = none := by
  unfold dictSetOffset
  rw [if_pos (by simp [u32, offsetMax]; omega)]

theorem enc_iff (off : Nat) (h : off < 536870912) :
    ((off &&& upperMask = 0) || (off &&& lowerMask = 0)) = true ↔ Enc off := by
  have h1 : off &&& lowerMask = off % 256 := and_255 off
  have h2 : off &&& upperMask = 0 ↔ off < 2097152 := by
    have hm : off = 2 ^ 21 * (off / 2 ^ 21) ||| off % 2 ^ 21 := by
      rw [← Nat.two_pow_add_eq_or_of_lt (Nat.mod_lt _ (by decide))]; omega
    have hand : off &&& upperMask = 2 ^ 21 * (off / 2 ^ 21) := by
      apply Nat.eq_of_testBit_eq
      intro i
      rw [Nat.testBit_and, Nat.testBit_two_pow_mul, Nat.testBit_div_two_pow]
      have hup : ∀ i, upperMask.testBit i = (decide (21 ≤ i) && decide (i < 32)) := by
        intro i
        rw [show upperMask = 2 ^ 21 * (2 ^ 11 - 1) by decide, Nat.testBit_two_pow_mul, Nat.testBit_two_pow_sub_one]
        by_cases h1 : 21 ≤ i
        · simp [h1]; omega
        · simp [h1]
      rw [hup]
      by_cases h1 : 21 ≤ i
      · by_cases h2 : i < 32
        · simp [h1, h2, Nat.sub_add_cancel h1]
        · have h3 : off.testBit i = false :=
            Nat.testBit_lt_two_pow (Nat.lt_of_lt_of_le h (Nat.pow_le_pow_right (by decide) (by omega) : 2 ^ 29 ≤ 2 ^ i))
          simp [h1, h3, Nat.sub_add_cancel h1]
      · simp [h1]
    rw [hand]; omega
  simp only [Bool.or_eq_true, decide_eq_true_eq, h1, h2, Enc, h, true_and]

/-! ## Extra units -/

@[simp] theorem next_setPrev (e : ExtraUnit) (p : Nat) : (e.setPrev p).next = e.next := rfl
@[simp] theorem isFixed_setPrev (e : ExtraUnit) (p : Nat) : (e.setPrev p).isFixed = e.isFixed := rfl
@[simp] theorem prev_setNext (e : ExtraUnit) (p : Nat) : (e.setNext p).prev = e.prev := rfl
@[simp] theorem isUsed_setNext (e : ExtraUnit) (p : Nat) : (e.setNext p).isUsed = e.isUsed := rfl
@[simp] theorem prev_setIsFixed (e : ExtraUnit) : (e.setIsFixed).prev = e.prev := rfl
@[simp] theorem isUsed_setIsFixed (e : ExtraUnit) : (e.setIsFixed).isUsed = e.isUsed := rfl
@[simp] theorem next_setIsUsed (e : ExtraUnit) : (e.setIsUsed).next = e.next := rfl
@[simp] theorem isFixed_setIsUsed (e : ExtraUnit) : (e.setIsUsed).isFixed = e.isFixed := rfl

theorem or_one_shift (w : Nat) : (w ||| 1) >>> 1 = w >>> 1 := by
  rw [Nat.shiftRight_or_distrib]; simp

theorem or_one_and (w : Nat) : (w ||| 1) &&& 1 = 1 := by
  rw [Nat.and_or_distrib_right]
  apply Nat.eq_of_testBit_eq; intro i
  rw [Nat.testBit_or, Nat.testBit_and]; cases (Nat.testBit 1 i) <;> simp

theorem pack_shift {w n : Nat} (hn : n < 2147483648) : ((w &&& 1) ||| u32 (n <<< 1)) >>> 1 = n := by
  rw [Nat.shiftRight_or_distrib, Nat.shiftLeft_eq, u32_of_lt (by omega)]
  have : (w &&& 1) >>> 1 = 0 := by
    rw [Nat.shiftRight_eq_div_pow, Nat.and_one_is_mod]; omega
  rw [this, Nat.shiftRight_eq_div_pow]; simp

theorem pack_and (w n : Nat) : ((w &&& 1) ||| u32 (n <<< 1)) &&& 1 = w &&& 1 := by
  rw [Nat.and_or_distrib_right, Nat.and_assoc]
  have : u32 (n <<< 1) &&& 1 = 0 := by
    rw [Nat.shiftLeft_eq, Nat.and_one_is_mod]; unfold u32; omega
  rw [this]; simp

theorem next_setNext (e : ExtraUnit) {n : Nat} (hn : n < 2147483648) : (e.setNext n).next = n := pack_shift hn
theorem prev_setPrev (e : ExtraUnit) {n : Nat} (hn : n < 2147483648) : (e.setPrev n).prev = n := pack_shift hn
@[simp] theorem isFixed_setNext (e : ExtraUnit) (n : Nat) : (e.setNext n).isFixed = e.isFixed := by
  simp only [ExtraUnit.isFixed, ExtraUnit.setNext, pack_and]
@[simp] theorem isUsed_setPrev (e : ExtraUnit) (n : Nat) : (e.setPrev n).isUsed = e.isUsed := by
  simp only [ExtraUnit.isUsed, ExtraUnit.setPrev, pack_and]
@[simp] theorem isFixed_setIsFixed (e : ExtraUnit) : (e.setIsFixed).isFixed = true := by
  simp only [ExtraUnit.isFixed, ExtraUnit.setIsFixed, or_one_and]; rfl
@[simp] theorem next_setIsFixed (e : ExtraUnit) : (e.setIsFixed).next = e.next := by
  simp only [ExtraUnit.next, ExtraUnit.setIsFixed, or_one_shift]
@[simp] theorem isUsed_setIsUsed (e : ExtraUnit) : (e.setIsUsed).isUsed = true := by
  simp only [ExtraUnit.isUsed, ExtraUnit.setIsUsed, or_one_and]; rfl
@[simp] theorem prev_setIsUsed (e : ExtraUnit) : (e.setIsUsed).prev = e.prev := by
  simp only [ExtraUnit.prev, ExtraUnit.setIsUsed, or_one_shift]

end Dawg.Dict
