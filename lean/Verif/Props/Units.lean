import Verif.Proof.Dict.Bits
import Verif.Model.Index
/-! # C84: the fields of the units

A unit of a dictionary is a word of 32 bits which is cut into a label, two flags and an offset.  The
specification of the fields is arithmetic: division and remainder, no masks and no shifts. -/
namespace Dawg.Props
open Dawg Dawg.Dict

/-! ## Specification: the fields of a word -/

/-- Bits 0-7. -/
def labelField (w : Nat) : Nat := w % 256
/-- Bit 8. -/
def hasLeafField (w : Nat) : Bool := w / 256 % 2 = 1
/-- Bit 9. -/
def extField (w : Nat) : Bool := w / 512 % 2 = 1
/-- Bit 31. -/
def leafField (w : Nat) : Bool := w / 2147483648 % 2 = 1
/-- Bits 10-31, which count blocks of 256 units if bit 9 is set. -/
def offsetField (w : Nat) : Nat := if extField w then w / 1024 % 16777216 * 256 else w / 1024
/-- The distances that fit into bits 10-30. -/
def Fits (offset : Nat) : Prop := offset < 2 ^ 21 ∨ (offset < 2 ^ 29 ∧ offset % 256 = 0)

/-! ## Lemmas -/

theorem units_and_31 (w : Nat) : (w &&& 2147483648) = 2147483648 * (w / 2147483648 % 2) := by
  have h1 : w &&& 2 ^ 31 = 2 ^ 31 * (w.testBit 31).toNat := and_two_pow w 31
  rw [show (2147483648 : Nat) = 2 ^ 31 from rfl, h1, Nat.toNat_testBit]

theorem units_label (w : Nat) : (dictLabel w).toNat = labelField w := by
  rw [dictLabel_mod]; rfl

theorem units_hasLeaf (w : Nat) : dictHasLeaf w = hasLeafField w := by
  unfold dictHasLeaf hasLeafBit hasLeafField; exact testBit_8 w

theorem units_ext (w : Nat) : dictHasExtBit w = extField w := by
  unfold dictHasExtBit extensionBit extField
  rw [testBit_9, Bool.eq_iff_iff]
  simp only [bne_iff_ne, decide_eq_true_eq]
  omega

theorem units_leaf (w : Nat) : dictIsLeaf w = leafField w := by
  unfold dictIsLeaf isLeafBit leafField
  rw [units_and_31 w, Bool.eq_iff_iff]
  simp only [bne_iff_ne, decide_eq_true_eq]
  omega

theorem units_offset (w : Nat) (h : w < 4294967296) : dictOffset w = offsetField w := by
  unfold dictOffset offsetField extField extensionBit
  rw [testBit_9, Nat.shiftRight_eq_div_pow, show 2 ^ 10 = 1024 from rfl]
  by_cases hb : w / 512 % 2 = 1
  · rw [hb, show (512 * 1) >>> 6 = 8 by decide, Nat.shiftLeft_eq]
    simp only [u32, decide_true, if_true]
    omega
  · have hb' : w / 512 % 2 = 0 := by omega
    rw [hb']
    simp [u32]
    omega

theorem units_setLabel (w : Nat) (l : UInt8) (h : w < 4294967296) :
    dictSetLabel w l = w / 256 * 256 + l.toNat := by
  unfold dictSetLabel
  have e : w &&& 4294967040 = w / 256 * 256 := by
    apply Nat.eq_of_testBit_eq
    intro i
    rw [Nat.mul_comm, show (256 : Nat) = 2 ^ 8 from rfl, Nat.testBit_and, Nat.testBit_two_pow_mul,
      Nat.testBit_div_two_pow, show 4294967040 = 2 ^ 8 * (2 ^ 24 - 1) by decide, Nat.testBit_two_pow_mul,
      Nat.testBit_two_pow_sub_one]
    by_cases h1 : 8 ≤ i
    · by_cases h2 : i < 32
      · have : i - 8 < 24 := by omega
        simp [h1, Nat.sub_add_cancel h1, this]
      · have h3 : w.testBit i = false :=
          Nat.testBit_lt_two_pow (Nat.lt_of_lt_of_le h (Nat.pow_le_pow_right (by decide) (by omega) : 2 ^ 32 ≤ 2 ^ i))
        simp [h1, h3, Nat.sub_add_cancel h1]
    · simp [h1]
  rw [e, or_label l (by omega)]

theorem units_setHasLeaf (w : Nat) : dictSetHasLeaf w = if hasLeafField w then w else w + 256 := by
  unfold hasLeafField
  by_cases h : w / 256 % 2 = 1
  · simp [h, setHasLeaf_idem h]
  · rw [setHasLeaf_eq (by omega)]; simp [h]

theorem units_mask (w : Nat) (h : w < 2147483648) : w &&& (isLeafBit ||| hasLeafBit ||| 255) = w % 512 := by
  apply Nat.eq_of_testBit_eq
  intro i
  rw [Nat.testBit_and, show (512 : Nat) = 2 ^ 9 from rfl, Nat.testBit_mod_two_pow,
    show (isLeafBit ||| hasLeafBit ||| 255 : Nat) = 2 ^ 31 ||| (2 ^ 9 - 1) by decide, Nat.testBit_or,
    Nat.testBit_two_pow_sub_one, Nat.testBit_two_pow]
  by_cases hi : i < 9
  · simp [hi]
  · by_cases h31 : i = 31
    · subst h31; simp [Nat.testBit_lt_two_pow (show w < 2 ^ 31 from h)]
    · have : ¬ 31 = i := by omega
      simp [hi, this]

theorem units_low (w : Nat) : w % 512 = (UInt8.ofNat w).toNat + (if hasLeafField w then 256 else 0) := by
  unfold hasLeafField
  simp only [UInt8.toNat_ofNat', decide_eq_true_eq]
  split <;> omega

theorem units_setOffset (w offset : Nat) (hw : w < 2147483648) (h : Fits offset) :
    dictSetOffset w offset = some (w % 512 + encOff offset) := by
  rw [setOffset_eq (UInt8.ofNat w) (hasLeafField w) (by rw [units_mask w hw, units_low]) ⟨by unfold Fits at h; omega, by unfold Fits at h; omega⟩]
  rw [units_low]; rfl

/-! ## C84 -/

/-- **C84, the readers**: each function that reads a unit reads the field it is named after, in every word. -/
theorem C84_readers (w : Nat) (h : w < 2 ^ 32) :
    (dictLabel w).toNat = labelField w ∧ dictHasLeaf w = hasLeafField w ∧ dictHasExtBit w = extField w ∧
    dictIsLeaf w = leafField w ∧ dictOffset w = offsetField w ∧ dictValue w = w % 2 ^ 31 :=
  ⟨units_label w, units_hasLeaf w, units_ext w, units_leaf w, units_offset w h, dictValue_eq w⟩

example : labelField 1377 = 97 ∧ hasLeafField 1377 = true ∧ offsetField 1377 = 1 ∧
    (dictLabel 1377, dictHasLeaf 1377, dictOffset 1377) = (97, true, 1) := by decide +kernel

/-- **C84, the label**: setting the label sets the label and nothing else. -/
theorem C84_label (w : Nat) (l : UInt8) (h : w < 2 ^ 32) :
    dictSetLabel w l < 2 ^ 32 ∧ labelField (dictSetLabel w l) = l.toNat ∧
    hasLeafField (dictSetLabel w l) = hasLeafField w ∧ leafField (dictSetLabel w l) = leafField w ∧
    extField (dictSetLabel w l) = extField w ∧ offsetField (dictSetLabel w l) = offsetField w := by
  rw [units_setLabel w l h]
  have hl := label_lt l
  have e1 : (w / 256 * 256 + l.toNat) / 256 = w / 256 := by omega
  have e2 : (w / 256 * 256 + l.toNat) / 512 = w / 512 := by omega
  have e3 : (w / 256 * 256 + l.toNat) / 1024 = w / 1024 := by omega
  have e4 : (w / 256 * 256 + l.toNat) / 2147483648 = w / 2147483648 := by omega
  unfold labelField hasLeafField leafField offsetField extField
  rw [e1, e2, e3, e4]
  refine ⟨by omega, by omega, rfl, rfl, rfl, rfl⟩

example : dictSetLabel 1377 98 = 1378 := by decide +kernel

/-- **C84, the leaf flag**: setting the flag sets the flag and nothing else. -/
theorem C84_hasLeaf (w : Nat) (h : w < 2 ^ 32) :
    dictSetHasLeaf w < 2 ^ 32 ∧ hasLeafField (dictSetHasLeaf w) = true ∧
    labelField (dictSetHasLeaf w) = labelField w ∧ leafField (dictSetHasLeaf w) = leafField w ∧
    extField (dictSetHasLeaf w) = extField w ∧ offsetField (dictSetHasLeaf w) = offsetField w := by
  rw [units_setHasLeaf]
  unfold labelField hasLeafField leafField offsetField extField
  by_cases hb : w / 256 % 2 = 1
  · simp [hb]; omega
  · have e2 : (w + 256) / 512 = w / 512 := by omega
    have e3 : (w + 256) / 1024 = w / 1024 := by omega
    have e4 : (w + 256) / 2147483648 = w / 2147483648 := by omega
    simp only [hb, decide_false, Bool.false_eq_true, if_false, e2, e3, e4, decide_eq_true_eq, and_self, and_true]
    omega

example : dictSetHasLeaf 1121 = 1377 ∧ dictSetHasLeaf 1377 = 1377 := by decide +kernel

/-- **C84, the value**: a leaf keeps every value that is not negative. -/
theorem C84_value (v : Nat) (h : v < 2 ^ 31) :
    dictSetValue v < 2 ^ 32 ∧ dictValue (dictSetValue v) = v ∧ leafField (dictSetValue v) = true := by
  rw [setValue_eq h, leafWord_value]
  unfold leafWord leafField
  refine ⟨by omega, by omega, ?_⟩
  simp only [decide_eq_true_eq]; omega

example : dictSetValue 354 = 2147484002 ∧ dictValue 2147484002 = 354 := by decide +kernel

/-- **C84, full claim**: whenever `dictSetOffset` reports success, the offset that was given is read again
and the other fields are as before. -/
def C84_statement : Prop :=
  ∀ w offset w' : Nat, w < 2 ^ 31 → offset < 2 ^ 32 → dictSetOffset w offset = some w' →
    offsetField w' = offset ∧ labelField w' = labelField w ∧ hasLeafField w' = hasLeafField w

/-- C84 is false: the offset 2^21 + 1 is accepted for a unit with the label 'a', and afterwards the offset
is 2^21 and the label is 'e'. -/
theorem C84_offset_false : ¬ C84_statement := by
  intro h
  have := (h 97 2097153 8389221 (by decide) (by decide) (by decide +kernel)).2.1
  revert this; decide

example : dictSetOffset 97 2097153 = some 8389221 ∧ dictLabel 8389221 = 101 ∧ dictOffset 8389221 = 2097152 := by
  decide +kernel

/-- **C84 (partial)**: success is reported exactly below 2^29; then the offset that was given is read again
exactly if it is below 2^21 or a multiple of 256, and in this case the other fields are as before and the
extension bit tells which of the two cases it is.  Missing: the other offsets, for which the claim is false.
That the builder never asks for them is part of C80. -/
theorem C84_offset_partial (w offset : Nat) (hw : w < 2 ^ 31) :
    (dictSetOffset w offset = none ↔ 2 ^ 29 ≤ offset) ∧
    ∀ w', dictSetOffset w offset = some w' →
      (offsetField w' = offset ↔ Fits offset) ∧
      (Fits offset → labelField w' = labelField w ∧ hasLeafField w' = hasLeafField w ∧ w' < 2 ^ 31 ∧
        (extField w' = true ↔ 2 ^ 21 ≤ offset)) := by
  have hn : dictSetOffset w offset = none ↔ 2 ^ 29 ≤ offset := by
    constructor
    · intro h
      apply Classical.byContradiction
      intro hlt
      unfold dictSetOffset at h
      rw [if_neg (by simp [u32, offsetMax]; omega)] at h
      revert h
      dsimp only
      split <;> simp
    · exact setOffset_none
  refine ⟨hn, fun w' hs => ?_⟩
  have hlt : offset < 536870912 := by
    apply Classical.byContradiction
    intro h
    rw [hn.mpr (by omega)] at hs; cases hs
  have hfit : Fits offset → offsetField w' = offset ∧ labelField w' = labelField w ∧
      hasLeafField w' = hasLeafField w ∧ w' < 2 ^ 31 ∧ (extField w' = true ↔ 2 ^ 21 ≤ offset) := by
    intro hf
    rw [units_setOffset w offset hw hf] at hs
    cases hs
    unfold Fits at hf
    unfold labelField hasLeafField offsetField extField encOff
    by_cases h21 : offset < 2097152
    · have e2 : (w % 512 + offset * 1024) / 512 % 2 = 0 := by omega
      simp only [h21, if_true, e2]
      refine ⟨?_, by omega, ?_, by omega, ?_⟩
      · simp; omega
      · congr 1; simp only [eq_iff_iff]; omega
      · simp; omega
    · have e2 : (w % 512 + (offset * 4 + 512)) / 512 % 2 = 1 := by omega
      simp only [h21, if_false, e2]
      refine ⟨?_, by omega, ?_, by omega, ?_⟩
      · simp; omega
      · congr 1; simp only [eq_iff_iff]; omega
      · simp; omega
  refine ⟨⟨fun h => ?_, fun h => (hfit h).1⟩, fun h => (hfit h).2⟩
  apply Classical.byContradiction
  intro hnf
  have h21 : ¬ offset < 2097152 := fun h' => hnf (Or.inl h')
  have h8 : offset % 256 ≠ 0 := fun h' => hnf (Or.inr ⟨hlt, h'⟩)
  unfold dictSetOffset at hs
  rw [if_neg (by simp [u32, offsetMax]; omega)] at hs
  dsimp only at hs
  rw [if_neg (by unfold offsetMax; exact h21)] at hs
  have hx : extField w' = true := by
    cases hs
    unfold extField
    rw [decide_eq_true_eq, show (512 : Nat) = 2 ^ 9 from rfl]
    have := Nat.toNat_testBit ((w &&& (isLeafBit ||| hasLeafBit ||| 255)) ||| (u32 (offset <<< 2) ||| extensionBit)) 9
    rw [← this, Nat.testBit_or, Nat.testBit_or, show extensionBit.testBit 9 = true by decide]
    simp
  unfold offsetField at h
  rw [if_pos hx] at h
  omega

/-- The first block beyond 2^21 units is reached with the extension bit. -/
example : dictSetOffset 353 2097408 = some 8390497 ∧ offsetField 8390497 = 2097408 ∧ labelField 8390497 = 97 ∧
    hasLeafField 8390497 = true ∧ Fits 2097408 ∧ ¬ Fits 2097153 := by unfold Fits; decide +kernel

/-! ## Extra units and units of the Dawg -/

theorem units_or_flag (a f : Nat) (hf : f < 2) : f ||| (2 * a) = 2 * a + f := by
  have e := Nat.two_pow_add_eq_or_of_lt (i := 1) (b := f) hf a
  rw [Nat.or_comm]; simpa using e.symm

theorem units_and_1 (w : Nat) : w &&& 1 = w % 2 := Nat.and_two_pow_sub_one_eq_mod w 1

/-- **C84, the links of the free list**: an extra unit keeps two numbers below 2^31 and two flags, and
setting one of them does not change the others. -/
theorem C84_extra (e : ExtraUnit) (n : Nat) (h : n < 2 ^ 31) :
    ((e.setNext n).next, (e.setNext n).prev, (e.setNext n).isFixed, (e.setNext n).isUsed) =
      (n, e.prev, e.isFixed, e.isUsed) ∧
    ((e.setPrev n).next, (e.setPrev n).prev, (e.setPrev n).isFixed, (e.setPrev n).isUsed) =
      (e.next, n, e.isFixed, e.isUsed) ∧
    (e.setIsFixed.next, e.setIsFixed.prev, e.setIsFixed.isFixed, e.setIsFixed.isUsed) =
      (e.next, e.prev, true, e.isUsed) ∧
    (e.setIsUsed.next, e.setIsUsed.prev, e.setIsUsed.isFixed, e.setIsUsed.isUsed) =
      (e.next, e.prev, e.isFixed, true) := by
  have key : ∀ w : Nat, ((w % 2) ||| u32 (n <<< 1)) = 2 * n + w % 2 := by
    intro w
    rw [Nat.shiftLeft_eq, u32_of_lt (by omega), show n * 2 ^ 1 = 2 * n by omega, units_or_flag _ _ (by omega)]
  have key1 : ∀ w : Nat, (w ||| 1) = 2 * (w / 2) + 1 := by
    intro w
    have e1 := units_or_flag (w / 2) (w % 2) (by omega)
    have e2 := units_or_flag (w / 2) 1 (by omega)
    have : w % 2 ||| 1 = 1 := by
      have : w % 2 = 0 ∨ w % 2 = 1 := by omega
      rcases this with h | h <;> rw [h] <;> rfl
    calc w ||| 1 = (2 * (w / 2) + w % 2) ||| 1 := by congr 1; omega
      _ = (2 * (w / 2)) ||| (w % 2 ||| 1) := by rw [← e1, Nat.or_comm (w % 2), Nat.or_assoc]
      _ = 2 * (w / 2) + 1 := by rw [this, Nat.or_comm, e2]
  unfold ExtraUnit.setNext ExtraUnit.setPrev ExtraUnit.setIsFixed ExtraUnit.setIsUsed ExtraUnit.next ExtraUnit.prev
    ExtraUnit.isFixed ExtraUnit.isUsed
  simp only [units_and_1, key, key1, Nat.shiftRight_eq_div_pow, Prod.mk.injEq, Nat.pow_one, and_true, true_and]
  refine ⟨⟨by omega, ?_⟩, ⟨by omega, ?_⟩, ⟨by omega, ?_⟩, ⟨by omega, ?_⟩⟩
  · congr 1; omega
  · congr 1; omega
  · simp
  · simp

example : ((ExtraUnit.empty.setNext 5).setPrev 7).setIsUsed = ⟨10, 15⟩ := by decide +kernel

/-- **C84, the units of a Dawg**: a unit with a label keeps the number of its child if this is below 2^30, a
leaf keeps its value if this is not negative, and the flags are kept. -/
theorem C84_base (u : DawgUnit) :
    (u.label ≠ 0 → u.child < 2 ^ 30 →
      baseChild u.base = u.child ∧ baseIsState u.base = u.isState ∧ baseHasSibling u.base = u.hasSibling) ∧
    (∀ v : Int, u.label = 0 → 0 ≤ v → v < 2 ^ 31 →
      (baseValue (u.setValue v).base : Int) = v ∧ (u.setValue v).value = v ∧
      baseHasSibling (u.setValue v).base = u.hasSibling) := by
  obtain ⟨child, sibling, label, st, sib⟩ := u
  have or1 : ∀ a : Nat, (2 * a ||| 1) = 2 * a + 1 := fun a => by rw [Nat.or_comm, units_or_flag _ _ (by omega)]
  have or2 : ∀ a : Nat, (4 * a ||| 2) = 4 * a + 2 := fun a => by
    have := Nat.two_pow_add_eq_or_of_lt (i := 2) (b := 2) (by omega) a; simpa using this.symm
  have or3 : ∀ a : Nat, (4 * a ||| 1) = 4 * a + 1 := fun a => by
    have := Nat.two_pow_add_eq_or_of_lt (i := 2) (b := 1) (by omega) a; simpa using this.symm
  have and2 : ∀ w : Nat, (w &&& 2) = 2 * (w / 2 % 2) := fun w => by
    have h1 : w &&& 2 ^ 1 = 2 ^ 1 * (w.testBit 1).toNat := and_two_pow w 1
    rw [Nat.toNat_testBit] at h1; simpa using h1
  constructor
  · intro hl hc
    have hb : DawgUnit.base ⟨child, sibling, label, st, sib⟩ =
        4 * child + (if st then 2 else 0) + (if sib then 1 else 0) := by
      unfold DawgUnit.base
      dsimp only at hl hc ⊢
      rw [if_neg hl, Nat.shiftLeft_eq, u32_of_lt (by omega), show child * 2 ^ 2 = 4 * child by omega]
      cases st <;> cases sib <;> simp [or2, or3]
      have : 4 * child + 2 = 2 * (2 * child + 1) := by omega
      rw [this, or1]
    rw [hb]
    unfold baseChild baseIsState baseHasSibling
    rw [and2, units_and_1, Nat.shiftRight_eq_div_pow]
    dsimp only at hc ⊢
    refine ⟨by cases st <;> cases sib <;> simp <;> omega, ?_, ?_⟩
    · cases st <;> cases sib <;> simp <;> omega
    · cases st <;> cases sib <;> simp <;> omega
  · intro v hl h0 h31
    have hv : baseOfValue v = v.toNat := by unfold baseOfValue; rw [Int.emod_eq_of_lt h0 (by omega)]
    have hb : (DawgUnit.setValue ⟨child, sibling, label, st, sib⟩ v).base = 2 * v.toNat + (if sib then 1 else 0) := by
      unfold DawgUnit.base DawgUnit.setValue
      dsimp only at hl ⊢
      rw [if_pos hl, hv, Nat.shiftLeft_eq, u32_of_lt (by omega), show v.toNat * 2 ^ 1 = 2 * v.toNat by omega]
      cases sib <;> simp [or1]
    rw [hb]
    unfold baseValue baseHasSibling DawgUnit.value DawgUnit.setValue
    rw [units_and_1, Nat.shiftRight_eq_div_pow, hv]
    dsimp only
    refine ⟨?_, ?_, ?_⟩
    · cases sib <;> simp <;> omega
    · split <;> omega
    · cases sib <;> simp

example : (DawgUnit.base ⟨5, 0, 97, true, false⟩, DawgUnit.base ⟨354, 0, 0, false, true⟩) = (22, 709) := by
  decide +kernel

/-- Values that are negative are changed by the units of a Dawg (see C10). -/
example : (baseValue ((DawgUnit.empty.setValue (-1)).base)) = 2147483647 := by decide +kernel

end Dawg.Props
