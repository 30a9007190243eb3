import Verif.Proof.Dict.Bits
/-! # The window of extra units and the circular list of free units -/
namespace Dawg.Dict
open DictBuilder

/-- One block of extra units. -/
def blockOf (ex : Nat → ExtraUnit) (b : Nat) : List ExtraUnit := (List.range 256).map (fun j => ex (256 * b + j))

/-- The builder has `B` blocks; the last 16 have extra units, given by `ex`. -/
structure EX (units : List Nat) (extras : List (List ExtraUnit)) (B : Nat) (ex : Nat → ExtraUnit) : Prop where
  units : units.length = 256 * B
  len : extras.length = B
  get : ∀ b, b < B → extras[b]? = some (if b + 16 < B then [] else blockOf ex b)

/-- Index `i` is in the window. -/
def Win (B i : Nat) : Prop := i < 256 * B ∧ B ≤ i / 256 + 16

/-- Pointwise update. -/
def upd (ex : Nat → ExtraUnit) (i : Nat) (e : ExtraUnit) : Nat → ExtraUnit := fun j => if j = i then e else ex j

@[simp] theorem upd_same (ex : Nat → ExtraUnit) (i : Nat) (e : ExtraUnit) : upd ex i e i = e := by simp [upd]
theorem upd_ne (ex : Nat → ExtraUnit) {i j : Nat} (e : ExtraUnit) (h : j ≠ i) : upd ex i e j = ex j := by simp [upd, h]

theorem blockOf_length (ex : Nat → ExtraUnit) (b : Nat) : (blockOf ex b).length = 256 := by simp [blockOf]

theorem blockOf_get (ex : Nat → ExtraUnit) (b : Nat) {j : Nat} (h : j < 256) : (blockOf ex b)[j]? = some (ex (256 * b + j)) := by
  simp [blockOf, h]

theorem blockOf_ext {ex ex' : Nat → ExtraUnit} {b b' : Nat} (h : ∀ j, j < 256 → ex (256 * b + j) = ex' (256 * b' + j)) :
    blockOf ex b = blockOf ex' b' := by
  unfold blockOf
  apply List.map_congr_left
  intro j hj
  exact h j (List.mem_range.1 hj)

theorem blockOf_set (ex : Nat → ExtraUnit) (b : Nat) {j : Nat} (e : ExtraUnit) (_h : j < 256) :
    (blockOf ex b).set j e = blockOf (upd ex (256 * b + j) e) b := by
  apply List.ext_getElem?
  intro k
  rw [List.getElem?_set]
  by_cases hk : k < 256
  · rw [blockOf_get _ _ hk, blockOf_get _ _ hk, blockOf_length]
    by_cases hjk : j = k
    · subst hjk; simp [hk]
    · rw [if_neg hjk, upd_ne _ _ (by omega)]
  · rw [List.getElem?_eq_none (by rw [blockOf_length]; omega), List.getElem?_eq_none (by rw [blockOf_length]; omega), if_neg (by omega)]

theorem EX.win_get {us xs B ex} (h : EX us xs B ex) {i : Nat} (hw : Win B i) : xs[i / 256]? = some (blockOf ex (i / 256)) := by
  obtain ⟨h1, h2⟩ := hw
  rw [h.get (i / 256) (by omega), if_neg (by omega)]

theorem EX.extra {db : DictBuilder} {B ex} (h : EX db.units db.extras B ex) {i : Nat} (hw : Win B i) : db.extra i = .ok (ex i) := by
  have h1 := rd_some (h.win_get hw)
  have h2 := rd_some (blockOf_get ex (i / 256) (Nat.mod_lt i (by decide : 0 < 256)))
  rw [show 256 * (i / 256) + i % 256 = i by omega] at h2
  simp only [DictBuilder.extra, blockSize, h1, ok_bind, h2]

theorem EX.modExtra {db : DictBuilder} {B ex} (h : EX db.units db.extras B ex) {i : Nat} (hw : Win B i) (f : ExtraUnit → ExtraUnit) :
    ∃ xs, db.modExtra i f = .ok { db with extras := xs } ∧ EX db.units xs B (upd ex i (f (ex i))) := by
  have h1 := rd_some (h.win_get hw)
  have hm : i % 256 < 256 := Nat.mod_lt i (by decide)
  have h2 := rd_some (blockOf_get ex (i / 256) hm)
  have hi : 256 * (i / 256) + i % 256 = i := by omega
  rw [hi] at h2
  obtain ⟨hw1, hw2⟩ := hw
  have hl : i / 256 < db.extras.length := by rw [h.len]; omega
  refine ⟨db.extras.set (i / 256) (blockOf (upd ex i (f (ex i))) (i / 256)), ?_, h.units, by simp [h.len], ?_⟩
  · simp only [DictBuilder.modExtra, blockSize, h1, ok_bind, h2, wr_lt (show i % 256 < (blockOf ex (i / 256)).length by rw [blockOf_length]; exact hm),
      blockOf_set _ _ _ hm, hi, wr_lt hl, pure_eq_ok]
  · intro b hb
    rw [List.getElem?_set]
    by_cases hbi : i / 256 = b
    · subst hbi; rw [if_pos rfl, if_pos hl, if_neg (by omega)]
    · rw [if_neg hbi, h.get b hb]
      congr 1
      split
      · rfl
      · apply blockOf_ext
        intro j hj
        rw [upd_ne _ _ (by omega)]

/-- Index `i` is free: in the window and not fixed. -/
def Free (B : Nat) (ex : Nat → ExtraUnit) (i : Nat) : Prop := Win B i ∧ (ex i).isFixed = false

/-- The free units form circular lists; `uf` is on one, or there is none. -/
structure FL (B : Nat) (ex : Nat → ExtraUnit) (uf : Nat) : Prop where
  head : uf = 256 * B ∨ Free B ex uf
  next : ∀ i, Free B ex i → Free B ex (ex i).next
  prev : ∀ i, Free B ex i → Free B ex (ex i).prev
  np : ∀ i, Free B ex i → (ex (ex i).next).prev = i
  pn : ∀ i, Free B ex i → (ex (ex i).prev).next = i

theorem Free.lt {B ex i} (h : Free B ex i) (hB : B ≤ 2097152) : i < 2147483648 := by
  obtain ⟨⟨h, _⟩, _⟩ := h; omega

theorem unlink_spec {db : DictBuilder} {B ex i} (h : EX db.units db.extras B ex) (hfl : FL B ex db.unfixedIndex) (hB : B ≤ 2097152)
    (hi : Free B ex i) :
    ∃ xs uf ex', db.unlinkUnit i = .ok { db with extras := xs, unfixedIndex := uf } ∧ EX db.units xs B ex' ∧ FL B ex' uf ∧
      (∀ j, (ex' j).isFixed = ((ex j).isFixed || decide (j = i))) ∧ (∀ j, (ex' j).isUsed = (ex j).isUsed) := by
  have hn := hfl.next i hi
  have hp := hfl.prev i hi
  have hnl := hn.lt hB
  have hpl := hp.lt hB
  have hN : db.numOfUnits = 256 * B := by
    unfold DictBuilder.numOfUnits; rw [h.units, u32_of_lt (by omega)]
  -- the first step
  obtain ⟨uf, huf, hufs⟩ : ∃ uf, db.moveHead i = .ok { db with unfixedIndex := uf } ∧
      (uf = 256 * B ∨ (Free B ex uf ∧ uf ≠ i)) := by
    unfold DictBuilder.moveHead
    by_cases hc : i = db.unfixedIndex
    · rw [if_pos hc, h.extra hi.1]
      refine ⟨_, rfl, ?_⟩
      split
      · exact .inl hN
      · exact .inr ⟨hn, by assumption⟩
    · rw [if_neg hc]
      refine ⟨db.unfixedIndex, rfl, ?_⟩
      rcases hfl.head with h1 | h1
      · exact .inl h1
      · exact .inr ⟨h1, fun e => hc e.symm⟩
  obtain ⟨x1, e1, E1⟩ := EX.modExtra (db := { db with unfixedIndex := uf }) h hp.1 (fun x => x.setNext (ex i).next)
  have a1 : DictBuilder.extra { db with unfixedIndex := uf } i = .ok (ex i) := EX.extra (db := { db with unfixedIndex := uf }) h hi.1
  have a2 := EX.extra (db := { db with unfixedIndex := uf, extras := x1 }) E1 hi.1
  have hnext1 : (upd ex (ex i).prev ((ex (ex i).prev).setNext (ex i).next) i).next = (ex i).next := by
    by_cases hc : i = (ex i).prev
    · have hs : upd ex (ex i).prev ((ex (ex i).prev).setNext (ex i).next) i = (ex (ex i).prev).setNext (ex i).next := by
        unfold upd; rw [if_pos hc]
      rw [hs, next_setNext _ hnl]
    · rw [upd_ne _ _ hc]
  have hprev1 : (upd ex (ex i).prev ((ex (ex i).prev).setNext (ex i).next) i).prev = (ex i).prev := by
    by_cases hc : i = (ex i).prev
    · have hs : upd ex (ex i).prev ((ex (ex i).prev).setNext (ex i).next) i = (ex (ex i).prev).setNext (ex i).next := by
        unfold upd; rw [if_pos hc]
      rw [hs, prev_setNext]
      exact congrArg (fun x => (ex x).prev) hc.symm
    · rw [upd_ne _ _ hc]
  obtain ⟨x2, e2, E2⟩ := EX.modExtra (db := { db with unfixedIndex := uf, extras := x1 }) E1 hn.1 (fun x => x.setPrev (ex i).prev)
  obtain ⟨x3, e3, E3⟩ := EX.modExtra (db := { db with unfixedIndex := uf, extras := x2 }) E2 hi.1 ExtraUnit.setIsFixed
  refine ⟨x3, uf, _, ?_, E3, ?_, ?_, ?_⟩
  · unfold DictBuilder.unlinkUnit
    rw [huf]
    simp only [ok_bind, a1, e1, a2, hnext1, hprev1, e2]
    exact e3
  all_goals
    generalize hx' : upd (upd (upd ex (ex i).prev ((ex (ex i).prev).setNext (ex i).next)) (ex i).next
      ((upd ex (ex i).prev ((ex (ex i).prev).setNext (ex i).next) (ex i).next).setPrev (ex i).prev)) i
      ((upd (upd ex (ex i).prev ((ex (ex i).prev).setNext (ex i).next)) (ex i).next
      ((upd ex (ex i).prev ((ex (ex i).prev).setNext (ex i).next) (ex i).next).setPrev (ex i).prev) i).setIsFixed) = ex'
    have hfix : ∀ j, (ex' j).isFixed = ((ex j).isFixed || decide (j = i)) := by
      intro j; subst hx'; unfold upd; grind [isFixed_setNext, isFixed_setPrev, isFixed_setIsFixed]
    have huse : ∀ j, (ex' j).isUsed = (ex j).isUsed := by
      intro j; subst hx'; unfold upd; grind [isUsed_setNext, isUsed_setPrev, isUsed_setIsFixed]
    have hnx : ∀ j, (ex' j).next = if j = (ex i).prev then (ex i).next else (ex j).next := by
      intro j; subst hx'; unfold upd; grind [next_setNext, next_setPrev, next_setIsFixed]
    have hpv : ∀ j, (ex' j).prev = if j = (ex i).next then (ex i).prev else (ex j).prev := by
      intro j; subst hx'; unfold upd; grind [prev_setNext, prev_setPrev, prev_setIsFixed]
  · have hfree : ∀ j, Free B ex' j ↔ Free B ex j ∧ j ≠ i := by
      intro j
      unfold Free
      rw [hfix]
      simp only [Bool.or_eq_false_iff, decide_eq_false_iff_not]
      constructor
      · rintro ⟨a, b, c⟩; exact ⟨⟨a, b⟩, c⟩
      · rintro ⟨⟨a, b⟩, c⟩; exact ⟨a, b, c⟩
    have hnpi := hfl.np i hi
    have hpni := hfl.pn i hi
    refine ⟨?_, ?_, ?_, ?_, ?_⟩
    · rcases hufs with h1 | h1
      · exact .inl h1
      · exact .inr ((hfree uf).2 h1)
    · intro j hj
      obtain ⟨hj1, hj2⟩ := (hfree j).1 hj
      rw [hnx]
      have := hfl.next j hj1
      have := hfl.np j hj1
      split
      · refine (hfree _).2 ⟨hn, ?_⟩; grind
      · refine (hfree _).2 ⟨by assumption, ?_⟩; grind
    · intro j hj
      obtain ⟨hj1, hj2⟩ := (hfree j).1 hj
      rw [hpv]
      have := hfl.prev j hj1
      have := hfl.pn j hj1
      split
      · refine (hfree _).2 ⟨hp, ?_⟩; grind
      · refine (hfree _).2 ⟨by assumption, ?_⟩; grind
    · intro j hj
      obtain ⟨hj1, hj2⟩ := (hfree j).1 hj
      have := hfl.np j hj1
      rw [hnx, hpv]; grind
    · intro j hj
      obtain ⟨hj1, hj2⟩ := (hfree j).1 hj
      have := hfl.pn j hj1
      rw [hpv, hnx]; grind
  · exact hfix
  · exact huse

end Dawg.Dict
