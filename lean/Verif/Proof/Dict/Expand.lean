import Verif.Proof.Dict.Extras
/-! # Fixing blocks and expanding the dictionary -/
namespace Dawg.Dict
open DictBuilder

theorem modUnit_ok {db : DictBuilder} {i w : Nat} (h : db.units[i]? = some w) (f : Nat → Nat) :
    db.modUnit i f = .ok { db with units := db.units.set i (f w) } := by
  have hl : i < db.units.length := (List.getElem?_eq_some_iff.1 h).1
  simp only [DictBuilder.modUnit, rd_some h, ok_bind, wr_lt hl, pure_eq_ok]

theorem findUnused_spec {db : DictBuilder} {B ex} (h : EX db.units db.extras B ex) : ∀ (n i : Nat), (∀ j, i ≤ j → j < i + n → Win B j) →
    ∃ o, db.findUnusedOffset n i = .ok o ∧
      ((∃ j, i ≤ j ∧ j < i + n ∧ (ex j).isUsed = false) → i ≤ o ∧ o < i + n ∧ (ex o).isUsed = false)
  | 0, i, _ => ⟨0, rfl, by rintro ⟨j, h1, h2, _⟩; omega⟩
  | n + 1, i, hw => by
    have hx := h.extra (hw i (Nat.le_refl _) (by omega))
    unfold DictBuilder.findUnusedOffset
    simp only [hx, ok_bind]
    cases hu : (ex i).isUsed with
    | false => exact ⟨i, rfl, fun _ => ⟨Nat.le_refl _, by omega, hu⟩⟩
    | true =>
      obtain ⟨o, e1, e2⟩ := findUnused_spec h n (i + 1) (fun j h1 h2 => hw j (by omega) (by omega))
      refine ⟨o, by simpa using e1, ?_⟩
      rintro ⟨j, h1, h2, h3⟩
      have : j ≠ i := by rintro rfl; rw [hu] at h3; cases h3
      obtain ⟨a, b, c⟩ := e2 ⟨j, by omega, by omega, h3⟩
      exact ⟨by omega, by omega, c⟩

theorem fixBlockLoop_spec {B : Nat} (hB : B ≤ 2097152) (un : Nat) : ∀ (n i : Nat) (db : DictBuilder) (ex : Nat → ExtraUnit),
    EX db.units db.extras B ex → FL B ex db.unfixedIndex → (∀ j, i ≤ j → j < i + n → Win B j) →
    ∃ us xs uf num ex', DictBuilder.fixBlockLoop un n i db =
        .ok { db with units := us, extras := xs, unfixedIndex := uf, numOfUnusedUnits := num } ∧
      EX us xs B ex' ∧ FL B ex' uf ∧
      (∀ j, (ex' j).isFixed = ((ex j).isFixed || decide (i ≤ j ∧ j < i + n))) ∧
      (∀ j, (ex' j).isUsed = (ex j).isUsed) ∧
      (∀ j, us[j]? = if i ≤ j ∧ j < i + n ∧ (ex j).isFixed = false then (db.units[j]?).map (fun w => dictSetLabel w (UInt8.ofNat (j ^^^ un)))
        else db.units[j]?) ∧
      num = db.numOfUnusedUnits + (List.range' i n).countP (fun j => !(ex j).isFixed)
  | 0, i, db, ex, h, hfl, _ => by
    refine ⟨_, _, _, _, ex, rfl, h, hfl, ?_, fun _ => rfl, ?_, by simp⟩
    · intro j; simp; omega
    · intro j; rw [if_neg (by omega)]
  | n + 1, i, db, ex, h, hfl, hw => by
    have hwi := hw i (Nat.le_refl _) (by omega)
    have hx := h.extra hwi
    rw [DictBuilder.fixBlockLoop]
    simp only [hx, ok_bind]
    have hcons : (List.range' i (n + 1)) = i :: List.range' (i + 1) n := List.range'_succ
    cases hf : (ex i).isFixed with
    | true =>
      simp only [if_true]
      obtain ⟨us, xs, uf, num, ex', e1, e2, e3, e4, e5, e6, e7⟩ :=
        fixBlockLoop_spec hB un n (i + 1) db ex h hfl (fun j h1 h2 => hw j (by omega) (by omega))
      refine ⟨us, xs, uf, num, ex', e1, e2, e3, ?_, e5, ?_, ?_⟩
      · intro j
        rw [e4]
        by_cases hji : j = i
        · subst hji; simp [hf]
        · congr 1; rw [decide_eq_decide]; omega
      · intro j
        rw [e6]
        by_cases hji : j = i
        · subst hji; simp [hf]
        · have : (i + 1 ≤ j ∧ j < i + 1 + n ∧ (ex j).isFixed = false) ↔ (i ≤ j ∧ j < i + (n + 1) ∧ (ex j).isFixed = false) := by
            constructor <;> rintro ⟨a, b, c⟩ <;> exact ⟨by omega, by omega, c⟩
          by_cases hc : i ≤ j ∧ j < i + (n + 1) ∧ (ex j).isFixed = false
          · rw [if_pos hc, if_pos (this.2 hc)]
          · rw [if_neg hc, if_neg (fun h => hc (this.1 h))]
      · rw [e7, hcons, List.countP_cons]; simp [hf]
    | false =>
      simp only [Bool.false_eq_true, if_false]
      obtain ⟨xs, uf, ex1, u1, u2, u3, u4, u5⟩ := unlink_spec h hfl hB ⟨hwi, hf⟩
      rw [u1]
      have hil : i < db.units.length := by rw [h.units]; exact hwi.1
      have hget : db.units[i]? = some db.units[i] := by simp [hil]
      have hmod := modUnit_ok (db := { db with extras := xs, unfixedIndex := uf }) hget (fun u => dictSetLabel u (UInt8.ofNat (i ^^^ un)))
      simp only [ok_bind, hmod]
      obtain ⟨us, xs', uf', num, ex', e1, e2, e3, e4, e5, e6, e7⟩ :=
        fixBlockLoop_spec hB un n (i + 1)
          { db with units := db.units.set i (dictSetLabel db.units[i] (UInt8.ofNat (i ^^^ un))), extras := xs, unfixedIndex := uf,
                    numOfUnusedUnits := db.numOfUnusedUnits + 1 } ex1
          ⟨by simpa using u2.units, u2.len, u2.get⟩ u3 (fun j h1 h2 => hw j (by omega) (by omega))
      refine ⟨us, xs', uf', num, ex', e1, e2, e3, ?_, fun j => by rw [e5, u5], ?_, ?_⟩
      · intro j
        rw [e4, u4, Bool.or_assoc]
        congr 1
        rw [← Bool.decide_or, decide_eq_decide]; omega
      · intro j
        rw [e6, u4, List.getElem?_set]
        by_cases hji : j = i
        · subst hji; simp [hil, hf]
        · have hij : ¬ i = j := fun h => hji h.symm
          have : (i + 1 ≤ j ∧ j < i + 1 + n ∧ ((ex j).isFixed || decide (j = i)) = false) ↔ (i ≤ j ∧ j < i + (n + 1) ∧ (ex j).isFixed = false) := by
            simp only [hji, decide_false, Bool.or_false]
            constructor <;> rintro ⟨a, b, c⟩ <;> exact ⟨by omega, by omega, c⟩
          by_cases hc : i ≤ j ∧ j < i + (n + 1) ∧ (ex j).isFixed = false
          · rw [if_pos hc, if_pos (this.2 hc), if_neg hij]
          · rw [if_neg hc, if_neg (fun h => hc (this.1 h)), if_neg hij]
      · rw [e7, hcons, List.countP_cons]
        simp only [hf, Bool.not_false, if_true]
        have : (List.range' (i + 1) n).countP (fun j => !(ex1 j).isFixed) = (List.range' (i + 1) n).countP (fun j => !(ex j).isFixed) := by
          apply List.countP_congr
          intro j hj
          have : j ≠ i := by have := List.mem_range'.1 hj; omega
          simp [u4, this]
        rw [this]; omega

/-- Fixing block `b`. -/
theorem fixBlock_spec {B : Nat} (hB : B ≤ 2097152) {b : Nat} {db : DictBuilder} {ex : Nat → ExtraUnit} (h : EX db.units db.extras B ex)
    (hfl : FL B ex db.unfixedIndex) (hb1 : b < B) (hb2 : B ≤ b + 16) :
    ∃ us xs uf num ex' un, db.fixBlock b = .ok { db with units := us, extras := xs, unfixedIndex := uf, numOfUnusedUnits := num } ∧
      EX us xs B ex' ∧ FL B ex' uf ∧
      (∀ j, (ex' j).isFixed = ((ex j).isFixed || decide (j / 256 = b))) ∧
      (∀ j, (ex' j).isUsed = (ex j).isUsed) ∧
      (∀ j, us[j]? = if j / 256 = b ∧ (ex j).isFixed = false then (db.units[j]?).map (fun w => dictSetLabel w (UInt8.ofNat (j ^^^ un)))
        else db.units[j]?) ∧
      num = db.numOfUnusedUnits + (List.range' (256 * b) 256).countP (fun j => !(ex j).isFixed) ∧
      ((∃ j, j / 256 = b ∧ (ex j).isUsed = false) → un / 256 = b ∧ (ex un).isUsed = false) := by
  have hbeg : u32 (b * blockSize) = 256 * b := by rw [u32_of_lt (by unfold blockSize; omega)]; unfold blockSize; omega
  have hw : ∀ j, 256 * b ≤ j → j < 256 * b + 256 → Win B j := fun j h1 h2 => ⟨by omega, by omega⟩
  obtain ⟨un, a1, a2⟩ := findUnused_spec h 256 (256 * b) hw
  obtain ⟨us, xs, uf, num, ex', e1, e2, e3, e4, e5, e6, e7⟩ := fixBlockLoop_spec hB un 256 (256 * b) db ex h hfl hw
  have hdiv : ∀ j, (256 * b ≤ j ∧ j < 256 * b + 256) ↔ j / 256 = b := by intro j; omega
  refine ⟨us, xs, uf, num, ex', un, ?_, e2, e3, ?_, e5, ?_, e7, ?_⟩
  · unfold DictBuilder.fixBlock
    simp only [hbeg]
    simp only [blockSize, a1, ok_bind, e1]
  · intro j; rw [e4]; simp only [hdiv]
  · intro j
    rw [e6]
    have : (256 * b ≤ j ∧ j < 256 * b + 256 ∧ (ex j).isFixed = false) ↔ (j / 256 = b ∧ (ex j).isFixed = false) := by
      rw [← and_assoc, hdiv]
    by_cases hc : j / 256 = b ∧ (ex j).isFixed = false
    · rw [if_pos hc, if_pos (this.2 hc)]
    · rw [if_neg hc, if_neg (fun h => hc (this.1 h))]
  · rintro ⟨j, h1, h2⟩
    obtain ⟨b1, b2, b3⟩ := a2 ⟨j, by omega, by omega, h2⟩
    exact ⟨by omega, b3⟩

/-! ## Expansion -/

theorem clearLoop_spec {B : Nat} : ∀ (n i : Nat) (db : DictBuilder) (ex : Nat → ExtraUnit), EX db.units db.extras B ex →
    (∀ j, i ≤ j → j < i + n → Win B j) →
    ∃ xs ex', DictBuilder.clearLoop n i db = .ok { db with extras := xs } ∧ EX db.units xs B ex' ∧
      ∀ j, ex' j = if i ≤ j ∧ j < i + n then ExtraUnit.empty else ex j
  | 0, i, db, ex, h, _ => ⟨_, ex, rfl, h, fun j => by rw [if_neg (by omega)]⟩
  | n + 1, i, db, ex, h, hw => by
    obtain ⟨x1, e1, E1⟩ := h.modExtra (hw i (Nat.le_refl _) (by omega)) (fun _ => ExtraUnit.empty)
    obtain ⟨xs, ex', e2, E2, e3⟩ := clearLoop_spec n (i + 1) { db with extras := x1 } _ E1 (fun j h1 h2 => hw j (by omega) (by omega))
    refine ⟨xs, ex', ?_, E2, ?_⟩
    · rw [DictBuilder.clearLoop, e1]; simp only [ok_bind, e2]
    · intro j
      rw [e3]
      by_cases hji : j = i
      · subst hji; simp
      · rw [upd_ne _ _ hji]
        by_cases hc : i ≤ j ∧ j < i + (n + 1)
        · rw [if_pos hc, if_pos (by omega)]
        · rw [if_neg hc, if_neg (by omega)]

theorem linkLoop_spec {B : Nat} (hB : B ≤ 2097152) : ∀ (n i : Nat) (db : DictBuilder) (ex : Nat → ExtraUnit), EX db.units db.extras B ex →
    1 ≤ i → Win B (i - 1) → (∀ j, i ≤ j → j < i + n → Win B j) →
    ∃ xs ex', DictBuilder.linkLoop n i db = .ok { db with extras := xs } ∧ EX db.units xs B ex' ∧
      (∀ j, (ex' j).isFixed = (ex j).isFixed) ∧ (∀ j, (ex' j).isUsed = (ex j).isUsed) ∧
      (∀ j, (ex' j).next = if i ≤ j + 1 ∧ j + 1 < i + n then j + 1 else (ex j).next) ∧
      (∀ j, (ex' j).prev = if i ≤ j ∧ j < i + n then j - 1 else (ex j).prev)
  | 0, i, db, ex, h, _, _, _ =>
    ⟨_, ex, rfl, h, fun _ => rfl, fun _ => rfl, fun j => by rw [if_neg (by omega)], fun j => by rw [if_neg (by omega)]⟩
  | n + 1, i, db, ex, h, hi, hw0, hw => by
    have hwi := hw i (Nat.le_refl _) (by omega)
    have hil : i < 2147483648 := by have := hwi.1; omega
    obtain ⟨x1, e1, E1⟩ := h.modExtra hw0 (fun e => e.setNext i)
    obtain ⟨x2, e2, E2⟩ := EX.modExtra (db := { db with extras := x1 }) E1 hwi (fun e => e.setPrev (i - 1))
    obtain ⟨xs, ex', e3, E3, f1, f2, f3, f4⟩ := linkLoop_spec hB n (i + 1) { db with extras := x2 } _ E2 (by omega)
      (by simpa using hwi) (fun j h1 h2 => hw j (by omega) (by omega))
    refine ⟨xs, ex', ?_, E3, ?_, ?_, ?_, ?_⟩
    · rw [DictBuilder.linkLoop, e1]; simp only [ok_bind, e2, e3]
    · intro j; rw [f1]; unfold upd; grind [isFixed_setNext, isFixed_setPrev]
    · intro j; rw [f2]; unfold upd; grind [isUsed_setNext, isUsed_setPrev]
    · intro j
      rw [f3]
      by_cases hc : i + 1 ≤ j + 1 ∧ j + 1 < i + 1 + n
      · rw [if_pos hc, if_pos (by omega)]
      · rw [if_neg hc]
        by_cases hj : j = i - 1
        · rw [if_pos (by omega)]
          have hne : j ≠ i := by omega
          rw [upd_ne _ _ hne, hj, upd_same, next_setNext _ hil]; omega
        · rw [if_neg (by omega)]
          by_cases hji : j = i
          · subst hji; rw [upd_same, next_setPrev, upd_ne _ _ hj]
          · rw [upd_ne _ _ hji, upd_ne _ _ hj]
    · intro j
      rw [f4]
      by_cases hc : i + 1 ≤ j ∧ j < i + 1 + n
      · rw [if_pos hc, if_pos (by omega)]
      · rw [if_neg hc]
        by_cases hj : j = i
        · rw [if_pos (by omega), hj, upd_same, prev_setPrev _ (by omega)]
        · rw [if_neg (by omega), upd_ne _ _ hj]
          by_cases hji : j = i - 1
          · rw [hji, upd_same, prev_setNext]
          · rw [upd_ne _ _ hji]

theorem getElem?_append_replicate (us : List Nat) (n j : Nat) (h : us.length = n) :
    (us ++ List.replicate 256 0)[j]? = if n ≤ j ∧ j < n + 256 then some 0 else us[j]? := by
  rw [List.getElem?_append]
  by_cases hj : j < us.length
  · rw [if_pos hj, if_neg (by omega)]
  · rw [if_neg hj, List.getElem?_replicate]
    by_cases hj2 : j < n + 256
    · rw [if_pos (by omega), if_pos (by omega)]
    · rw [if_neg (by omega), if_neg (by omega), List.getElem?_eq_none (by omega)]

theorem newExtras_spec {B : Nat} (hB : B < 2097152) {db : DictBuilder} {ex : Nat → ExtraUnit}
    (hu : db.units.length = 256 * (B + 1)) (hlen : db.extras.length = B + 1)
    (hlast : db.extras[B]? = some [])
    (hget : ∀ b, b < B → db.extras[b]? = some (if b + 16 < B then [] else blockOf ex b)) :
    ∃ xs ex', db.newExtras (256 * B) B (256 * B + 256) (B + 1) = .ok { db with extras := xs } ∧ EX db.units xs (B + 1) ex' ∧
      ∀ j, ex' j = if 256 * B ≤ j ∧ j < 256 * B + 256 then ExtraUnit.empty else ex j := by
  unfold DictBuilder.newExtras numOfUnfixedBlocks
  by_cases hc : B + 1 > 16
  · rw [if_pos hc]
    have hb0 : B - 16 < B := by omega
    have h1 : rd db.extras (db.extras.length - 1) = .ok [] := rd_some (by rw [hlen]; exact hlast)
    have h2 : rd db.extras (B - 16) = .ok (blockOf ex (B - 16)) := rd_some (by rw [hget _ hb0, if_neg (by omega)])
    have h3 : wr db.extras (B - 16) [] = .ok (db.extras.set (B - 16) []) := wr_lt (by omega)
    have h4 : wr (db.extras.set (B - 16) []) (db.extras.length - 1) (blockOf ex (B - 16)) =
        .ok ((db.extras.set (B - 16) []).set B (blockOf ex (B - 16))) := by
      rw [hlen, show B + 1 - 1 = B by omega]; exact wr_lt (by simp; omega)
    simp only [h1, h2, h3, h4, ok_bind]
    have E0 : EX db.units ((db.extras.set (B - 16) []).set B (blockOf ex (B - 16))) (B + 1)
        (fun j => if 256 * B ≤ j ∧ j < 256 * B + 256 then ex (j - 256 * B + 256 * (B - 16)) else ex j) := by
      refine ⟨hu, by simp [hlen], ?_⟩
      intro b hb
      rw [List.getElem?_set]
      by_cases hbB : B = b
      · subst hbB
        rw [if_pos rfl, if_pos (by simp; omega), if_neg (by omega)]
        congr 1
        apply blockOf_ext
        intro j hj
        rw [if_pos (by omega)]
        congr 1; omega
      · rw [if_neg hbB, List.getElem?_set]
        by_cases hb16 : B - 16 = b
        · rw [if_pos hb16, if_pos (by omega), if_pos (by omega)]
        · rw [if_neg hb16, hget b (by omega)]
          congr 1
          by_cases hc2 : b + 16 < B
          · rw [if_pos hc2, if_pos (by omega)]
          · rw [if_neg hc2, if_neg (by omega)]
            apply blockOf_ext
            intro j hj
            rw [if_neg (by omega)]
    obtain ⟨xs, ex', e1, E1, e2⟩ := clearLoop_spec 256 (256 * B) { db with extras := (db.extras.set (B - 16) []).set B (blockOf ex (B - 16)) } _ E0
      (fun j h1 h2 => ⟨by omega, by omega⟩)
    refine ⟨xs, ex', ?_, E1, ?_⟩
    · rw [show 256 * B + 256 - 256 * B = 256 by omega]; exact e1
    · intro j
      rw [e2]
      by_cases hn : 256 * B ≤ j ∧ j < 256 * B + 256
      · rw [if_pos hn, if_pos hn]
      · rw [if_neg hn, if_neg hn, if_neg hn]
  · rw [if_neg hc]
    have h1 : wr db.extras (db.extras.length - 1) (List.replicate blockSize ExtraUnit.empty) =
        .ok (db.extras.set B (List.replicate 256 ExtraUnit.empty)) := by
      rw [hlen, show B + 1 - 1 = B by omega]; exact wr_lt (by omega)
    rw [h1]
    refine ⟨_, fun j => if 256 * B ≤ j ∧ j < 256 * B + 256 then ExtraUnit.empty else ex j, rfl, ⟨hu, by rw [List.length_set, hlen], ?_⟩, fun j => rfl⟩
    intro b hb
    rw [List.getElem?_set]
    by_cases hbB : B = b
    · subst hbB
      rw [if_pos rfl, if_pos (by omega), if_neg (by omega)]
      congr 1
      apply List.ext_getElem?
      intro j
      by_cases hj : j < 256
      · rw [blockOf_get _ _ hj, if_pos (by omega), List.getElem?_replicate, if_pos hj]
      · rw [List.getElem?_eq_none (by rw [List.length_replicate]; omega), List.getElem?_eq_none (by rw [blockOf_length]; omega)]
    · rw [if_neg hbB, hget b (by omega), if_neg (by omega), if_neg (by omega)]
      congr 1
      apply blockOf_ext
      intro j hj
      rw [if_neg (by omega)]

/-- The effect of `expandDictionary` on the free list, given the state after fixing the old block. -/
theorem link_spec {B : Nat} (hB : B < 2097152) {db : DictBuilder} {ex ex1 : Nat → ExtraUnit} (h : EX db.units db.extras (B + 1) ex1)
    (hex : ∀ j, ex1 j = if 256 * B ≤ j ∧ j < 256 * B + 256 then ExtraUnit.empty else ex j)
    (hfl : FL B ex db.unfixedIndex) (hold : ∀ i, Free B ex i → B + 1 ≤ i / 256 + 16) :
    ∃ xs ex', (do let db ← db.linkBlock (256 * B) (256 * B + 256); db.mergeBlock (256 * B) (256 * B + 256)) = .ok { db with extras := xs } ∧
      EX db.units xs (B + 1) ex' ∧ FL (B + 1) ex' db.unfixedIndex ∧
      (∀ j, (ex' j).isFixed = (ex1 j).isFixed) ∧ (∀ j, (ex' j).isUsed = (ex1 j).isUsed) := by
  generalize hN : 256 * B = N at *
  have hNB : N + 256 = 256 * (B + 1) := by omega
  have hwin : ∀ j, N ≤ j → j < N + 256 → Win (B + 1) j := fun j h1 h2 => ⟨by omega, by omega⟩
  -- the circular list of the new block
  obtain ⟨x1, ex2, e1, E1, a1, a2, a3, a4⟩ := linkLoop_spec (B := B + 1) (by omega) 255 (N + 1) db ex1 h (by omega)
    (hwin (N + 1 - 1) (by omega) (by omega)) (fun j h1 h2 => hwin j (by omega) (by omega))
  obtain ⟨x2, e2, E2⟩ := EX.modExtra (db := { db with extras := x1 }) E1 (hwin N (by omega) (by omega)) (fun e => e.setPrev (N + 256 - 1))
  obtain ⟨x3, e3, E3⟩ := EX.modExtra (db := { db with extras := x2 }) E2 (hwin (N + 256 - 1) (by omega) (by omega)) (fun e => e.setNext N)
  generalize hex3 : upd (upd ex2 N ((ex2 N).setPrev (N + 256 - 1))) (N + 256 - 1)
    ((upd ex2 N ((ex2 N).setPrev (N + 256 - 1)) (N + 256 - 1)).setNext N) = ex3 at E3
  have b1 : ∀ j, (ex3 j).isFixed = (ex1 j).isFixed := by
    intro j; rw [← a1, ← hex3]; unfold upd; grind [isFixed_setNext, isFixed_setPrev]
  have b2 : ∀ j, (ex3 j).isUsed = (ex1 j).isUsed := by
    intro j; rw [← a2, ← hex3]; unfold upd; grind [isUsed_setNext, isUsed_setPrev]
  have b3 : ∀ j, (ex3 j).next = if N ≤ j ∧ j < N + 255 then j + 1 else if j = N + 255 then N else (ex1 j).next := by
    intro j
    have h3 := a3 j
    by_cases hj : j = N + 256 - 1
    · have : (ex3 j).next = N := by rw [← hex3, hj, upd_same, next_setNext _ (by omega)]
      rw [this, if_neg (by omega), if_pos (by omega)]
    · have : (ex3 j).next = (ex2 j).next := by
        rw [← hex3, upd_ne _ _ hj]
        by_cases hj0 : j = N
        · subst hj0; rw [upd_same, next_setPrev]
        · rw [upd_ne _ _ hj0]
      rw [this, h3]
      by_cases hc : N ≤ j ∧ j < N + 255
      · rw [if_pos hc, if_pos (by omega)]
      · rw [if_neg hc, if_neg (by omega), if_neg (by omega)]
  have b4 : ∀ j, (ex3 j).prev = if N < j ∧ j < N + 256 then j - 1 else if j = N then N + 255 else (ex1 j).prev := by
    intro j
    have h4 := a4 j
    by_cases hj : j = N
    · have : (ex3 j).prev = N + 255 := by
        rw [← hex3, upd_ne _ _ (by omega), hj, upd_same, prev_setPrev _ (by omega)]; omega
      rw [this, if_neg (by omega), if_pos hj]
    · have : (ex3 j).prev = (ex2 j).prev := by
        rw [← hex3]
        by_cases hj0 : j = N + 256 - 1
        · rw [← hj0, upd_same, prev_setNext, upd_ne _ _ hj]
        · rw [upd_ne _ _ hj0, upd_ne _ _ hj]
      rw [this, h4]
      by_cases hc : N < j ∧ j < N + 256
      · rw [if_pos hc, if_pos (by omega)]
      · rw [if_neg hc, if_neg (by omega), if_neg hj]
  -- where the old list is
  have hufw : Win (B + 1) db.unfixedIndex := by
    rcases hfl.head with h1 | h1
    · exact hwin _ (by omega) (by omega)
    · exact ⟨by have := h1.1.1; omega, hold _ h1⟩
  have holdlt : ∀ j, Free B ex j → j < N := fun j hj => by have := hj.1.1; omega
  generalize hp : (ex3 db.unfixedIndex).prev = p
  have hpw : (db.unfixedIndex = N ∧ p = N + 255) ∨ (Free B ex db.unfixedIndex ∧ p = (ex db.unfixedIndex).prev) := by
    rcases hfl.head with h1 | h1
    · left
      refine ⟨by omega, ?_⟩
      rw [← hp, b4, if_neg (by omega), if_pos (by omega)]
    · right
      have := holdlt _ h1
      refine ⟨h1, ?_⟩
      rw [← hp, b4, if_neg (by omega), if_neg (by omega), hex, if_neg (by omega)]
  have hpwin : Win (B + 1) p := by
    rcases hpw with ⟨_, h1⟩ | ⟨h1, h2⟩
    · exact hwin _ (by omega) (by omega)
    · have := hfl.prev _ h1
      rw [h2]; exact ⟨by have := this.1.1; omega, hold _ this⟩
  have hufl : db.unfixedIndex < 2147483648 := by have := hufw.1; omega
  have hpl : p < 2147483648 := by have := hpwin.1; omega
  obtain ⟨x4, e4, E4⟩ := EX.modExtra (db := { db with extras := x3 }) E3 (hwin N (by omega) (by omega)) (fun e => e.setPrev p)
  obtain ⟨x5, e5, E5⟩ := EX.modExtra (db := { db with extras := x4 }) E4 (hwin (N + 256 - 1) (by omega) (by omega)) (fun e => e.setNext db.unfixedIndex)
  generalize hex5 : upd (upd ex3 N ((ex3 N).setPrev p)) (N + 256 - 1)
    ((upd ex3 N ((ex3 N).setPrev p) (N + 256 - 1)).setNext db.unfixedIndex) = ex5 at E5
  have hp5 : (ex5 db.unfixedIndex).prev = p := by
    rw [← hex5]
    by_cases h1 : db.unfixedIndex = N
    · rw [h1, upd_ne _ _ (by omega), upd_same, prev_setPrev _ hpl]
    · by_cases h2 : db.unfixedIndex = N + 256 - 1
      · rw [h2, upd_same, prev_setNext, upd_ne _ _ (by omega), ← h2, hp]
      · rw [upd_ne _ _ h2, upd_ne _ _ h1, hp]
  have r3 := EX.extra (db := { db with extras := x3 }) E3 hufw
  have r5 := EX.extra (db := { db with extras := x5 }) E5 hufw
  obtain ⟨x6, e6, E6⟩ := EX.modExtra (db := { db with extras := x5 }) E5 hpwin (fun e => e.setNext N)
  obtain ⟨x7, e7, E7⟩ := EX.modExtra (db := { db with extras := x6 }) E6 hufw (fun e => e.setPrev (N + 256 - 1))
  generalize hex7 : upd (upd ex5 p ((ex5 p).setNext N)) db.unfixedIndex
    ((upd ex5 p ((ex5 p).setNext N) db.unfixedIndex).setPrev (N + 256 - 1)) = ex7 at E7
  have c1 : ∀ j, (ex7 j).isFixed = (ex1 j).isFixed := by
    intro j; rw [← b1, ← hex7, ← hex5]; unfold upd; grind [isFixed_setNext, isFixed_setPrev]
  have c2 : ∀ j, (ex7 j).isUsed = (ex1 j).isUsed := by
    intro j; rw [← b2, ← hex7, ← hex5]; unfold upd; grind [isUsed_setNext, isUsed_setPrev]
  have c3 : ∀ j, (ex7 j).next = if j = p then N else if j = N + 255 then db.unfixedIndex else (ex3 j).next := by
    intro j
    have h1 : (ex7 j).next = (upd ex5 p ((ex5 p).setNext N) j).next := by
      rw [← hex7]
      by_cases hj : j = db.unfixedIndex
      · rw [hj, upd_same, next_setPrev]
      · rw [upd_ne _ _ hj]
    rw [h1]
    by_cases hj : j = p
    · rw [if_pos hj, hj, upd_same, next_setNext _ (by omega)]
    · rw [if_neg hj, upd_ne _ _ hj, ← hex5]
      by_cases hj2 : j = N + 256 - 1
      · rw [if_pos (by omega), hj2, upd_same, next_setNext _ hufl]
      · rw [if_neg (by omega), upd_ne _ _ hj2]
        by_cases hj3 : j = N
        · rw [hj3, upd_same, next_setPrev]
        · rw [upd_ne _ _ hj3]
  have c4 : ∀ j, (ex7 j).prev = if j = db.unfixedIndex then N + 255 else if j = N then p else (ex3 j).prev := by
    intro j
    by_cases hj : j = db.unfixedIndex
    · rw [if_pos hj, ← hex7, hj, upd_same, prev_setPrev _ (by omega)]; omega
    · rw [if_neg hj, ← hex7, upd_ne _ _ hj]
      have h1 : (upd ex5 p ((ex5 p).setNext N) j).prev = (ex5 j).prev := by
        by_cases hj2 : j = p
        · rw [hj2, upd_same, prev_setNext]
        · rw [upd_ne _ _ hj2]
      rw [h1, ← hex5]
      by_cases hj2 : j = N + 256 - 1
      · rw [if_neg (by omega), hj2, upd_same, prev_setNext, upd_ne _ _ (by omega)]
      · rw [upd_ne _ _ hj2]
        by_cases hj3 : j = N
        · rw [if_pos hj3, hj3, upd_same, prev_setPrev _ hpl]
        · rw [if_neg hj3, upd_ne _ _ hj3]
  refine ⟨x7, ex7, ?_, E7, ?_, c1, c2⟩
  · unfold DictBuilder.linkBlock DictBuilder.mergeBlock
    rw [show N + 256 - (N + 1) = 255 by omega, e1]
    simp only [ok_bind, e2, e3, r3, hp, e4, e5, r5, hp5, e6, e7]
  · -- the free units
    have hfree : ∀ j, Free (B + 1) ex7 j ↔ Free B ex j ∨ (N ≤ j ∧ j < N + 256) := by
      intro j
      unfold Free
      rw [c1, hex]
      by_cases hc : N ≤ j ∧ j < N + 256
      · rw [if_pos hc]
        constructor
        · exact fun _ => .inr hc
        · exact fun _ => ⟨hwin j hc.1 hc.2, rfl⟩
      · rw [if_neg hc]
        constructor
        · rintro ⟨⟨h1, h2⟩, h3⟩; exact .inl ⟨⟨by omega, by omega⟩, h3⟩
        · rintro (⟨h1, h3⟩ | h1)
          · exact ⟨⟨by have := h1.1; omega, hold j ⟨h1, h3⟩⟩, h3⟩
          · exact absurd h1 hc
    have hexo : ∀ j, Free B ex j → (ex3 j).next = (ex j).next ∧ (ex3 j).prev = (ex j).prev := by
      intro j hj
      have := holdlt j hj
      rw [b3, b4, if_neg (by omega), if_neg (by omega), if_neg (by omega), if_neg (by omega), hex, if_neg (by omega)]
      exact ⟨rfl, rfl⟩
    clear hex3 hex5 hex7 E1 E2 E3 E4 E5 E6 E7 e1 e2 e3 e4 e5 e6 e7 r3 r5 h a1 a2 a3 a4
    generalize db.unfixedIndex = uf at *
    rcases hpw with ⟨hu, hpe⟩ | ⟨hu, hpe⟩
    · -- the list was empty
      have hnof : ∀ j, Free (B + 1) ex7 j → Free B ex j ∨ (N ≤ j ∧ j < N + 256) := fun j => (hfree j).1
      refine ⟨.inr ((hfree uf).2 (.inr (by omega))), ?_, ?_, ?_, ?_⟩
      · intro j hj
        rw [c3, b3]
        rcases hnof j hj with h1 | h1
        · have := holdlt j h1
          rw [if_neg (by omega), if_neg (by omega), if_neg (by omega), if_neg (by omega), hex, if_neg (by omega)]
          exact (hfree _).2 (.inl (hfl.next j h1))
        · apply (hfree _).2; right
          split
          · omega
          · split
            · omega
            · rw [if_pos (by omega)]; omega
      · intro j hj
        rw [c4, b4]
        rcases hnof j hj with h1 | h1
        · have := holdlt j h1
          rw [if_neg (by omega), if_neg (by omega), if_neg (by omega), if_neg (by omega), hex, if_neg (by omega)]
          exact (hfree _).2 (.inl (hfl.prev j h1))
        · apply (hfree _).2; right
          split
          · omega
          · split
            · omega
            · rw [if_pos (by omega)]; omega
      · intro j hj
        rcases hnof j hj with h1 | h1
        · have hjl := holdlt j h1
          have hnl := holdlt _ (hfl.next j h1)
          have e1 : (ex7 j).next = (ex j).next := by
            rw [c3, if_neg (by omega), if_neg (by omega)]; exact (hexo j h1).1
          rw [e1, c4, if_neg (by omega), if_neg (by omega), (hexo _ (hfl.next j h1)).2]
          exact hfl.np j h1
        · by_cases hjp : j = N + 255
          · have e1 : (ex7 j).next = N := by rw [c3, if_pos (by omega)]
            rw [e1, c4, if_pos (by omega)]; omega
          · have e1 : (ex7 j).next = j + 1 := by
              rw [c3, if_neg (by omega), if_neg (by omega), b3, if_pos (by omega)]
            rw [e1, c4, if_neg (by omega), if_neg (by omega), b4, if_pos (by omega)]; omega
      · intro j hj
        rcases hnof j hj with h1 | h1
        · have hjl := holdlt j h1
          have hnl := holdlt _ (hfl.prev j h1)
          have e1 : (ex7 j).prev = (ex j).prev := by
            rw [c4, if_neg (by omega), if_neg (by omega)]; exact (hexo j h1).2
          rw [e1, c3, if_neg (by omega), if_neg (by omega), (hexo _ (hfl.prev j h1)).1]
          exact hfl.pn j h1
        · by_cases hjp : j = N
          · have e1 : (ex7 j).prev = N + 255 := by rw [c4, if_pos (by omega)]
            rw [e1, c3, if_pos (by omega)]; omega
          · have e1 : (ex7 j).prev = j - 1 := by
              rw [c4, if_neg (by omega), if_neg (by omega), b4, if_pos (by omega)]
            rw [e1, c3, if_neg (by omega), if_neg (by omega), b3, if_pos (by omega)]; omega
    · -- the list was not empty
      have hul := holdlt uf hu
      have hpf := hfl.prev uf hu
      rw [← hpe] at hpf
      have hpl2 := holdlt p hpf
      have hpu : (ex p).next = uf := by rw [hpe]; exact hfl.pn uf hu
      refine ⟨.inr ((hfree uf).2 (.inl hu)), ?_, ?_, ?_, ?_⟩
      · intro j hj
        rw [c3]
        rcases (hfree j).1 hj with h1 | h1
        · have := holdlt j h1
          by_cases hjp : j = p
          · rw [if_pos hjp]; exact (hfree _).2 (.inr (by omega))
          · rw [if_neg hjp, if_neg (by omega), (hexo j h1).1]; exact (hfree _).2 (.inl (hfl.next j h1))
        · rw [if_neg (by omega)]
          by_cases hjp : j = N + 255
          · rw [if_pos hjp]; exact (hfree _).2 (.inl hu)
          · rw [if_neg hjp, b3, if_pos (by omega)]; exact (hfree _).2 (.inr (by omega))
      · intro j hj
        rw [c4]
        rcases (hfree j).1 hj with h1 | h1
        · have := holdlt j h1
          by_cases hjp : j = uf
          · rw [if_pos hjp]; exact (hfree _).2 (.inr (by omega))
          · rw [if_neg hjp, if_neg (by omega), (hexo j h1).2]; exact (hfree _).2 (.inl (hfl.prev j h1))
        · rw [if_neg (by omega)]
          by_cases hjp : j = N
          · rw [if_pos hjp]; exact (hfree _).2 (.inl hpf)
          · rw [if_neg hjp, b4, if_pos (by omega)]; exact (hfree _).2 (.inr (by omega))
      · intro j hj
        rcases (hfree j).1 hj with h1 | h1
        · have := holdlt j h1
          by_cases hjp : j = p
          · have e1 : (ex7 j).next = N := by rw [c3, if_pos hjp]
            rw [e1, c4, if_neg (by omega), if_pos rfl, hjp]
          · have hnl := holdlt _ (hfl.next j h1)
            have e1 : (ex7 j).next = (ex j).next := by rw [c3, if_neg hjp, if_neg (by omega), (hexo j h1).1]
            have hne : (ex j).next ≠ uf := by
              intro he
              have := hfl.np j h1
              rw [he, ← hpe] at this
              exact hjp this.symm
            rw [e1, c4, if_neg hne, if_neg (by omega), (hexo _ (hfl.next j h1)).2]
            exact hfl.np j h1
        · by_cases hjp : j = N + 255
          · have e1 : (ex7 j).next = uf := by rw [c3, if_neg (by omega), if_pos hjp]
            rw [e1, c4, if_pos rfl, hjp]
          · have e1 : (ex7 j).next = j + 1 := by rw [c3, if_neg (by omega), if_neg hjp, b3, if_pos (by omega)]
            rw [e1, c4, if_neg (by omega), if_neg (by omega), b4, if_pos (by omega)]; omega
      · intro j hj
        rcases (hfree j).1 hj with h1 | h1
        · have := holdlt j h1
          by_cases hjp : j = uf
          · have e1 : (ex7 j).prev = N + 255 := by rw [c4, if_pos hjp]
            rw [e1, c3, if_neg (by omega), if_pos rfl, hjp]
          · have hnl := holdlt _ (hfl.prev j h1)
            have e1 : (ex7 j).prev = (ex j).prev := by rw [c4, if_neg hjp, if_neg (by omega), (hexo j h1).2]
            have hne : (ex j).prev ≠ p := by
              intro he
              have := hfl.pn j h1
              rw [he, hpu] at this
              exact hjp this.symm
            rw [e1, c3, if_neg hne, if_neg (by omega), (hexo _ (hfl.prev j h1)).1]
            exact hfl.pn j h1
        · by_cases hjp : j = N
          · have e1 : (ex7 j).prev = p := by rw [c4, if_neg (by omega), if_pos hjp]
            rw [e1, c3, if_pos rfl, hjp]
          · have e1 : (ex7 j).prev = j - 1 := by rw [c4, if_neg (by omega), if_neg hjp, b4, if_pos (by omega)]
            rw [e1, c3, if_neg (by omega), if_neg (by omega), b3, if_pos (by omega)]; omega

/-- Adding a block of 256 units. -/
theorem expand_spec {B : Nat} (hB : B < 2097152) {db : DictBuilder} {ex : Nat → ExtraUnit} (h : EX db.units db.extras B ex)
    (hfl : FL B ex db.unfixedIndex) :
    ∃ us xs uf num ex', db.expandDictionary = .ok { db with units := us, extras := xs, unfixedIndex := uf, numOfUnusedUnits := num } ∧
      EX us xs (B + 1) ex' ∧ FL (B + 1) ex' uf ∧
      (∀ j, Win (B + 1) j → (ex' j).isFixed = (decide (j < 256 * B) && (ex j).isFixed)) ∧
      (∀ j, Win (B + 1) j → (ex' j).isUsed = (decide (j < 256 * B) && (ex j).isUsed)) ∧
      ∃ un, (∀ j, us[j]? = if 256 * B ≤ j ∧ j < 256 * B + 256 then some 0
          else if j / 256 + 16 = B ∧ (ex j).isFixed = false then (db.units[j]?).map (fun w => dictSetLabel w (UInt8.ofNat (j ^^^ un)))
          else db.units[j]?) ∧
        num = db.numOfUnusedUnits + (if B < 16 then 0 else (List.range' (256 * (B - 16)) 256).countP (fun j => !(ex j).isFixed)) ∧
        (16 ≤ B → (∃ j, j / 256 + 16 = B ∧ (ex j).isUsed = false) → un / 256 + 16 = B ∧ (ex un).isUsed = false) := by
  have hnu : db.numOfUnits = 256 * B := by unfold DictBuilder.numOfUnits; rw [h.units]; exact u32_of_lt (by omega)
  have hnb : db.numOfBlocks = B := by unfold DictBuilder.numOfBlocks; rw [h.len]; exact u32_of_lt (by omega)
  have hd : u32 (256 * B + blockSize) = 256 * B + 256 := u32_of_lt (by unfold blockSize; omega)
  have hdb : u32 (B + 1) = B + 1 := u32_of_lt (by omega)
  -- the fixing of the old block
  have step : ∃ us xs uf num ex' un, db.fixOldBlock B (B + 1) = .ok { db with units := us, extras := xs, unfixedIndex := uf, numOfUnusedUnits := num } ∧
      EX us xs B ex' ∧ FL B ex' uf ∧
      (∀ j, (ex' j).isFixed = ((ex j).isFixed || decide (j / 256 + 16 = B))) ∧
      (∀ j, (ex' j).isUsed = (ex j).isUsed) ∧
      (∀ j, us[j]? = if j / 256 + 16 = B ∧ (ex j).isFixed = false then (db.units[j]?).map (fun w => dictSetLabel w (UInt8.ofNat (j ^^^ un)))
        else db.units[j]?) ∧
      num = db.numOfUnusedUnits + (if B < 16 then 0 else (List.range' (256 * (B - 16)) 256).countP (fun j => !(ex j).isFixed)) ∧
      (16 ≤ B → (∃ j, j / 256 + 16 = B ∧ (ex j).isUsed = false) → un / 256 + 16 = B ∧ (ex un).isUsed = false) := by
    unfold DictBuilder.fixOldBlock numOfUnfixedBlocks
    by_cases hc : B + 1 > 16
    · rw [if_pos hc, if_neg (by omega)]
      obtain ⟨us, xs, uf, num, ex', un, e1, e2, e3, e4, e5, e6, e7, e8⟩ :=
        fixBlock_spec (by omega : B ≤ 2097152) (b := B - 16) h hfl (by omega) (by omega)
      have hi : ∀ j, j / 256 = B - 16 ↔ j / 256 + 16 = B := by intro j; omega
      simp only [hi] at e4 e6 e8
      exact ⟨us, xs, uf, num, ex', un, e1, e2, e3, e4, e5, e6, e7, fun _ => e8⟩
    · rw [if_neg hc, if_pos (by omega)]
      refine ⟨_, _, _, _, ex, 0, rfl, h, hfl, ?_, fun _ => rfl, ?_, by simp, by omega⟩
      · intro j; rw [decide_eq_false (by omega), Bool.or_false]
      · intro j; rw [if_neg (by omega)]
  obtain ⟨us, xs, uf, num, ex1, un, e1, E1, F1, a1, a2, a3, a4, a5⟩ := step
  have hnew := newExtras_spec hB (ex := ex1)
    (db := { db with units := us ++ List.replicate 256 0, extras := xs ++ [[]], unfixedIndex := uf, numOfUnusedUnits := num })
    (by simp only [List.length_append, List.length_replicate, E1.units]; omega)
    (by simp only [List.length_append, List.length_singleton, E1.len])
    (by simp only []; rw [List.getElem?_append_right (by rw [E1.len]; omega), E1.len]; simp)
    (by intro b hb; simp only []; rw [List.getElem?_append_left (by rw [E1.len]; omega)]; exact E1.get b hb)
  obtain ⟨xs2, ex2, e2, E2, b1⟩ := hnew
  obtain ⟨xs3, ex3, e3, E3, F3, c1, c2⟩ := link_spec hB (ex := ex1)
    (db := { db with units := us ++ List.replicate 256 0, extras := xs2, unfixedIndex := uf, numOfUnusedUnits := num }) E2 b1 F1
    (by
      intro i hi
      have h1 := hi.2
      have h2 := hi.1
      rw [a1] at h1
      simp only [Bool.or_eq_false_iff, decide_eq_false_iff_not] at h1
      have := h2.2; omega)
  refine ⟨us ++ List.replicate 256 0, xs3, uf, num, ex3, ?_, E3, F3, ?_, ?_, un, ?_, a4, a5⟩
  · unfold DictBuilder.expandDictionary
    simp only [hnu, hnb, hd, hdb, e1, ok_bind]
    simp only [blockSize, e2, ok_bind]
    exact e3
  · intro j hj
    rw [c1, b1]
    by_cases hc : 256 * B ≤ j
    · rw [if_pos ⟨hc, by have := hj.1; omega⟩, decide_eq_false (by omega)]; rfl
    · rw [if_neg (by omega), decide_eq_true (by omega), Bool.true_and, a1, decide_eq_false (by have := hj.2; omega), Bool.or_false]
  · intro j hj
    rw [c2, b1]
    by_cases hc : 256 * B ≤ j
    · rw [if_pos ⟨hc, by have := hj.1; omega⟩, decide_eq_false (by omega)]; rfl
    · rw [if_neg (by omega), decide_eq_true (by omega), Bool.true_and, a2]
  · intro j
    rw [getElem?_append_replicate us (256 * B) j E1.units]
    by_cases hc : 256 * B ≤ j ∧ j < 256 * B + 256
    · rw [if_pos hc, if_pos hc]
    · rw [if_neg hc, if_neg hc, a3]

end Dawg.Dict
