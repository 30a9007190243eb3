import Verif.Proof.Dict.Expand
import Verif.Model.Probes
/-! # The search for a good offset -/
namespace Dawg.Dict
open DictBuilder

theorem Win.xor {B o : Nat} (h : Win B o) {l : Nat} (hl : l < 256) : Win B (o ^^^ l) := by
  obtain ⟨h1, h2⟩ := h
  exact ⟨(xor_lt_of_block hl).2 h1, by rw [xor_div o l hl]; exact h2⟩

theorem noCollision_spec {db : DictBuilder} {B ex} (h : EX db.units db.extras B ex) {o : Nat} (ho : Win B o) : ∀ (ls : List UInt8),
    db.noCollision o ls = .ok (ls.all (fun l => !(ex (o ^^^ l.toNat)).isFixed))
  | [] => rfl
  | l :: ls => by
    rw [DictBuilder.noCollision, h.extra (ho.xor (label_lt l))]
    simp only [ok_bind, List.all_cons]
    cases hf : (ex (o ^^^ l.toNat)).isFixed with
    | true => rfl
    | false => simpa using noCollision_spec h ho ls

theorem isGoodOffset_spec {db : DictBuilder} {B ex} (h : EX db.units db.extras B ex) {index o : Nat} (ho : Win B o) :
    db.isGoodOffset index o = .ok (!(ex o).isUsed && ((index ^^^ o) &&& upperMask == 0 || (index ^^^ o) &&& lowerMask == 0) &&
      db.labels.tail.all (fun l => !(ex (o ^^^ l.toNat)).isFixed)) := by
  rw [DictBuilder.isGoodOffset, h.extra ho]
  simp only [ok_bind, noCollision_spec h ho]
  cases (ex o).isUsed with
  | true => rfl
  | false =>
    cases h1 : ((index ^^^ o) &&& upperMask == 0) <;> cases h2 : ((index ^^^ o) &&& lowerMask == 0) <;>
      simp [h1, h2, bne, pure_eq_ok]

/-- No list of different units in the window has more than 4096 members. -/
theorem win_card {B : Nat} {vs : List Nat} (hnd : vs.Nodup) (hw : ∀ v ∈ vs, Win B v) : vs.length ≤ 4096 := by
  have := List.Nodup.length_le_of_subset hnd (l₂ := List.range' (256 * (B - 16)) 4096) (by
    intro v hv
    obtain ⟨h1, h2⟩ := hw v hv
    rw [List.mem_range'_1]
    omega)
  rwa [List.length_range'] at this

theorem findLoop_spec {db : DictBuilder} {B ex} (h : EX db.units db.extras B ex) (hfl : FL B ex db.unfixedIndex) {index : Nat} {l0 : UInt8} {ls : List UInt8}
    (hl : db.labels = l0 :: ls) : ∀ (fuel cur : Nat) (vs : List Nat), Free B ex cur → (cur :: vs).Nodup → (∀ v ∈ vs, Free B ex v) →
    (∀ x ∈ cur :: vs, x = db.unfixedIndex ∨ ∃ w ∈ vs, (ex w).next = x) → fuel + vs.length = db.units.length + 1 →
    ∃ r, (db.findGoodOffsetLoop index fuel cur = .ok r ∧ ∃ n, db.findGoodOffsetLoopN index fuel cur = .ok (r, n) ∧ n + vs.length ≤ 4096) ∧
      ∀ o, r = some o → Win B o ∧ (ex o).isUsed = false ∧ (((index ^^^ o) &&& upperMask = 0) || ((index ^^^ o) &&& lowerMask = 0)) = true ∧
        ∀ l ∈ db.labels, (ex (o ^^^ l.toNat)).isFixed = false
  | 0, cur, vs, hc, hnd, hfr, _, hlen => by
    exfalso
    have := List.Nodup.length_le_of_subset (List.nodup_cons.1 hnd).2 (l₂ := List.range (256 * B)) (by
      intro v hv; exact List.mem_range.2 (hfr v hv).1.1)
    rw [List.length_range, ← h.units] at this; omega
  | fuel + 1, cur, vs, hc, hnd, hfr, hch, hlen => by
    have ho : Win B (cur ^^^ l0.toNat) := hc.1.xor (label_lt l0)
    have h0 : rd db.labels 0 = .ok l0 := rd_some (by rw [hl]; rfl)
    have hcard : 1 + vs.length ≤ 4096 := by
      have := win_card hnd (B := B) (by
        intro v hv
        rcases List.mem_cons.1 hv with rfl | h1
        · exact hc.1
        · exact (hfr v h1).1)
      rw [List.length_cons] at this
      omega
    rw [DictBuilder.findGoodOffsetLoop, DictBuilder.findGoodOffsetLoopN, h0]
    simp only [ok_bind, isGoodOffset_spec h ho, h.extra hc.1]
    cases hg : (!(ex (cur ^^^ l0.toNat)).isUsed && ((index ^^^ (cur ^^^ l0.toNat)) &&& upperMask == 0 || (index ^^^ (cur ^^^ l0.toNat)) &&& lowerMask == 0) &&
      db.labels.tail.all (fun l => !(ex ((cur ^^^ l0.toNat) ^^^ l.toNat)).isFixed)) with
    | true =>
      refine ⟨_, ⟨rfl, 1, rfl, hcard⟩, ?_⟩
      intro o he
      cases he
      simp only [Bool.and_eq_true, Bool.not_eq_true', hl, List.tail_cons, List.all_eq_true] at hg
      obtain ⟨⟨g1, g2⟩, g3⟩ := hg
      refine ⟨ho, g1, by simpa using g2, ?_⟩
      intro l hl'
      rw [hl] at hl'
      rcases List.mem_cons.1 hl' with rfl | h1
      · rw [Nat.xor_assoc, Nat.xor_self, Nat.xor_zero]; exact hc.2
      · exact g3 l h1
    | false =>
      simp only [Bool.false_eq_true, if_false]
      by_cases hu : (ex cur).next = db.unfixedIndex
      · rw [if_pos hu]; exact ⟨none, ⟨rfl, 1, by rw [if_pos hu]; rfl, hcard⟩, by intro o h; cases h⟩
      · rw [if_neg hu]
        have hnew : (ex cur).next ∉ cur :: vs := by
          intro hm
          rcases hch _ hm with h1 | ⟨w, hw, h1⟩
          · exact hu h1
          · have e1 := hfl.np w (hfr w hw)
            have e2 := hfl.np cur hc
            rw [h1] at e1
            have : cur = w := e2.symm.trans e1
            exact (List.nodup_cons.1 hnd).1 (this ▸ hw)
        have hfr' : ∀ v ∈ cur :: vs, Free B ex v := by
          intro v hv
          rcases List.mem_cons.1 hv with rfl | h1
          · exact hc
          · exact hfr v h1
        have hch' : ∀ x ∈ (ex cur).next :: cur :: vs, x = db.unfixedIndex ∨ ∃ w ∈ cur :: vs, (ex w).next = x := by
          intro x hx
          rcases List.mem_cons.1 hx with rfl | h1
          · exact .inr ⟨cur, List.mem_cons_self, rfl⟩
          · rcases hch x h1 with h2 | ⟨w, hw, h2⟩
            · exact .inl h2
            · exact .inr ⟨w, List.mem_cons_of_mem _ hw, h2⟩
        obtain ⟨r, ⟨a1, n, a2, a3⟩, a4⟩ := findLoop_spec h hfl hl (index := index) fuel (ex cur).next (cur :: vs) (hfl.next cur hc) (List.nodup_cons.2 ⟨hnew, hnd⟩)
          hfr' hch' (by simp only [List.length_cons]; omega)
        refine ⟨r, ⟨a1, n + 1, ?_, ?_⟩, a4⟩
        · rw [if_neg hu, a2]; rfl
        · rw [List.length_cons] at a3; omega

/-- `findGoodOffset` finds an unused offset in the window whose units are free, or takes the next
block. -/
theorem findGoodOffset_spec {db : DictBuilder} {B ex} (hB : B ≤ 2097152) (h : EX db.units db.extras B ex) (hfl : FL B ex db.unfixedIndex)
    {index : Nat} (hne : db.labels ≠ []) (hidx : index < 256 * B) :
    ∃ o, (db.findGoodOffset index = .ok o ∧ ∃ n, db.findGoodOffsetN index = .ok (o, n) ∧ n ≤ 4096) ∧
      (o = 256 * B + index % 256 ∨ (Win B o ∧ (ex o).isUsed = false ∧ Enc (index ^^^ o) ∧ ∀ l ∈ db.labels, (ex (o ^^^ l.toNat)).isFixed = false)) := by
  have hN : db.numOfUnits = 256 * B := by
    unfold DictBuilder.numOfUnits; rw [h.units, u32_of_lt (by omega)]
  have hor : 256 * B ||| (index &&& 255) = 256 * B + index % 256 := block_xor (by omega)
  unfold DictBuilder.findGoodOffset DictBuilder.findGoodOffsetN
  rw [hN, hor]
  by_cases hc : db.unfixedIndex ≥ 256 * B
  · rw [if_pos hc, if_pos hc]; exact ⟨_, ⟨rfl, 0, rfl, by omega⟩, .inl rfl⟩
  · rw [if_neg hc, if_neg hc]
    obtain ⟨l0, ls, hl⟩ := List.exists_cons_of_ne_nil hne
    have hfr : Free B ex db.unfixedIndex := by
      rcases hfl.head with h1 | h1
      · omega
      · exact h1
    obtain ⟨r, ⟨e1, n, e3, e4⟩, e2⟩ := findLoop_spec h hfl (index := index) hl (db.units.length + 1) db.unfixedIndex [] hfr (by simp) (by simp)
      (by intro x hx; left; simpa using hx) (by simp)
    rw [e1, e3]
    have hn : n ≤ 4096 := by simpa using e4
    cases r with
    | none => exact ⟨_, ⟨rfl, n, rfl, hn⟩, .inl rfl⟩
    | some o =>
      refine ⟨o, ⟨rfl, n, rfl, hn⟩, .inr ?_⟩
      obtain ⟨a1, a2, a3, a4⟩ := e2 o rfl
      refine ⟨a1, a2, (enc_iff _ ?_).1 a3, a4⟩
      have h1 : index < 2 ^ 29 := by omega
      have h2 : o < 2 ^ 29 := by have := a1.1; omega
      exact Nat.xor_lt_two_pow h1 h2

end Dawg.Dict
