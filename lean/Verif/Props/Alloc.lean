import Verif.Model.Alloc
import Verif.Props.Serialize
import Verif.Proof.Tool
/-! # C99: the memory that reading asks for -/
namespace Dawg.Props
open Dawg Dawg.Tool

/-- The full claim C99: what is asked for is not more than there is in the file. -/
def C99_statement : Prop := ∀ r : List UInt8, Dictionary.readAsks r ≤ r.length ∧ Guide.readAsks r ≤ r.length ∧ Index.readAsks r ≤ r.length ∧
  ∀ o, loadAsks o r ≤ r.length

/-- **C99 is false**: for a file of four bytes, 17 GB are asked for. -/
theorem C99_memory_false : ¬ C99_statement ∧ ∀ o, loadAsks o [255, 255, 255, 255] = 17179869180 := by
  have h : ∀ o, loadAsks o [255, 255, 255, 255] = 17179869180 := fun o => rfl
  refine ⟨fun hs => ?_, h⟩
  have := (hs [255, 255, 255, 255]).2.2.2 {}
  rw [h] at this
  exact absurd this (by decide)

theorem getU32_lt (a b c d : UInt8) : getU32 a b c d < 4294967296 := by
  have := a.toNat_lt
  have := b.toNat_lt
  have := c.toNat_lt
  have := d.toNat_lt
  unfold getU32
  omega

theorem asks_units {α : Type} (k : Nat) (dec : List UInt8 → List α) (r : List UInt8) (h4 : 4 ≤ r.length) :
    readAsks k r ≤ k * 4294967295 ∧ (4 + readAsks k r ≤ r.length → ∃ us, readUnits k dec r = (some us, r.drop (4 + readAsks k r))) ∧
    (r.length < 4 + readAsks k r → readUnits k dec r = (none, [])) := by
  obtain ⟨a, b, c, d, t, rfl⟩ : ∃ a b c d t, r = a :: b :: c :: d :: t := by
    match r, h4 with
    | a :: b :: c :: d :: t, _ => exact ⟨a, b, c, d, t, rfl⟩
  have e : readFull 4 (a :: b :: c :: d :: t) = (some [a, b, c, d], t) := by simp [readFull]
  have e2 : readAsks k (a :: b :: c :: d :: t) = k * getU32 a b c d := by simp only [readAsks, e]
  rw [e2]
  refine ⟨Nat.mul_le_mul_left k (by have := getU32_lt a b c d; omega), fun h => ?_, fun h => ?_⟩
  · have h' : k * getU32 a b c d ≤ t.length := by simp at h; omega
    refine ⟨dec (t.take (k * getU32 a b c d)), ?_⟩
    simp only [readUnits, e]
    rw [readFull, if_pos h', Nat.add_comm 4]
    rfl
  · have h' : ¬ k * getU32 a b c d ≤ t.length := by simp at h; omega
    simp only [readUnits, e]
    rw [readFull, if_neg h']

theorem asks_short (k : Nat) (r : List UInt8) (h4 : r.length < 4) : readAsks k r = 0 := by
  unfold readAsks
  rw [readFull_short h4]

theorem unitsOfBytes_length : ∀ (n : Nat) (b : List UInt8), b.length = 4 * n → (unitsOfBytes b).length = n
  | 0, [], _ => rfl
  | 0, _ :: _, h => by simp at h
  | n + 1, [], h => by simp at h
  | n + 1, [_], h => by simp at h; omega
  | n + 1, [_, _], h => by simp at h; omega
  | n + 1, [_, _, _], h => by simp at h; omega
  | n + 1, a :: b :: c :: d :: t, h => by
    simp only [unitsOfBytes, List.length_cons]
    rw [unitsOfBytes_length n t (by simp at h; omega)]

theorem guideUnitsOfBytes_length : ∀ (n : Nat) (b : List UInt8), b.length = 2 * n → (guideUnitsOfBytes b).length = n
  | 0, [], _ => rfl
  | 0, _ :: _, h => by simp at h
  | n + 1, [], h => by simp at h
  | n + 1, [_], h => by simp at h; omega
  | n + 1, a :: b :: t, h => by
    simp only [guideUnitsOfBytes, List.length_cons]
    rw [guideUnitsOfBytes_length n t (by simp at h; omega)]

/-- What reading does for all files, in terms of what it asks for. -/
theorem units_asked {α : Type} {k : Nat} {dec : List UInt8 → List α} (hk : 0 < k) (hdec : ∀ (n : Nat) (b : List UInt8), b.length = k * n → (dec b).length = n) (r : List UInt8) :
    readAsks k r ≤ k * 4294967295 ∧
    ((∃ us, readUnits k dec r = (some us, r.drop (4 + readAsks k r)) ∧ k * us.length = readAsks k r ∧ 4 + readAsks k r ≤ r.length) ∨
      ((readUnits k dec r).1 = none ∧ r.length < 4 + readAsks k r)) := by
  by_cases h4 : 4 ≤ r.length
  · obtain ⟨h1, h2, h3⟩ := asks_units k dec r h4
    refine ⟨h1, ?_⟩
    by_cases h : 4 + readAsks k r ≤ r.length
    · obtain ⟨us, hu⟩ := h2 h
      refine .inl ⟨us, hu, ?_, h⟩
      obtain ⟨a, b, c, d, t, rfl⟩ : ∃ a b c d t, r = a :: b :: c :: d :: t := by
        match r, h4 with
        | a :: b :: c :: d :: t, _ => exact ⟨a, b, c, d, t, rfl⟩
      have e : readFull 4 (a :: b :: c :: d :: t) = (some [a, b, c, d], t) := by simp [readFull]
      have e2 : readAsks k (a :: b :: c :: d :: t) = k * getU32 a b c d := by simp only [readAsks, e]
      rw [e2] at h hu ⊢
      have h' : k * getU32 a b c d ≤ t.length := by simp at h; omega
      simp only [readUnits, e] at hu
      rw [readFull, if_pos h'] at hu
      simp only [Prod.mk.injEq, Option.some.injEq] at hu
      rw [← hu.1, hdec (getU32 a b c d) _ (by rw [List.length_take]; omega)]
    · exact .inr ⟨by rw [h3 (by omega)], by omega⟩
  · refine ⟨by rw [asks_short k r (by omega)]; omega, .inr ⟨?_, by omega⟩⟩
    unfold readUnits
    rw [readFull_short (by omega)]

theorem index_readNew (r : List UInt8) : Index.readNew r = match readUnits 4 unitsOfBytes r with
    | (some us, r) => (some { units := us }, r)
    | (none, r) => (none, r) := by
  obtain ⟨h1, h2⟩ := Index.read_eq Index.new r
  unfold Index.readNew
  generalize readUnits 4 unitsOfBytes r = u at h1 h2
  obtain ⟨o, t⟩ := u
  generalize Index.read Index.new r = v at h1 h2
  obtain ⟨x, ok, t'⟩ := v
  cases o with
  | none =>
    simp only [Option.isSome_none, Prod.mk.injEq] at h1
    simp only [h1]
  | some us =>
    simp only [Option.isSome_some, Prod.mk.injEq] at h1
    have := h2 us rfl
    simp only at this
    simp only [h1, this]

/-- **C99**, what holds for `Read`: a file is accepted exactly if it has the bytes that were asked for, and then the memory asked for is that of the object that is returned and there is as much of it as bytes
have been read.  Otherwise more is asked for than there is (or the size itself is missing), but never more than 2^32 - 1 units. -/
theorem C99_read_partial (r : List UInt8) :
    (Dictionary.readAsks r ≤ 4 * 4294967295 ∧ ((∃ D rest, Dictionary.readNew r = (some D, rest) ∧ Dictionary.readAsks r = D.totalSize ∧ 4 + Dictionary.readAsks r + rest.length = r.length) ∨
      ((Dictionary.readNew r).1 = none ∧ r.length < 4 + Dictionary.readAsks r))) ∧
    (Guide.readAsks r ≤ 2 * 4294967295 ∧ ((∃ g rest, Guide.readNew r = (some g, rest) ∧ Guide.readAsks r = g.totalSize ∧ 4 + Guide.readAsks r + rest.length = r.length) ∨
      ((Guide.readNew r).1 = none ∧ r.length < 4 + Guide.readAsks r))) ∧
    (Index.readAsks r ≤ 4 * 4294967295 ∧ ((∃ x rest, Index.readNew r = (some x, rest) ∧ Index.readAsks r = x.totalSize ∧ 4 + Index.readAsks r + rest.length = r.length) ∨
      ((Index.readNew r).1 = none ∧ r.length < 4 + Index.readAsks r))) := by
  refine ⟨?_, ?_, ?_⟩
  · obtain ⟨h1, h2⟩ := units_asked (dec := unitsOfBytes) (by omega) unitsOfBytes_length r
    refine ⟨h1, ?_⟩
    rcases h2 with ⟨us, h3, h4, h5⟩ | ⟨h3, h4⟩
    · refine .inl ⟨⟨us⟩, _, by unfold Dictionary.readNew Dictionary.read; rw [h3], h4.symm, ?_⟩
      rw [List.length_drop]
      unfold Dictionary.readAsks
      omega
    · refine .inr ⟨?_, h4⟩
      unfold Dictionary.readNew Dictionary.read
      generalize readUnits 4 unitsOfBytes r = u at h3
      obtain ⟨o, t⟩ := u
      cases h3
      rfl
  · obtain ⟨h1, h2⟩ := units_asked (dec := guideUnitsOfBytes) (by omega) guideUnitsOfBytes_length r
    refine ⟨h1, ?_⟩
    rcases h2 with ⟨us, h3, h4, h5⟩ | ⟨h3, h4⟩
    · refine .inl ⟨⟨us⟩, _, by unfold Guide.readNew Guide.read; rw [h3], h4.symm, ?_⟩
      rw [List.length_drop]
      unfold Guide.readAsks
      omega
    · refine .inr ⟨?_, h4⟩
      unfold Guide.readNew Guide.read
      generalize readUnits 2 guideUnitsOfBytes r = u at h3
      obtain ⟨o, t⟩ := u
      cases h3
      rfl
  · obtain ⟨h1, h2⟩ := units_asked (dec := unitsOfBytes) (by omega) unitsOfBytes_length r
    refine ⟨h1, ?_⟩
    rcases h2 with ⟨us, h3, h4, h5⟩ | ⟨h3, h4⟩
    · refine .inl ⟨⟨us⟩, _, by rw [index_readNew, h3], h4.symm, ?_⟩
      rw [List.length_drop]
      unfold Index.readAsks
      omega
    · refine .inr ⟨?_, h4⟩
      rw [index_readNew]
      split <;> simp_all

/-- A file of one unit with three more bytes; a file that claims to have two units. -/
example : Dictionary.readAsks [1, 0, 0, 0, 0, 4, 0, 0, 9, 9, 9] = 4 ∧ (Dictionary.readNew [1, 0, 0, 0, 0, 4, 0, 0, 9, 9, 9]).1 = some ⟨[1024]⟩ ∧
    Dictionary.readAsks [2, 0, 0, 0, 0, 4, 0, 0] = 8 ∧ (Dictionary.readNew [2, 0, 0, 0, 0, 4, 0, 0]).1 = none := by decide

/-- **C99**, what holds for dawgtool with all options: when the loading succeeds, no more is asked for than there is in the file; in any case, what is asked for beyond the size of the file is due to a single
object, and less than 2^34 bytes. -/
theorem C99_tool_partial (o : Opts) (file : List UInt8) : loadAsks o file ≤ file.length + 4 * 4294967295 ∧ ∀ l, load o file = .ok l → loadAsks o file ≤ file.length := by
  obtain ⟨⟨d1, d2⟩, -, -⟩ := C99_read_partial file
  rcases d2 with ⟨D, r1, d3, d4, d5⟩ | ⟨d3, d4⟩
  · unfold loadAsks load
    rw [d3]
    simp only
    cases hg : (o.ranked || o.guide)
    · simp only [Bool.false_eq_true, if_false]
      exact ⟨by omega, fun _ _ => by omega⟩
    · simp only [if_true]
      obtain ⟨-, ⟨g1, g2⟩, -⟩ := C99_read_partial r1
      rcases g2 with ⟨g, r2, g3, g4, g5⟩ | ⟨g3, g4⟩
      · rw [g3]
        simp only
        cases hi : o.index
        · simp only [Bool.false_eq_true, if_false]
          exact ⟨by omega, fun _ _ => by omega⟩
        · simp only [if_true]
          obtain ⟨-, -, ⟨x1, x2⟩⟩ := C99_read_partial r2
          rcases x2 with ⟨x, r3, x3, x4, x5⟩ | ⟨x3, x4⟩
          · exact ⟨by omega, fun _ _ => by omega⟩
          · refine ⟨by omega, fun l hl => ?_⟩
            split at hl
            · cases hl
            · simp_all
      · refine ⟨?_, fun l hl => ?_⟩
        · split <;> simp_all
          omega
        · split at hl
          · cases hl
          · simp_all
  · unfold loadAsks load
    refine ⟨?_, fun l hl => ?_⟩
    · split <;> simp_all
      omega
    · split at hl
      · cases hl
      · simp_all

/-- A dictionary of one unit and a guide that claims to have 2^32 - 1 units. -/
example : loadAsks { guide := true } [1, 0, 0, 0, 0, 4, 0, 0, 255, 255, 255, 255] = 8589934594 ∧ load { guide := true } [1, 0, 0, 0, 0, 4, 0, 0, 255, 255, 255, 255] = .error .fatal ∧
    loadAsks { guide := true } [1, 0, 0, 0, 0, 4, 0, 0, 1, 0, 0, 0, 0, 0] = 6 := by decide

end Dawg.Props
