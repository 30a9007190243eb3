import Verif.Props.Alloc
import Verif.Props.Serialize
/-! # C102: which files are accepted -/
namespace Dawg.Props
open Dawg Dawg.Spec Dawg.Client Dawg.Tool

theorem putU32_getU32 (a b c d : UInt8) : putU32 (getU32 a b c d) = [a, b, c, d] := by
  have ha := a.toNat_lt
  have hb := b.toNat_lt
  have hc := c.toNat_lt
  have hd := d.toNat_lt
  unfold putU32 getU32
  simp only [List.cons.injEq, and_true]
  refine ⟨?_, ?_, ?_, ?_⟩ <;>
  · rw [← UInt8.toNat_inj, UInt8.toNat_ofNat']
    omega

theorem bytes_unitsOf : ∀ (n : Nat) (b : List UInt8), b.length = 4 * n → bytesOfUnits (unitsOfBytes b) = b ∧ ∀ u ∈ unitsOfBytes b, u < 4294967296
  | 0, b, h => by
    obtain rfl := List.length_eq_zero_iff.1 (by omega : b.length = 0)
    exact ⟨rfl, by simp [unitsOfBytes]⟩
  | n + 1, a :: b :: c :: d :: rest, h => by
    obtain ⟨h1, h2⟩ := bytes_unitsOf n rest (by simp only [List.length_cons] at h; omega)
    refine ⟨?_, ?_⟩
    · rw [unitsOfBytes]
      unfold bytesOfUnits at h1 ⊢
      rw [List.flatMap_cons, h1, putU32_getU32]
      rfl
    · intro u hu
      rw [unitsOfBytes] at hu
      rcases List.mem_cons.1 hu with rfl | hu
      · exact getU32_lt a b c d
      · exact h2 u hu
  | n + 1, [], h => by simp at h
  | n + 1, [_], h => by simp at h; omega
  | n + 1, [_, _], h => by simp at h; omega
  | n + 1, [_, _, _], h => by simp at h; omega

theorem bytes_guideUnitsOf : ∀ (n : Nat) (b : List UInt8), b.length = 2 * n → bytesOfGuideUnits (guideUnitsOfBytes b) = b
  | 0, b, h => by
    obtain rfl := List.length_eq_zero_iff.1 (by omega : b.length = 0)
    rfl
  | n + 1, a :: b :: rest, h => by
    have h1 := bytes_guideUnitsOf n rest (by simp only [List.length_cons] at h; omega)
    rw [guideUnitsOfBytes]
    unfold bytesOfGuideUnits at h1 ⊢
    rw [List.flatMap_cons, h1]
    rfl
  | n + 1, [], h => by simp at h
  | n + 1, [_], h => by simp at h; omega

/-- What has been read was there. -/
theorem readUnits_back {α : Type} {k : Nat} {dec : List UInt8 → List α} {enc : List α → List UInt8} (hlen : ∀ (n : Nat) (b : List UInt8), b.length = k * n → (dec b).length = n)
    (henc : ∀ (n : Nat) (b : List UInt8), b.length = k * n → enc (dec b) = b) {r rest : List UInt8} {us : List α} (h : readUnits k dec r = (some us, rest)) :
    us.length < 4294967296 ∧ r = putU32 us.length ++ enc us ++ rest ∧ ∃ b, b.length = k * us.length ∧ us = dec b := by
  unfold readUnits readFull at h
  by_cases h4 : 4 ≤ r.length
  · rw [if_pos h4] at h
    obtain ⟨a, b, c, d, r', rfl⟩ : ∃ a b c d r', r = a :: b :: c :: d :: r' := by
      match r, h4 with
      | a :: b :: c :: d :: r', _ => exact ⟨a, b, c, d, r', rfl⟩
    simp only [List.take_succ_cons, List.take_zero, List.drop_succ_cons, List.drop_zero] at h
    by_cases hk : k * getU32 a b c d ≤ r'.length
    · rw [if_pos hk] at h
      simp only [Prod.mk.injEq, Option.some.injEq] at h
      obtain ⟨rfl, rfl⟩ := h
      have hl : (r'.take (k * getU32 a b c d)).length = k * getU32 a b c d := by rw [List.length_take]; omega
      rw [hlen _ _ hl, henc _ _ hl, putU32_getU32]
      refine ⟨getU32_lt a b c d, ?_, _, hl, rfl⟩
      simp
    · rw [if_neg hk] at h; cases h
  · rw [if_neg h4] at h; cases h

/-- **C102.** ReadDictionary accepts exactly what Write writes, followed by anything: and it reads what has been written. -/
theorem C102_dictionary (bs rest : List UInt8) (d : Dictionary) : Dictionary.readNew bs = (some d, rest) ↔ Units32 d.units ∧ bs = d.write ++ rest := by
  constructor
  · intro h
    have hr : readUnits 4 unitsOfBytes bs = (some d.units, rest) := by
      unfold Dictionary.readNew Dictionary.read at h
      rcases hx : readUnits 4 unitsOfBytes bs with ⟨o, r⟩
      rw [hx] at h
      cases o with
      | none => cases h
      | some us =>
        simp only [Prod.mk.injEq, Option.some.injEq] at h
        obtain ⟨rfl, rfl⟩ := h
        rfl
    obtain ⟨h1, h2, b, h3, h4⟩ := readUnits_back unitsOfBytes_length (fun n b hb => (bytes_unitsOf n b hb).1) hr
    refine ⟨⟨h1, ?_⟩, ?_⟩
    · rw [h4]; exact (bytes_unitsOf _ b h3).2
    · rw [h2]
      unfold Dictionary.write Dictionary.size
      rw [u32_of_lt h1]
  · rintro ⟨h1, rfl⟩
    exact (C19_dictionary_roundtrip d d h1 rest).2

/-- **C102.** The same for ReadGuide and ReadRankedGuide. -/
theorem C102_guide (bs rest : List UInt8) (g : Guide) : Guide.readNew bs = (some g, rest) ↔ g.units.length < 4294967296 ∧ bs = g.write ++ rest := by
  constructor
  · intro h
    have hr : readUnits 2 guideUnitsOfBytes bs = (some g.units, rest) := by
      unfold Guide.readNew Guide.read at h
      rcases hx : readUnits 2 guideUnitsOfBytes bs with ⟨o, r⟩
      rw [hx] at h
      cases o with
      | none => cases h
      | some us =>
        simp only [Prod.mk.injEq, Option.some.injEq] at h
        obtain ⟨rfl, rfl⟩ := h
        rfl
    obtain ⟨h1, h2, _⟩ := readUnits_back guideUnitsOfBytes_length bytes_guideUnitsOf hr
    refine ⟨h1, ?_⟩
    rw [h2]
    unfold Guide.write Guide.size
    rw [u32_of_lt h1]
  · rintro ⟨h1, rfl⟩
    exact (C19_guide_roundtrip g g h1 rest).2

/-- **C102.** The same for ReadIndex. -/
theorem C102_index (bs rest : List UInt8) (x : Index) : Index.readNew bs = (some x, rest) ↔ Units32 x.units ∧ bs = x.write ++ rest := by
  constructor
  · intro h
    have hr : readUnits 4 unitsOfBytes bs = (some x.units, rest) := by
      rw [index_readNew] at h
      rcases hx : readUnits 4 unitsOfBytes bs with ⟨o, r⟩
      rw [hx] at h
      cases o with
      | none => cases h
      | some us =>
        simp only [Prod.mk.injEq, Option.some.injEq] at h
        obtain ⟨rfl, rfl⟩ := h
        rfl
    obtain ⟨h1, h2, b, h3, h4⟩ := readUnits_back unitsOfBytes_length (fun n b hb => (bytes_unitsOf n b hb).1) hr
    refine ⟨⟨h1, ?_⟩, ?_⟩
    · rw [h4]; exact (bytes_unitsOf _ b h3).2
    · rw [h2]
      unfold Index.write Index.size
      rw [u32_of_lt h1]
  · rintro ⟨h1, rfl⟩
    exact (C19_index_roundtrip x x h1 rest).2

/-- Objects that fit into files and are those that the options ask for. -/
def FileFits (o : Opts) (l : Loaded) : Prop :=
  Units32 l.dict.units ∧
  (l.guide.isSome = (o.ranked || o.guide)) ∧ (∀ g, l.guide = some g → g.units.length < 4294967296) ∧
  (l.index.isSome = ((o.ranked || o.guide) && o.index)) ∧ (∀ x, l.index = some x → Units32 x.units)

/-- The bytes of the objects, one after the other. -/
def loadedBytes (l : Loaded) : List UInt8 :=
  l.dict.write ++ ((l.guide.map Guide.write).getD [] ++ (l.index.map Index.write).getD [])

/-- **C102.** dawgtool loads a file exactly if it starts with the bytes of the objects that the options ask for; then it has these objects.  Further bytes are ignored. -/
theorem C102_tool (o : Opts) (file : List UInt8) (l : Loaded) : load o file = .ok l ↔ FileFits o l ∧ loadedBytes l <+: file := by
  unfold load
  constructor
  · intro h
    rcases hd : Dictionary.readNew file with ⟨od, r1⟩
    rw [hd] at h
    cases od with
    | none => cases h
    | some d =>
      obtain ⟨d1, d2⟩ := (C102_dictionary _ _ _).1 hd
      simp only at h
      by_cases hg : (o.ranked || o.guide) = true
      · rw [if_pos hg] at h
        rcases hgd : Guide.readNew r1 with ⟨og, r2⟩
        rw [hgd] at h
        cases og with
        | none => cases h
        | some g =>
          obtain ⟨g1, g2⟩ := (C102_guide _ _ _).1 hgd
          simp only at h
          by_cases hi : o.index = true
          · rw [if_pos hi] at h
            rcases hx : Index.readNew r2 with ⟨ox, r3⟩
            rw [hx] at h
            cases ox with
            | none => cases h
            | some x =>
              obtain ⟨x1, x2⟩ := (C102_index _ _ _).1 hx
              cases h
              refine ⟨⟨d1, by simp [hg], ?_, by simp [hg, hi], ?_⟩, r3, ?_⟩
              · intro g' h; cases h; exact g1
              · intro x' h; cases h; exact x1
              · simp [loadedBytes, d2, g2, x2]
          · rw [if_neg hi] at h
            cases h
            refine ⟨⟨d1, by simp [hg], ?_, by simpa using fun _ => hi, by simp⟩, r2, ?_⟩
            · intro g' h; cases h; exact g1
            · simp [loadedBytes, d2, g2]
      · rw [if_neg hg] at h
        cases h
        have hg' : (o.ranked || o.guide) = false := by simpa using hg
        refine ⟨⟨d1, by simp [hg'], by simp, by simp [hg'], by simp⟩, r1, ?_⟩
        simp [loadedBytes, d2]
  · rintro ⟨⟨d1, g1, g2, x1, x2⟩, rest, rfl⟩
    obtain ⟨d, og, ox⟩ := l
    simp only at d1 g1 g2 x1 x2
    unfold loadedBytes
    simp only [List.append_assoc]
    rw [(C102_dictionary _ _ _).2 ⟨d1, rfl⟩]
    simp only
    by_cases hg : (o.ranked || o.guide) = true
    · rw [if_pos hg]
      rw [hg] at g1
      obtain ⟨g, rfl⟩ := Option.isSome_iff_exists.1 g1
      simp only [Option.map_some, Option.getD_some]
      rw [(C102_guide _ _ _).2 ⟨g2 g rfl, rfl⟩]
      simp only
      rw [hg, Bool.true_and] at x1
      by_cases hi : o.index = true
      · rw [if_pos hi]
        rw [hi] at x1
        obtain ⟨x, rfl⟩ := Option.isSome_iff_exists.1 x1
        simp only [Option.map_some, Option.getD_some]
        rw [(C102_index _ _ _).2 ⟨x2 x rfl, rfl⟩]
        rfl
      · rw [if_neg hi]
        have hi' : o.index = false := by simpa using hi
        rw [hi'] at x1
        have : ox = none := by simpa using x1
        subst this
        rfl
    · rw [if_neg hg]
      have hg' : (o.ranked || o.guide) = false := by simpa using hg
      rw [hg'] at g1 x1
      have h1 : og = none := by simpa using g1
      have h2 : ox = none := by simpa using x1
      subst h1 h2
      rfl

/-- Two units, and a byte that is left over. -/
example : Dictionary.readNew [2, 0, 0, 0, 1, 0, 0, 128, 255, 1, 0, 0, 7] = (some ⟨[2147483649, 511]⟩, [7]) ∧
    ([2, 0, 0, 0, 1, 0, 0, 128, 255, 1, 0, 0, 7] : List UInt8) = (⟨[2147483649, 511]⟩ : Dictionary).write ++ [7] := by decide

/-- A file that is not a dictionary with a guide, although it starts with a dictionary. -/
example : load { guide := true } [1, 0, 0, 0, 1, 0, 0, 0, 1, 0, 0, 0, 5] = .error .fatal ∧
    load {} [1, 0, 0, 0, 1, 0, 0, 0, 1, 0, 0, 0, 5] = .ok ⟨⟨[1]⟩, none, none⟩ := by decide

end Dawg.Props
