import Verif.Props.Shared
import Verif.Props.Tool
/-! # C78: UTF-C and the order of strings -/
namespace Dawg.Props
open Dawg Dawg.Utfc Dawg.Tool

/-- The full claim C78: encodings are ordered (byte by byte) as the strings are (by code points). -/
def C78_statement : Prop := ∀ s t : List Char, encode s < encode t ↔ s < t

/-- **C78 is false**: "я" (U+044F) is before "ё" (U+0451), but its encoding 0xFF is after 0x84 0x51.
So `dawgtool -b -u` refuses the lexicon of these two lines, although it is sorted. -/
theorem C78_order_false : ¬ C78_statement ∧ (['я'] < ['ё'] ∧ encode ['ё'] < encode ['я']) ∧
    ∀ sorter linkSorter grow, mainBuild sorter linkSorter grow { utfc := true } [0xD1, 0x8F, 10, 0xD1, 0x91, 10] = .error .fatal := by
  refine ⟨fun hs => ?_, by decide +kernel, fun sorter linkSorter grow => ?_⟩
  · have := (hs ['я'] ['ё']).2 (by decide +kernel)
    exact absurd this (by decide +kernel)
  · have h : processLines { utfc := true } (scanLines [0xD1, 0x8F, 10, 0xD1, 0x91, 10]) Builder.new = .error .fatal := by decide +kernel
    unfold mainBuild buildDawg
    rw [show orderLines sorter grow { utfc := true } (scanLines [0xD1, 0x8F, 10, 0xD1, 0x91, 10]) = scanLines [0xD1, 0x8F, 10, 0xD1, 0x91, 10] from rfl, h]
    rfl

/-- If neither of two lists is the beginning of the other, what follows them does not matter for their order. -/
theorem lt_of_parts : ∀ {x y x' y' : List UInt8}, ¬ x <+: y → ¬ y <+: x → x <+: x' → y <+: y' → (x' < y' ↔ x < y)
  | [], y, _, _, h, _, _, _ => absurd List.nil_prefix h
  | _ :: _, [], _, _, _, h, _, _ => absurd List.nil_prefix h
  | a :: x, b :: y, x', y', h1, h2, h3, h4 => by
    obtain ⟨tx, rfl⟩ := h3
    obtain ⟨ty, rfl⟩ := h4
    simp only [List.cons_append, List.cons_lt_cons_iff]
    by_cases hab : a = b
    · subst hab
      have := lt_of_parts (x := x) (y := y) (x' := x ++ tx) (y' := y ++ ty) (fun h => h1 (List.cons_prefix_cons.2 ⟨rfl, h⟩)) (fun h => h2 (List.cons_prefix_cons.2 ⟨rfl, h⟩))
        (List.prefix_append _ _) (List.prefix_append _ _)
      simp [this]
    · simp [hab]

theorem lt_append_left (p : List UInt8) {x y : List UInt8} : p ++ x < p ++ y ↔ x < y := by
  induction p with
  | nil => rfl
  | cons a p ih => simp [List.cons_append, ih]

theorem encode_append (p s : List Char) : encode (p ++ s) = encode p ++ encFrom (run State.init p) s := by
  rw [encode_eq, encode_eq, encFrom_append]

theorem lt_of_prefix {x y : List UInt8} (h : x <+: y) (hne : x ≠ y) : x < y := by
  obtain ⟨t, rfl⟩ := h
  cases t with
  | nil => simp at hne
  | cons b t =>
    have := (lt_append_left x (x := []) (y := b :: t)).2 (List.nil_lt_cons _ _)
    simpa using this

/-- **C78**, for all strings: a string is before those it is the beginning of, and otherwise the encodings of the first characters that differ decide. -/
theorem C78_first_difference_partial (p r r' : List Char) (a b : Char) (h : a ≠ b) :
    encode p < encode (p ++ a :: r) ∧
    (encode (p ++ a :: r) < encode (p ++ b :: r') ↔ (encodeChar (run State.init p) a.toNat).1 < (encodeChar (run State.init p) b.toNat).1) := by
  constructor
  · refine lt_of_prefix ((C38_prefix_iff _ _).2 (List.prefix_append _ _)) (fun hc => ?_)
    have := C38_injective _ _ hc
    simp at this
  · have hx : ∀ (a b : Char), a ≠ b → ¬ encode (p ++ [a]) <+: encode (p ++ [b]) := by
      intro a b hab hc
      have := (C38_prefix_iff _ _).1 hc
      rw [List.prefix_append_right_inj] at this
      simp at this
      exact hab this
    have ha : ∀ a r, encode (p ++ [a]) <+: encode (p ++ a :: r) := fun a r => (C38_prefix_iff _ _).2 (by simp)
    rw [lt_of_parts (hx a b h) (hx b a (Ne.symm h)) (ha a r) (ha b r'), encode_append, encode_append, lt_append_left]
    simp [encFrom]

/-- Two sets of strings for which UTF-C keeps the order: the state depends only on whether something was encoded before, and the encodings of characters are ordered as the characters. -/
theorem order_of_classes {A : Char → Prop} (h : ∀ (p : List Char) (a b : Char), (∀ c ∈ p, A c) → A a → A b → a < b →
      (encodeChar (run State.init p) a.toNat).1 < (encodeChar (run State.init p) b.toNat).1) :
    ∀ s t : List Char, (∀ c ∈ s, A c) → (∀ c ∈ t, A c) → (encode s < encode t ↔ s < t) := by
  have key : ∀ s t : List Char, (∀ c ∈ s, A c) → (∀ c ∈ t, A c) → s < t → encode s < encode t := by
    suffices ∀ (s t p : List Char), (∀ c ∈ p, A c) → (∀ c ∈ s, A c) → (∀ c ∈ t, A c) → s < t → encode (p ++ s) < encode (p ++ t) from
      fun s t hs ht hst => this s t [] (by simp) hs ht hst
    intro s
    induction s with
    | nil =>
      intro t p _ _ _ hst
      cases t with
      | nil => exact absurd hst (List.lt_irrefl _)
      | cons b t =>
        simp only [List.append_nil]
        exact (C78_first_difference_partial p t t b (Char.ofNat (if b.toNat = 97 then 98 else 97)) (by
          intro hc
          have := congrArg Char.toNat hc
          split at this
          · rename_i h97; rw [h97] at this; exact absurd this (by decide)
          · rename_i h97; exact h97 (this.trans (by decide)))).1
    | cons a s ih =>
      intro t p hp hs ht hst
      cases t with
      | nil => exact absurd hst (List.not_lt_nil _)
      | cons b t =>
        rw [List.cons_lt_cons_iff] at hst
        rcases hst with hab | ⟨rfl, hst⟩
        · have hne : a ≠ b := fun hc => by subst hc; exact absurd hab (Nat.lt_irrefl _)
          exact (C78_first_difference_partial p s t a b hne).2.2 (h p a b hp (hs a (by simp)) (ht b (by simp)) hab)
        · have := ih t (p ++ [a]) (by
            intro c hc
            rcases List.mem_append.1 hc with hc | hc
            · exact hp c hc
            · rw [List.mem_singleton.1 hc]; exact hs a (by simp)) (fun c hc => hs c (List.mem_cons_of_mem _ hc)) (fun c hc => ht c (List.mem_cons_of_mem _ hc)) hst
          simpa using this
  intro s t hs ht
  refine ⟨fun hlt => ?_, key s t hs ht⟩
  rcases Std.lt_trichotomy s t with h1 | h1 | h1
  · exact h1
  · subst h1; exact absurd hlt (List.lt_irrefl _)
  · exact absurd hlt (List.lt_asymm (key t s ht hs h1))

/-- Characters that are coded by one byte at the beginning of a string: U+0001 to U+007F and the Russian letters U+0410 to U+044F. -/
def Short (c : Char) : Prop := 1 ≤ c.toNat ∧ c.toNat < 0x80 ∨ 0x410 ≤ c.toNat ∧ c.toNat < 0x450

theorem encodeChar_short {c : Char} (h : Short c) : encodeChar State.init c.toNat = ([UInt8.ofNat (if c.toNat < 0x80 then c.toNat else 0xC0 + (c.toNat - 0x410))], State.init) := by
  rcases h with h | h
  · rw [encodeChar_ascii h, if_pos h.2]
  · rw [if_neg (by omega)]
    unfold encodeChar
    rw [if_neg (by simp [State.init, offsInitAux]), if_pos (by simp only [State.init, offsInitAux]; omega)]
    simp only [State.init, offsInitAux, byte, markerAux, Prod.mk.injEq, and_true, List.cons.injEq]
    have : ∀ k, k < 64 → 0xC0 ||| k = 0xC0 + k := by decide +kernel
    rw [this _ (by omega)]

theorem run_short {p : List Char} (h : ∀ c ∈ p, Short c) : run State.init p = State.init := by
  induction p with
  | nil => rfl
  | cons c p ih => rw [run, encodeChar_short (h c (by simp))]; exact ih (fun c hc => h c (List.mem_cons_of_mem _ hc))

theorem singleton_lt {a b : Nat} (h : a < b) (hb : b < 256) : [UInt8.ofNat a] < [UInt8.ofNat b] := by
  rw [List.cons_lt_cons_iff]
  left
  rw [UInt8.lt_iff_toNat_lt]
  simp
  omega

/-- **C78** for texts of the characters U+0001 to U+007F and U+0410 to U+044F. -/
theorem C78_short_partial (s t : List Char) (hs : ∀ c ∈ s, Short c) (ht : ∀ c ∈ t, Short c) : encode s < encode t ↔ s < t := by
  refine order_of_classes (A := Short) (fun p a b hp ha hb hab => ?_) s t hs ht
  rw [run_short hp, encodeChar_short ha, encodeChar_short hb]
  have : a.toNat < b.toNat := hab
  unfold Short at ha hb
  apply singleton_lt
  · split <;> split <;> omega
  · split <;> omega

/-- The character is in the row of 128 characters that begins at `w`, but not its first. -/
def InRow (w : Nat) (c : Char) : Prop := w < c.toNat ∧ c.toNat < w + 128

/-- The states of texts of such a row after the first character. -/
def rowState (w : Nat) : State := ⟨w, 0, false⟩

theorem row_next {w : Nat} (hw : w % 128 = 0 ∧ 0x300 ≤ w ∧ w < 0x2000) {c : Char} (h : InRow w c) : encodeChar (rowState w) c.toNat = ([UInt8.ofNat (c.toNat - w)], rowState w) := by
  unfold InRow at h
  have e : c.toNat &&& offsMask13Bit = c.toNat / 128 * 128 := and_mask13 (by omega)
  have hx : ¬ inRanges c.toNat rangesExtra = true := fun h' => by have := extra_ge h'; omega
  have hl : ¬ inRanges c.toNat rangesLatin = true := fun h' => by have := latin_lt h'; omega
  have hm : ¬ c.toNat ≥ min21BitCp := by unfold min21BitCp; omega
  have h7 : c.toNat &&& 0x7F = c.toNat - w := by
    rw [show (0x7F : Nat) = 2 ^ 7 - 1 from rfl, Nat.and_two_pow_sub_one_eq_mod]
    omega
  have h0 : ¬ byte (c.toNat - w) = 0 := by
    intro hc
    have := congrArg UInt8.toNat hc
    simp only [byte, UInt8.toNat_ofNat'] at this
    simp at this
    omega
  unfold encodeChar
  rw [if_neg (fun h => hl h.2), if_neg (by simp [rowState]), if_neg hx, if_neg hm]
  simp only [e, h7]
  rw [if_pos (by simp only [rowState, Bool.not_false, true_and]; omega), if_neg h0]
  rfl

theorem row_first {w : Nat} (hw : w % 128 = 0 ∧ 0x300 ≤ w ∧ w < 0x2000) {c : Char} (h : InRow w c ∧ ¬ (0x410 ≤ c.toNat ∧ c.toNat < 0x450)) :
    encodeChar State.init c.toNat = ([UInt8.ofNat (0x80 ||| (c.toNat / 256)), UInt8.ofNat (c.toNat % 256)], rowState w) := by
  obtain ⟨h, hc⟩ := h
  unfold InRow at h
  have e : c.toNat &&& offsMask13Bit = c.toNat / 128 * 128 := and_mask13 (by omega)
  have hx : ¬ inRanges c.toNat rangesExtra = true := fun h' => by have := extra_ge h'; omega
  have hl : ¬ inRanges c.toNat rangesLatin = true := fun h' => by have := latin_lt h'; omega
  have hm : ¬ c.toNat ≥ min21BitCp := by unfold min21BitCp; omega
  have h8 : c.toNat &&& 0xFF = c.toNat % 256 := by
    rw [show (0xFF : Nat) = 2 ^ 8 - 1 from rfl, Nat.and_two_pow_sub_one_eq_mod]
  have h0 : ¬ byte (c.toNat % 256) = 0 := by
    intro hc
    have := congrArg UInt8.toNat hc
    simp only [byte, UInt8.toNat_ofNat'] at this
    simp at this
    omega
  unfold encodeChar
  rw [if_neg (fun h => hl h.2), if_neg (by simp only [State.init, offsInitAux]; omega), if_neg hx, if_neg hm]
  simp only [e, h8]
  rw [if_neg (by simp only [State.init]; omega), if_neg h0, if_neg (by unfold maxLatinCp; omega)]
  simp only [Nat.shiftRight_eq_div_pow, byte, marker13Bit, rowState, Prod.mk.injEq, true_and, State.mk.injEq, and_true]
  exact ⟨by omega, by decide⟩

/-- **C78** for texts of one row of 128 characters from U+0300 to U+1FFF (without its first character); in the row of Cyrillic, without the letters of the first alphabet. -/
theorem C78_row_partial (w : Nat) (hw : w % 128 = 0 ∧ 0x300 ≤ w ∧ w < 0x2000) (s t : List Char) (hs : ∀ c ∈ s, InRow w c ∧ ¬ (0x410 ≤ c.toNat ∧ c.toNat < 0x450))
    (ht : ∀ c ∈ t, InRow w c ∧ ¬ (0x410 ≤ c.toNat ∧ c.toNat < 0x450)) : encode s < encode t ↔ s < t := by
  refine order_of_classes (A := fun c => InRow w c ∧ ¬ (0x410 ≤ c.toNat ∧ c.toNat < 0x450)) (fun p a b hp ha hb hab => ?_) s t hs ht
  have hab : a.toNat < b.toNat := hab
  cases p with
  | nil =>
    rw [run, row_first hw ha, row_first hw hb]
    obtain ⟨ha, -⟩ := ha
    obtain ⟨hb, -⟩ := hb
    unfold InRow at ha hb
    have : a.toNat / 256 = b.toNat / 256 := by omega
    rw [this, List.cons_lt_cons_iff]
    exact .inr ⟨rfl, singleton_lt (by omega) (by omega)⟩
  | cons c p =>
    have hr : ∀ p : List Char, (∀ c ∈ p, InRow w c) → run (rowState w) p = rowState w := by
      intro p
      induction p with
      | nil => exact fun _ => rfl
      | cons c p ih => intro h; rw [run, row_next hw (h c (by simp))]; exact ih (fun c hc => h c (List.mem_cons_of_mem _ hc))
    rw [run, row_first hw (hp c (by simp)), hr p (fun c hc => (hp c (List.mem_cons_of_mem _ hc)).1), row_next hw ha.1, row_next hw hb.1]
    obtain ⟨ha, -⟩ := ha
    obtain ⟨hb, -⟩ := hb
    unfold InRow at ha hb
    exact singleton_lt (by omega) (by omega)

/-- Russian and Greek words. -/
example : (encode ['д', 'а'] < encode ['д', 'а', 'л', 'ь'] ↔ ['д', 'а'] < ['д', 'а', 'л', 'ь']) ∧ (encode ['κ', 'α', 'λ'] < encode ['κ', 'α', 'κ'] ↔ ['κ', 'α', 'λ'] < ['κ', 'α', 'κ']) ∧
    encode ['κ', 'α', 'κ'] < encode ['κ', 'α', 'λ'] :=
  ⟨C78_short_partial _ _ (by unfold Short; decide) (by unfold Short; decide), C78_row_partial 0x380 (by decide) _ _ (by unfold InRow; decide) (by unfold InRow; decide), by decide +kernel⟩

/-- "aé" and "aя": the first characters that differ decide, 0x80 0xE9 is before 0xFF. -/
example : encode ['a', 'é', 'x'] < encode ['a', 'я'] := (C78_first_difference_partial ['a'] ['x'] [] 'é' 'я' (by decide)).2.2 (by decide +kernel)
end Dawg.Props
