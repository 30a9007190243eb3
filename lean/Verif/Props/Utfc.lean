import Verif.Proof.UtfcString
/-! # C36–C41: UTF-C

A Go string is the list of its characters (`Char`, the Unicode scalar values). -/
namespace Dawg.Props
open Dawg Dawg.Utfc

/-! ## C36 -/

/-- The full claim C36. -/
def C36_statement : Prop := ∀ s : List Char, decode (encode s) = .ok s

/-- "☁☀" (U+2601 U+2600). -/
def sunAfterCloud : List Char := [Char.ofNat 0x2601, Char.ofNat 0x2600]

/-- **C36 is false**: decoding the encoding of "☁☀" indexes out of range. -/
theorem C36_roundtrip_false : ¬ C36_statement ∧ decode (encode sunAfterCloud) = .error .panic := by
  have h : decode (encode sunAfterCloud) = .error .panic := by decide +kernel
  refine ⟨fun hs => ?_, h⟩
  have := hs sunAfterCloud
  rw [h] at this
  cases this

/-- The first character of a 32768 character window of the 21-bit mode: U+2600, U+A600, U+12600, … -/
def WindowStart (c : Char) : Prop := 0x2600 ≤ c.toNat ∧ (c.toNat - 0x2600) % 0x8000 = 0

/-- **C36**, exactly: a string survives the round trip if and only if nowhere in it a window start is encoded as the single byte 0xBB. -/
theorem C36_roundtrip_iff_partial (s : List Char) : decode (encode s) = .ok s ↔
    ∀ p z r, s = p ++ z :: r → WindowStart z → encode (p ++ [z]) ≠ encode p ++ [0xBB] := by
  rw [encode_eq, decode]
  have h := good_iff WF.init s
  have h2 : Good State.init s ↔ ∀ p z r, s = p ++ z :: r → WindowStart z → encode (p ++ [z]) ≠ encode p ++ [0xBB] := by
    rw [h]
    simp only [encode_eq]
    rfl
  rw [← h2]
  exact ⟨fun hd => good_of_decode WF.init hd, fun hg => decodeLoop_good hg (Nat.le_refl _)⟩

/-- **C36**, a simple sufficient condition: strings without window starts. -/
theorem C36_roundtrip_partial (s : List Char) (h : ∀ c ∈ s, ¬ WindowStart c) : decode (encode s) = .ok s := by
  rw [C36_roundtrip_iff_partial]
  rintro p z r rfl hz
  exact absurd hz (h z (by simp))

/-- **C36**: a single character always survives. -/
theorem C36_single_char_partial (c : Char) : decode (encode [c]) = .ok [c] := by
  rw [C36_roundtrip_iff_partial]
  intro p z r h hz hc
  cases p with
  | cons d p => simp at h
  | nil =>
    rw [encode_eq, encode_eq, List.nil_append] at hc
    rw [show encFrom State.init [z] = (encodeChar State.init z.toNat).1 by simp [encFrom]] at hc
    have := zero_code WF.init hz hc
    simp [State.init] at this

instance (c : Char) : Decidable (WindowStart c) := by unfold WindowStart; infer_instance

example : ∃ s : List Char, (∀ c ∈ s, ¬ WindowStart c) ∧ s = "Съешь же ещё ☁ этих мягких 日本 😀 rolls".toList := ⟨_, by decide, rfl⟩

/-! ## C37 -/

/-- **C37.** No byte of an encoding is zero. -/
theorem C37_no_nul (s : List Char) : (0 : UInt8) ∉ encode s := by
  rw [encode_eq]
  suffices ∀ st, (0 : UInt8) ∉ encFrom st s from this _
  induction s with
  | nil => simp [encFrom]
  | cons c s ih =>
    intro st
    rw [encFrom, List.mem_append]
    rintro (h | h)
    · exact (enc_char st c).nonzero 0 h rfl
    · exact ih _ h

/-- Even the encoding of a NUL character has no zero byte. -/
example : encode [Char.ofNat 0] = [0xBB] := by decide

/-! ## C38 -/

/-- **C38.** Byte prefixes of encodings are exactly the encodings of prefixes. -/
theorem C38_prefix_iff (s t : List Char) : encode s <+: encode t ↔ s <+: t := by
  rw [encode_eq, encode_eq, encFrom_prefix]

/-- **C38.** Distinct strings have distinct encodings. -/
theorem C38_injective (s t : List Char) (h : encode s = encode t) : s = t := by
  have h1 := (C38_prefix_iff s t).1 (by rw [h]; exact List.prefix_rfl)
  have h2 := (C38_prefix_iff t s).1 (by rw [h]; exact List.prefix_rfl)
  exact h1.eq_of_length (Nat.le_antisymm h1.length_le h2.length_le)

/-- Also where decoding fails. -/
example : encode [Char.ofNat 0x2601] <+: encode sunAfterCloud ∧ encode sunAfterCloud = [190, 160, 1, 187] := by decide

/-! ## C39 -/

/-- **C39.** One to three bytes for a character. -/
theorem C39_length (s : List Char) : s.length ≤ (encode s).length ∧ (encode s).length ≤ 3 * s.length := by
  rw [encode_eq]
  suffices ∀ st, s.length ≤ (encFrom st s).length ∧ (encFrom st s).length ≤ 3 * s.length from this _
  induction s with
  | nil => simp [encFrom]
  | cons c s ih =>
    intro st
    have h1 := (enc_char st c).length
    have h2 := ih (encodeChar st c.toNat).2
    rw [encFrom, List.length_append, List.length_cons]
    omega

/-- Both bounds are attained. -/
example : (encode "aa".toList).length = 2 ∧ (encode [Char.ofNat 0x20001, Char.ofNat 0x4E01]).length = 6 := by decide

/-! ## C40 -/

theorem feed_spec {σ : Type} (f : σ → UInt8 → σ × Bool) (s0 : σ) (bs : List UInt8) :
    (∃ s1, feed f s0 bs = (s1, true) ∧ s1 = bs.foldl (fun s b => (f s b).1) s0 ∧
      ∀ n (h : n < bs.length), (f ((bs.take n).foldl (fun s b => (f s b).1) s0) bs[n]).2 = true) ∨
    (∃ s1 n, ∃ h : n < bs.length, feed f s0 bs = (s1, false) ∧ s1 = (bs.take (n + 1)).foldl (fun s b => (f s b).1) s0 ∧
      (∀ m (hm : m < n), (f ((bs.take m).foldl (fun s b => (f s b).1) s0) bs[m]).2 = true) ∧
      (f ((bs.take n).foldl (fun s b => (f s b).1) s0) bs[n]).2 = false) := by
  induction bs generalizing s0 with
  | nil => exact .inl ⟨s0, rfl, rfl, by simp⟩
  | cons b bs ih =>
    cases hb : (f s0 b).2 with
    | false =>
      right
      refine ⟨(f s0 b).1, 0, by simp, ?_, rfl, by simp, by simpa using hb⟩
      rw [feed]
      rcases h : f s0 b with ⟨s, ok⟩
      rw [h] at hb
      simp only at hb
      rw [hb]
    | true =>
      have hf : feed f s0 (b :: bs) = feed f (f s0 b).1 bs := by
        rw [feed]
        rcases h : f s0 b with ⟨s, ok⟩
        rw [h] at hb
        simp only at hb
        rw [hb]
      rw [hf]
      rcases ih (f s0 b).1 with ⟨s1, h1, h2, h3⟩ | ⟨s1, n, hn, h1, h2, h3, h4⟩
      · refine .inl ⟨s1, h1, by simpa using h2, ?_⟩
        intro n hn
        cases n with
        | zero => simpa using hb
        | succ n => simpa using h3 n (by simpa using hn)
      · refine .inr ⟨s1, n + 1, by simpa using hn, h1, by simpa using h2, ?_, by simpa using h4⟩
        intro m hm
        cases m with
        | zero => simpa using hb
        | succ m => simpa using h3 m (by omega)

/-- **C40.** `UtfcFollow` gives the follower the bytes of the encoding one by one, up to and including the first that is refused; it
returns true if and only if none is refused. -/
theorem C40_follow {σ : Type} (f : σ → UInt8 → σ × Bool) (s0 : σ) (str : List Char) :
    (∃ s1, utfcFollow f str s0 = (s1, true) ∧ s1 = (encode str).foldl (fun s b => (f s b).1) s0 ∧
      ∀ n (h : n < (encode str).length), (f (((encode str).take n).foldl (fun s b => (f s b).1) s0) (encode str)[n]).2 = true) ∨
    (∃ s1 n, ∃ h : n < (encode str).length, utfcFollow f str s0 = (s1, false) ∧ s1 = ((encode str).take (n + 1)).foldl (fun s b => (f s b).1) s0 ∧
      (∀ m (hm : m < n), (f (((encode str).take m).foldl (fun s b => (f s b).1) s0) (encode str)[m]).2 = true) ∧
      (f (((encode str).take n).foldl (fun s b => (f s b).1) s0) (encode str)[n]).2 = false) := by
  rw [utfcFollow, followLoop_eq, ← encode_eq]
  exact feed_spec f s0 _

/-- A follower that counts the bytes it is given and refuses the third. -/
example : utfcFollow (fun (s : Nat) _ => (s + 1, decide (s < 2))) "abcdef".toList 0 = (3, false) := by decide

/-! ## C41 -/

/-- The full claim C41. -/
def C41_statement : Prop := ∀ (grow : Nat → Nat) (s t : List Char),
  let (m1, s1) := Mem.init.utfcEncode grow s
  let (m2, _) := m1.utfcEncode grow t
  m2.view s1 = m1.view s1

/-- **C41 is false**: the next call overwrites the result (here `UtfcEncode("a")`, then `UtfcEncode("b")`), however Go grows slices. -/
theorem C41_stable_false : ¬ C41_statement ∧ ∀ grow : Nat → Nat,
    (Mem.init.utfcEncode grow ['a']).1.view (Mem.init.utfcEncode grow ['a']).2 = [97] ∧
    ((Mem.init.utfcEncode grow ['a']).1.utfcEncode grow ['b']).1.view (Mem.init.utfcEncode grow ['a']).2 = [98] := by
  have key : ∀ grow : Nat → Nat,
      (Mem.init.utfcEncode grow ['a']).1.view (Mem.init.utfcEncode grow ['a']).2 = [97] ∧
      ((Mem.init.utfcEncode grow ['a']).1.utfcEncode grow ['b']).1.view (Mem.init.utfcEncode grow ['a']).2 = [98] := by
    intro grow
    rw [(Mem.utfcEncode_view Mem.OK.init grow _).1, Mem.utfcEncode_overwrite Mem.OK.init grow]
    decide
  refine ⟨fun h => ?_, key⟩
  have h1 := h (fun n => n) ['a'] ['b']
  obtain ⟨h2, h3⟩ := key (fun n => n)
  simp only at h1
  rw [h2, h3] at h1
  cases h1

/-- The shared buffer after calls of `UtfcEncode` for the strings `ss`. -/
def afterCalls (grow : Nat → Nat) : List (List Char) → Mem
  | [] => Mem.init
  | s :: ss => ((afterCalls grow ss).utfcEncode grow s).1

theorem afterCalls_ok (grow : Nat → Nat) : ∀ ss, (afterCalls grow ss).OK
  | [] => Mem.OK.init
  | s :: ss => (Mem.utfcEncode_view (afterCalls_ok grow ss) grow s).2

/-- **C41**, what is true: after any calls the result holds the encoding when it is returned; the next call replaces its bytes, from the front,
by the bytes of the next encoding. -/
theorem C41_until_next_call_partial (grow : Nat → Nat) (ss : List (List Char)) (s t : List Char) :
    let (m1, s1) := (afterCalls grow ss).utfcEncode grow s
    let (m2, _) := m1.utfcEncode grow t
    m1.view s1 = encode s ∧ m2.view s1 = (encode t ++ (encode s).drop (encode t).length).take (encode s).length :=
  ⟨(Mem.utfcEncode_view (afterCalls_ok grow ss) grow s).1, Mem.utfcEncode_overwrite (afterCalls_ok grow ss) grow s t⟩

example : encode "abc".toList = [97, 98, 99] ∧ (encode "xy".toList ++ (encode "abc".toList).drop 2).take 3 = [120, 121, 99] := by decide

end Dawg.Props
