import Verif.Props.Text
import Verif.Props.Utfc
/-! # C59–C61: dictionaries of Unicode strings, UTF-C in pieces, decoding arbitrary bytes -/
namespace Dawg.Props
open Dawg Dawg.Spec Dawg.Client Dawg.Abs Dawg.Dict Dawg.Utfc
attribute [-simp] List.length_flatten

/-! ## C59 -/

theorem feed_dict {D : Dictionary} : ∀ {bs : List UInt8} {i : Nat} {ok j n}, D.followString bs i = .ok (ok, j, n) → feed (dictFollower D) (.ok i) bs = (.ok j, ok)
  | [], i, ok, j, n, h => by
    simp only [Dictionary.followString, Except.ok.injEq, Prod.mk.injEq] at h
    obtain ⟨rfl, rfl, _⟩ := h
    rfl
  | b :: bs, i, ok, j, n, h => by
    rw [Dictionary.followString] at h
    obtain ⟨o, h1, h2⟩ := bind_eq_ok.1 h
    rw [feed]
    cases o with
    | none =>
      simp only [pure_eq_ok, Except.ok.injEq, Prod.mk.injEq] at h2
      obtain ⟨rfl, rfl, _⟩ := h2
      rw [show dictFollower D (.ok i) b = (.ok i, false) by unfold dictFollower; simp only [h1]]
    | some k =>
      rw [show dictFollower D (.ok i) b = (.ok k, true) by unfold dictFollower; simp only [h1]]
      obtain ⟨⟨ok', j', n'⟩, h3, h4⟩ := bind_eq_ok.1 h2
      simp only [pure_eq_ok, Except.ok.injEq, Prod.mk.injEq] at h4
      obtain ⟨rfl, rfl, _⟩ := h4
      exact feed_dict h3

theorem utfcFollow_dict {D : Dictionary} {t : List Char} {i : Nat} {ok j n} (h : D.followString (encode t) i = .ok (ok, j, n)) :
    utfcFollow (dictFollower D) t (.ok i) = (.ok j, ok) := by
  rw [utfcFollow, followLoop_eq, ← encode_eq]
  exact feed_dict h

/-- The history of the insertions of the encodings of the strings `ws` with values. -/
def encoded (ws : List (List Char × Int)) : List (Key × Int) := ws.map (fun w => (encode w.1, w.2))

theorem encoded_keys {ws : List (List Char × Int)} (hs : ws.Pairwise (fun a b => ¬ encode b.1 < encode a.1)) (x : Key) :
    (∃ e ∈ accepted (encoded ws), e.1 = x) ↔ ∃ w ∈ ws, encode w.1 = x := by
  rw [keys_accepted (Tool.verdicts_sorted (by rw [encoded, List.pairwise_map]; exact hs) (by simp))]
  unfold encoded
  constructor
  · rintro ⟨e, he, hx⟩
    obtain ⟨w, hw, rfl⟩ := List.mem_map.1 he
    exact ⟨w, hw, hx⟩
  · rintro ⟨w, hw, hx⟩
    exact ⟨_, List.mem_map.2 ⟨w, hw, rfl⟩, hx⟩

/-- **C59** with values: for strings whose encoding does not leave the key set with the low byte of a stored value. -/
theorem C59_values {ws : List (List Char × Int)} (hs : ws.Pairwise (fun a b => ¬ encode b.1 < encode a.1)) (hne : ws ≠ []) {d D} (h : Made (encoded ws) d D)
    (t : List Char) (hc : NoClash (encoded ws) (encode t)) :
    ∃ i, utfcFollow (dictFollower D) t (.ok D.root) = (.ok i, decide (∃ w ∈ ws, t <+: w.1)) ∧
      ((∃ w ∈ ws, t <+: w.1) → D.hasValue i = .ok (decide (∃ w ∈ ws, w.1 = t)) ∧ ((∃ w ∈ ws, w.1 = t) → ∃ v, (t, v) ∈ ws ∧ D.value i = .ok (stored v))) := by
  have hk := encoded_keys hs
  have hpre : (∃ e ∈ accepted (encoded ws), encode t <+: e.1) ↔ ∃ w ∈ ws, t <+: w.1 := by
    constructor
    · rintro ⟨e, he, hp⟩
      obtain ⟨w, hw, hwe⟩ := (hk e.1).1 ⟨e, he, rfl⟩
      rw [← hwe, C38_prefix_iff] at hp
      exact ⟨w, hw, hp⟩
    · rintro ⟨w, hw, hp⟩
      obtain ⟨e, he, hwe⟩ := (hk (encode w.1)).2 ⟨w, hw, rfl⟩
      exact ⟨e, he, by rw [hwe, C38_prefix_iff]; exact hp⟩
  have heq : (∃ e ∈ accepted (encoded ws), e.1 = encode t) ↔ ∃ w ∈ ws, w.1 = t := by
    rw [hk]
    exact ⟨fun ⟨w, hw, e⟩ => ⟨w, hw, C38_injective _ _ e⟩, fun ⟨w, hw, e⟩ => ⟨w, hw, by rw [e]⟩⟩
  have hne' : accepted (encoded ws) ≠ [] := by
    obtain ⟨w, hw⟩ := List.exists_mem_of_ne_nil _ hne
    obtain ⟨e, he, _⟩ := (hk (encode w.1)).2 ⟨w, hw, rfl⟩
    exact List.ne_nil_of_mem he
  by_cases hp : ∃ w ∈ ws, t <+: w.1
  · obtain ⟨i, h1, h2, h3⟩ := follow_prefix h (hpre.2 hp)
    refine ⟨i, by rw [utfcFollow_dict h1, decide_eq_true hp], fun _ => ⟨?_, fun hw => ?_⟩⟩
    · rw [h2]
      congr 1
      exact decide_eq_decide.2 heq
    · obtain ⟨e, he, hek⟩ := heq.2 hw
      refine ⟨e.2, ?_, h3 e he hek⟩
      have := mem_of_accepted he
      rw [encoded, List.mem_map] at this
      obtain ⟨w, hw, rfl⟩ := this
      rw [← C38_injective _ _ hek]
      exact hw
  · obtain ⟨i, k, h1⟩ := follow_other h hne' (fun hq => hp (hpre.1 hq)) hc
    exact ⟨i, by rw [utfcFollow_dict h1, decide_eq_false hp], fun h => absurd h hp⟩

/-- **C59.** In a dictionary of UTF-C encoded strings (without values), `UtfcFollow` accepts exactly the prefixes, as Unicode strings, of the stored strings; no
query goes wrong.  `HasValue` then tells whether the whole string is stored. -/
theorem C59_utfc_dictionary {ws : List (List Char × Int)} (hs : ws.Pairwise (fun a b => ¬ encode b.1 < encode a.1)) (hne : ws ≠ []) (hv : ∀ w ∈ ws, w.2 = 0)
    {d D} (h : Made (encoded ws) d D) (t : List Char) :
    ∃ i, utfcFollow (dictFollower D) t (.ok D.root) = (.ok i, decide (∃ w ∈ ws, t <+: w.1)) ∧
      ((∃ w ∈ ws, t <+: w.1) → D.hasValue i = .ok (decide (∃ w ∈ ws, w.1 = t))) := by
  obtain ⟨i, h1, h2⟩ := C59_values hs hne h t (noClash_of_values (fun e he => by
    have := mem_of_accepted he
    rw [encoded, List.mem_map] at this
    obtain ⟨w, hw, rfl⟩ := this
    rw [hv w hw]
    rfl) (C37_no_nul t))
  exact ⟨i, h1, fun hp => (h2 hp).1⟩

/-- Two words and their insertion: "Жук" (with value 0) and "Жуки"; the keys are the UTF-C encodings. -/
example : ∃ d D, Made (encoded [("Жук".toList, 0), ("Жуки".toList, 0)]) d D ∧
    (∃ i, utfcFollow (dictFollower D) "Жук".toList (.ok D.root) = (.ok i, true) ∧ D.hasValue i = .ok true) ∧
    (∃ i, utfcFollow (dictFollower D) "Жу".toList (.ok D.root) = (.ok i, true) ∧ D.hasValue i = .ok false) ∧
    ∃ i, utfcFollow (dictFollower D) "Жаба".toList (.ok D.root) = (.ok i, false) := by
  obtain ⟨d, D, h, _⟩ := C14_small_builds 1 (by omega) (by omega) (encoded [("Жук".toList, 0), ("Жуки".toList, 0)]) (by decide +kernel) (by decide +kernel)
  have hs := C59_utfc_dictionary (ws := [("Жук".toList, 0), ("Жуки".toList, 0)]) (by decide +kernel) (by decide) (by decide) h
  obtain ⟨i, h1, h2⟩ := hs "Жук".toList
  obtain ⟨j, h3, h4⟩ := hs "Жу".toList
  obtain ⟨k, h5, _⟩ := hs "Жаба".toList
  rw [show decide (∃ w ∈ [("Жук".toList, (0 : Int)), ("Жуки".toList, 0)], "Жук".toList <+: w.1) = true by decide +kernel] at h1
  rw [show decide (∃ w ∈ [("Жук".toList, (0 : Int)), ("Жуки".toList, 0)], "Жу".toList <+: w.1) = true by decide +kernel] at h3
  rw [show decide (∃ w ∈ [("Жук".toList, (0 : Int)), ("Жуки".toList, 0)], "Жаба".toList <+: w.1) = false by decide +kernel] at h5
  exact ⟨d, D, h, ⟨i, h1, h2 (by decide +kernel)⟩, ⟨j, h3, h4 (by decide +kernel)⟩, ⟨k, h5⟩⟩

/-! ## C60 -/

/-- **C60.** Following a string in two pieces with the same `UtfcState` is following it as a whole, whatever the follower is. -/
theorem C60_pieces {σ : Type} (f : σ → UInt8 → σ × Bool) : ∀ (p q : List Char) (st : Utfc.State) (s : σ),
    spell f st (p ++ q) s = (match spell f st p s with | (st, s, true) => spell f st q s | r => r)
  | [], _, _, _ => rfl
  | c :: p, q, st, s => by
    rw [List.cons_append, spell, spell]
    rcases h : follow f st c s with ⟨st', s', ok⟩
    cases ok
    · rfl
    · exact C60_pieces f p q st' s'

/-- **C60.** From a new state a loop of `UtfcState.Follow` calls does what `UtfcFollow` does. -/
theorem C60_from_new {σ : Type} (f : σ → UInt8 → σ × Bool) (s : List Char) (x : σ) : (spell f Utfc.State.init s x).2 = utfcFollow f s x := by
  suffices ∀ st, (spell f st s x).2 = followLoop f st s x from this _
  induction s generalizing x with
  | nil => intro st; rfl
  | cons c s ih =>
    intro st
    rw [spell, followLoop]
    rcases h : follow f st c x with ⟨st', s', ok⟩
    cases ok
    · rfl
    · exact ih s' st'

/-- **C60.** A refused character leaves the state of the coder as it was. -/
theorem C60_refused {σ : Type} (f : σ → UInt8 → σ × Bool) (st st' : Utfc.State) (c : Char) (s s' : σ) (h : follow f st c s = (st', s', false)) : st' = st := by
  unfold follow at h
  simp only at h
  rcases h1 : feed f s (encodeChar st c.toNat).1 with ⟨x, ok⟩
  rw [h1] at h
  cases ok
  · simp only [Prod.mk.injEq] at h
    exact h.1.symm
  · simp at h

/-- **C60.** A state after the prefix `p`, copied into any other state object, continues with any suffix: the bytes are those of the whole string. -/
theorem C60_resume (p q : List Char) (other : Utfc.State) :
    let (st, buf, _) := spell bufferFollow Utfc.State.init p []
    (spell bufferFollow (other.copy st) q buf).2 = (encode (p ++ q), true) := by
  have h1 := C60_from_new bufferFollow p []
  have h2 := C60_from_new bufferFollow (p ++ q) []
  have e1 : ∀ s, utfcFollow bufferFollow s [] = (encode s, true) := fun s => by
    rw [encode_eq, utfcFollow, followLoop_eq, feed_buffer]; rfl
  rw [e1] at h1 h2
  rw [C60_pieces] at h2
  rcases h : spell bufferFollow Utfc.State.init p [] with ⟨st, buf, ok⟩
  rw [h] at h1 h2
  simp only [Prod.mk.injEq] at h1
  rw [h1.2] at h2
  exact h2

/-- **C60.** After `Clear`, whatever the state was used for before, a loop of `UtfcState.Follow` calls does what `UtfcFollow` does. -/
theorem C60_clear {σ : Type} (f : σ → UInt8 → σ × Bool) (st : Utfc.State) (s : List Char) (x : σ) : (spell f st.clear s x).2 = utfcFollow f s x :=
  C60_from_new f s x

example : let (st, buf, _) := spell bufferFollow Utfc.State.init "Λόγος".toList []
    buf = encode "Λόγος".toList ∧ st ≠ Utfc.State.init ∧ (spell bufferFollow st "-42".toList buf).2.1 = encode "Λόγος-42".toList ∧
    (spell bufferFollow Utfc.State.init "-42".toList buf).2.1 ≠ encode "Λόγος-42".toList := by decide +kernel

/-! ## C61 -/

/-- The claim of **C61**: `UtfcDecode` returns for every byte array. -/
def C61_statement : Prop := ∀ buf : List UInt8, ∃ s, decode buf = .ok s

/-- **C61 is false**: an array that ends within a character makes the decoder panic. -/
theorem C61_truncated_false : ¬ C61_statement ∧ decode [0x80] = .error .panic := by
  have h : decode [0x80] = .error .panic := by decide
  refine ⟨fun hs => ?_, h⟩
  obtain ⟨s, hs⟩ := hs [0x80]
  rw [h] at hs
  cases hs

theorem takeIf_cases (c : Bool) (buf : List UInt8) : (∃ x rest, rest.length ≤ buf.length ∧ ∀ ext, takeIf c (buf ++ ext) = .ok (x, rest ++ ext)) ∨ (c = true ∧ buf = []) := by
  cases c
  · exact .inl ⟨0, buf, Nat.le_refl _, fun ext => rfl⟩
  · cases buf with
    | nil => exact .inr ⟨rfl, rfl⟩
    | cons b buf => exact .inl ⟨b.toNat, buf, by simp, fun ext => rfl⟩

/-- Reading `n` further bytes makes a character complete. -/
def Completes (m : List UInt8 → Go (Char × Utfc.State × List UInt8)) (buf : List UInt8) : Prop :=
  (∃ c st rest, rest.length ≤ buf.length ∧ ∀ ext, m (buf ++ ext) = .ok (c, st, rest ++ ext)) ∨
  (m buf = .error .panic ∧ ∃ ext c st, ext ≠ [] ∧ ext.length ≤ 2 ∧ m (buf ++ ext) = .ok (c, st, []))

theorem decodeRest_completes (st : Utfc.State) (zm cp : Nat) (buf : List UInt8) : Completes (decodeRest st zm cp) buf := by
  unfold Completes
  unfold decodeRest
  split
  · exact .inl ⟨_, _, buf, Nat.le_refl _, fun ext => rfl⟩
  split
  · rcases takeIf_cases (decide (zm ≠ marker10)) buf with ⟨x, rest, hl, h⟩ | ⟨hc, rfl⟩
    · exact .inl ⟨_, _, rest, hl, fun ext => by rw [h]; rfl⟩
    · rw [hc]
      exact .inr ⟨rfl, [0], _, _, by simp, by simp, rfl⟩
  split
  · rcases takeIf_cases (decide (zm ≠ marker10 ∧ zm ≠ marker11)) buf with ⟨x, rest, hl, h⟩ | ⟨hc, rfl⟩
    · rcases takeIf_cases (decide (zm ≠ marker01 ∧ zm ≠ marker11)) rest with ⟨y, rest', hl', h'⟩ | ⟨hc, rfl⟩
      · exact .inl ⟨_, _, rest', Nat.le_trans hl' hl, fun ext => by rw [h, ok_bind]; show (takeIf _ (rest ++ ext) >>= _) = _; rw [h']; rfl⟩
      · have h0 := h []
        rw [List.append_nil, List.append_nil] at h0
        exact .inr ⟨by rw [h0, ok_bind]; show (takeIf _ [] >>= _) = _; rw [hc]; rfl, [0], _, _, by simp, by simp, by rw [h, ok_bind]; show (takeIf _ [0] >>= _) = _; rw [hc]; rfl⟩
    · rw [hc]
      by_cases hd : (decide (zm ≠ marker01 ∧ zm ≠ marker11)) = true
      · exact .inr ⟨rfl, [0, 0], _, _, by simp, by simp, by rw [hd]; rfl⟩
      · rw [Bool.not_eq_true] at hd
        exact .inr ⟨rfl, [0], _, _, by simp, by simp, by rw [hd]; rfl⟩
  split
  · rcases takeIf_cases (decide (zm ≠ marker10)) buf with ⟨x, rest, hl, h⟩ | ⟨hc, rfl⟩
    · exact .inl ⟨_, _, rest, hl, fun ext => by rw [h]; rfl⟩
    · rw [hc]
      exact .inr ⟨rfl, [0], _, _, by simp, by simp, rfl⟩
  split
  · rcases takeIf_cases (decide (zm ≠ marker10)) buf with ⟨x, rest, hl, h⟩ | ⟨hc, rfl⟩
    · exact .inl ⟨_, _, rest, hl, fun ext => by rw [h]; rfl⟩
    · rw [hc]
      exact .inr ⟨rfl, [0], _, _, by simp, by simp, rfl⟩
  · exact .inl ⟨_, _, buf, Nat.le_refl _, fun ext => rfl⟩

theorem decodeChar_completes (st : Utfc.State) (b : UInt8) (buf : List UInt8) :
    (∃ c st' rest, rest.length ≤ buf.length ∧ ∀ ext, decodeChar st (b :: buf ++ ext) = .ok (c, st', rest ++ ext)) ∨
    (decodeChar st (b :: buf) = .error .panic ∧ ∃ ext c st', ext ≠ [] ∧ ext.length ≤ 2 ∧ decodeChar st (b :: buf ++ ext) = .ok (c, st', [])) := by
  have hb : byte b.toNat = b := by unfold byte; simp
  have hlt : b.toNat < 256 := b.toNat_lt
  by_cases h1 : b.toNat < 187 ∨ 191 < b.toNat
  · rw [← hb]
    rcases decodeRest_completes st 0 b.toNat buf with ⟨c, st', rest, hl, h⟩ | ⟨h2, ext, c, st', h3, h4, h5⟩
    · exact .inl ⟨c, st', rest, hl, fun ext => by rw [List.cons_append, decodeChar_plain hlt h1, h]⟩
    · exact .inr ⟨by rw [decodeChar_plain hlt h1, h2], ext, c, st', h3, h4, by rw [List.cons_append, decodeChar_plain hlt h1, h5]⟩
  · by_cases h6 : b.toNat = 187 ∨ b.toNat = 188
    · rw [← hb]
      rcases decodeRest_completes st b.toNat 0 buf with ⟨c, st', rest, hl, h⟩ | ⟨h2, ext, c, st', h3, h4, h5⟩
      · exact .inl ⟨c, st', rest, hl, fun ext => by rw [List.cons_append, decodeChar_zero h6, h]⟩
      · exact .inr ⟨by rw [decodeChar_zero h6, h2], ext, c, st', h3, h4, by rw [List.cons_append, decodeChar_zero h6, h5]⟩
    · have h7 : b.toNat = 189 ∨ b.toNat = 190 ∨ b.toNat = 191 := by omega
      cases buf with
      | nil =>
        refine .inr ⟨?_, [192], ?_⟩
        · rw [decodeChar_rest]
          have hz1 : decide (b.toNat ≥ marker0 ∧ b.toNat ≤ marker11) = true := decide_eq_true (by unfold marker0 marker11; omega)
          have hz2 : decide (b.toNat ≠ marker0 ∧ b.toNat ≠ marker00) = true := decide_eq_true (by unfold marker0 marker00; omega)
          simp only [take1, ok_bind, takeIf, hz1, hz2, if_true]
          rfl
        · have := decodeChar_two (st := st) (b := 192) (buf := []) (by omega) h7
          rw [hb] at this
          have h8 : ∃ c, decodeRest st b.toNat 192 [] = .ok (c, st, []) := by
            unfold decodeRest
            rw [if_pos (by decide)]
            exact ⟨_, rfl⟩
          obtain ⟨c, h8⟩ := h8
          exact ⟨c, st, by simp, by simp, this.trans h8⟩
      | cons a buf =>
        have ha : byte a.toNat = a := by unfold byte; simp
        have hlta : a.toNat < 256 := a.toNat_lt
        rw [← hb, ← ha]
        rcases decodeRest_completes st b.toNat a.toNat buf with ⟨c, st', rest, hl, h⟩ | ⟨h2, ext, c, st', h3, h4, h5⟩
        · exact .inl ⟨c, st', rest, by simp; omega, fun ext => by rw [List.cons_append, List.cons_append, decodeChar_two hlta h7, h]⟩
        · exact .inr ⟨by rw [decodeChar_two hlta h7, h2], ext, c, st', h3, h4, by rw [List.cons_append, List.cons_append, decodeChar_two hlta h7, h5]⟩

theorem decodeLoop_completes : ∀ (n : Nat) (st : Utfc.State) (buf : List UInt8), buf.length ≤ n →
    (∃ s, ∀ fuel, buf.length ≤ fuel → decodeLoop fuel st buf = .ok s) ∨
    ((∀ fuel, buf.length ≤ fuel → decodeLoop fuel st buf = .error .panic) ∧
      ∃ ext s, ext ≠ [] ∧ ext.length ≤ 2 ∧ ∀ fuel, (buf ++ ext).length ≤ fuel → decodeLoop fuel st (buf ++ ext) = .ok s) := by
  intro n
  induction n with
  | zero =>
    intro st buf h
    have : buf = [] := List.eq_nil_of_length_eq_zero (by omega)
    subst this
    exact .inl ⟨[], fun fuel _ => by unfold decodeLoop; rfl⟩
  | succ n ih =>
    intro st buf hn
    cases buf with
    | nil => exact .inl ⟨[], fun fuel _ => by unfold decodeLoop; rfl⟩
    | cons b buf =>
      rw [List.length_cons] at hn
      rcases decodeChar_completes st b buf with ⟨c, st', rest, hl, h⟩ | ⟨h2, ext, c, st', h3, h4, h5⟩
      · have h0 := h []
        rw [List.append_nil, List.append_nil] at h0
        rcases ih st' rest (by omega) with ⟨s, hs⟩ | ⟨hp, ext, s, e1, e2, e3⟩
        · refine .inl ⟨c :: s, fun fuel hf => ?_⟩
          rw [List.length_cons] at hf
          obtain ⟨fuel, rfl⟩ : ∃ k, fuel = k + 1 := ⟨fuel - 1, by omega⟩
          rw [decodeLoop_cons (by simp), h0]
          show (decodeLoop fuel st' rest >>= _) = _
          rw [hs fuel (by omega)]
          rfl
        · refine .inr ⟨fun fuel hf => ?_, ext, c :: s, e1, e2, fun fuel hf => ?_⟩
          · rw [List.length_cons] at hf
            obtain ⟨fuel, rfl⟩ : ∃ k, fuel = k + 1 := ⟨fuel - 1, by omega⟩
            rw [decodeLoop_cons (by simp), h0]
            show (decodeLoop fuel st' rest >>= _) = _
            rw [hp fuel (by omega)]
            rfl
          · rw [List.length_append, List.length_cons] at hf
            obtain ⟨fuel, rfl⟩ : ∃ k, fuel = k + 1 := ⟨fuel - 1, by omega⟩
            rw [decodeLoop_cons (by simp), h]
            show (decodeLoop fuel st' (rest ++ ext) >>= _) = _
            rw [e3 fuel (by rw [List.length_append]; omega)]
            rfl
      · refine .inr ⟨fun fuel hf => ?_, ext, [c], h3, h4, fun fuel hf => ?_⟩
        · rw [List.length_cons] at hf
          obtain ⟨fuel, rfl⟩ : ∃ k, fuel = k + 1 := ⟨fuel - 1, by omega⟩
          rw [decodeLoop_cons (by simp), h2]
          rfl
        · rw [List.length_append, List.length_cons] at hf
          obtain ⟨fuel, rfl⟩ : ∃ k, fuel = k + 1 := ⟨fuel - 1, by omega⟩
          rw [decodeLoop_cons (by simp), h5]
          show (decodeLoop fuel st' [] >>= _) = _
          rw [show decodeLoop fuel st' [] = .ok [] by unfold decodeLoop; rfl]
          rfl

/-- **C61**, what is true: the decoder never runs for ever, and it panics only if the array ends within a character; one or two further bytes would
complete it. -/
theorem C61_only_truncated_partial (buf : List UInt8) : (∃ s, decode buf = .ok s) ∨
    (decode buf = .error .panic ∧ ∃ ext s, ext ≠ [] ∧ ext.length ≤ 2 ∧ decode (buf ++ ext) = .ok s) := by
  rcases decodeLoop_completes buf.length Utfc.State.init buf (Nat.le_refl _) with ⟨s, hs⟩ | ⟨h1, ext, s, h2, h3, h4⟩
  · exact .inl ⟨s, hs _ (Nat.le_refl _)⟩
  · exact .inr ⟨h1 _ (Nat.le_refl _), ext, s, h2, h3, h4 _ (Nat.le_refl _)⟩

/-- "☁☀" of C36 ends within a character for the decoder. -/
example : decode (encode sunAfterCloud) = .error .panic ∧ decode (encode sunAfterCloud ++ [1]) = .ok [Char.ofNat 0x2601, Char.ofNat 0x2601] := by decide +kernel

end Dawg.Props
