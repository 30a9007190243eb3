import Verif.Proof.Utfc
/-! # The UTF-C coder on strings -/
namespace Dawg.Utfc

/-- The bytes for the rest of a string in a given state. -/
def encFrom : State → List Char → List UInt8
  | _, [] => []
  | st, c :: cs => (encodeChar st c.toNat).1 ++ encFrom (encodeChar st c.toNat).2 cs

/-- The state after a string. -/
def run : State → List Char → State
  | st, [] => st
  | st, c :: cs => run (encodeChar st c.toNat).2 cs

theorem encFrom_append (st : State) (p q : List Char) : encFrom st (p ++ q) = encFrom st p ++ encFrom (run st p) q := by
  induction p generalizing st with
  | nil => rfl
  | cons c p ih => rw [List.cons_append, encFrom, ih, encFrom, run, List.append_assoc]

theorem feed_append {σ : Type} (f : σ → UInt8 → σ × Bool) (s : σ) (a b : List UInt8) :
    feed f s (a ++ b) = (match feed f s a with | (s, true) => feed f s b | (s, false) => (s, false)) := by
  induction a generalizing s with
  | nil => rfl
  | cons x a ih =>
    rw [List.cons_append, feed, feed]
    rcases h : f s x with ⟨s', ok⟩
    cases ok
    · rfl
    · exact ih s'

theorem followLoop_eq {σ : Type} (f : σ → UInt8 → σ × Bool) (st : State) (str : List Char) (s : σ) :
    followLoop f st str s = feed f s (encFrom st str) := by
  induction str generalizing st s with
  | nil => rfl
  | cons c str ih =>
    rw [encFrom, feed_append, followLoop]
    unfold follow
    simp only []
    rcases h : feed f s (encodeChar st c.toNat).1 with ⟨s', ok⟩
    cases ok
    · rfl
    · exact ih _ _

theorem feed_buffer (buf bs : List UInt8) : feed bufferFollow buf bs = (buf ++ bs, true) := by
  induction bs generalizing buf with
  | nil => simp [feed]
  | cons b bs ih => unfold feed; simp only [bufferFollow]; rw [ih, List.append_assoc]; rfl

theorem encode_eq (str : List Char) : encode str = encFrom State.init str := by
  rw [encode, utfcFollow, followLoop_eq, feed_buffer]; rfl

theorem char_lt (c : Char) : c.toNat < 1114112 := by
  have h : c.toNat.isValidChar := c.valid
  unfold Nat.isValidChar at h; omega

theorem enc_char (st : State) (c : Char) : Code st c.toNat (encodeChar st c.toNat).1 (encodeChar st c.toNat).2 := enc_code st (char_lt c)

theorem byte_ne_zero {n : Nat} (h0 : n ≠ 0) (h : n < 256) : byte n ≠ 0 := fun h' => by have := byte_eq_zero.1 h'; omega

theorem Code.nonzero {st st' cp bs} (h : Code st cp bs st') : ∀ b ∈ bs, b ≠ 0 := by
  cases h with
  | aux x hx h => intro b hb; rw [List.mem_singleton] at hb; subst hb; exact byte_ne_zero (by omega) (by omega)
  | win x hx hl h =>
    intro b hb; rw [List.mem_singleton] at hb; subst hb
    split
    · exact byte_ne_zero (by omega) (by omega)
    · exact byte_ne_zero (by omega) (by omega)
  | extra hi lo hhi hlo h =>
    split
    all_goals
      intro b hb
      simp only [List.mem_cons, List.not_mem_nil, or_false] at hb
      rcases hb with rfl | rfl <;> exact byte_ne_zero (by omega) (by omega)
  | winLong hi lo hhi hlo hl h =>
    split
    · intro b hb; rw [List.mem_singleton] at hb; subst hb; exact byte_ne_zero (by omega) (by omega)
    · split
      · intro b hb
        simp only [List.mem_cons, List.not_mem_nil, or_false] at hb
        rcases hb with rfl | rfl <;> exact byte_ne_zero (by omega) (by omega)
      · split
        all_goals
          intro b hb
          simp only [List.mem_cons, List.not_mem_nil, or_false] at hb
          rcases hb with rfl | rfl <;> exact byte_ne_zero (by omega) (by omega)
  | long top hi lo ht hhi hlo h =>
    split
    · intro b hb
      simp only [List.mem_cons, List.not_mem_nil, or_false] at hb
      rcases hb with rfl | rfl <;> exact byte_ne_zero (by omega) (by omega)
    · split
      · intro b hb
        simp only [List.mem_cons, List.not_mem_nil, or_false] at hb
        rcases hb with rfl | rfl | rfl <;> exact byte_ne_zero (by omega) (by omega)
      · split
        all_goals
          intro b hb
          simp only [List.mem_cons, List.not_mem_nil, or_false] at hb
          rcases hb with rfl | rfl | rfl <;> exact byte_ne_zero (by omega) (by omega)
  | short hi lo hhi hlo h =>
    split
    all_goals
      intro b hb
      simp only [List.mem_cons, List.not_mem_nil, or_false] at hb
      rcases hb with rfl | rfl <;> exact byte_ne_zero (by omega) (by omega)

theorem Code.length {st st' cp bs} (h : Code st cp bs st') : 1 ≤ bs.length ∧ bs.length ≤ 3 := by
  cases h <;> repeat' split
  all_goals simp

/-- Facts about reachable states. -/
structure WF (st : State) : Prop where
  long : st.is21Bit = true → st.offs % 32768 = 0
  short : st.is21Bit = false → st.offs < 8192 ∨ 12288 ≤ st.offs ∧ st.offs < 12544

theorem WF.init : WF State.init := ⟨by simp [State.init], by simp [State.init]⟩

theorem Code.wf {st st' cp bs} (hcp : cp < 1114112) (h : Code st cp bs st') (hw : WF st) : WF st' := by
  cases h with
  | aux | win | winLong => exact hw
  | extra hi lo hhi hlo h =>
    unfold stExtra
    split
    · next hk =>
      simp only [inHK, decide_eq_true_eq] at hk
      refine ⟨by simp, fun _ => .inr ?_⟩
      have e : cp &&& offsMask13Bit = cp / 128 * 128 := and_mask13 (by omega)
      simp only [e]; omega
    · exact hw
  | long top hi lo ht hhi hlo h =>
    refine ⟨fun _ => ?_, by simp [stLong]⟩
    have e : (cp - 9728) &&& offsMask21Bit = (cp - 9728) / 32768 * 32768 := and_mask21 (by omega)
    simp only [stLong, e]; omega
  | short hi lo hhi hlo h =>
    refine ⟨by simp [stShort], fun _ => .inl ?_⟩
    rw [or_shift8 hlo] at h
    have e : cp &&& offsMask13Bit = cp / 128 * 128 := and_mask13 (by omega)
    simp only [stShort, e]
    split <;> omega

theorem run_wf {st : State} (hw : WF st) (s : List Char) : WF (run st s) := by
  induction s generalizing st with
  | nil => exact hw
  | cons c s ih => exact ih ((enc_char st c).wf (char_lt c) hw)

/-- Characters whose code in the 21-bit mode is the single byte `marker0`. -/
def ZeroChar (c : Char) : Prop := 9728 ≤ c.toNat ∧ (c.toNat - 9728) % 32768 = 0

theorem byte_inj {a b : Nat} (ha : a < 256) (hb : b < 256) (h : byte a = byte b) : a = b := by
  have := congrArg UInt8.toNat h
  rwa [byte_toNat ha, byte_toNat hb] at this

/-- In the 21-bit mode only the window's zero character has a code that starts with `marker0`. -/
theorem Code.marker0 {st st' cp bs} (h : Code st cp bs st') (hl : st.is21Bit = true) (hb : bs.head? = some (byte 187)) :
    bs = [byte 187] ∧ cp = 9728 + st.offs ∧ st' = st := by
  have key : ∀ n, n < 256 → n ≠ 187 → some (byte n) ≠ some (byte 187) :=
    fun n h1 h2 h3 => h2 (byte_inj h1 (by omega) (Option.some.inj h3))
  cases h with
  | aux x hx h => exact absurd hb (key _ (by omega) (by omega))
  | win x hx hl' h => rw [hl] at hl'; cases hl'
  | extra hi lo hhi hlo h =>
    split at hb
    · exact absurd hb (key _ (by omega) (by omega))
    · exact absurd hb (key _ (by omega) (by omega))
  | winLong hi lo hhi hlo hl' h =>
    split at hb
    · next h0 => rw [if_pos h0]; obtain ⟨rfl, rfl⟩ := h0; exact ⟨rfl, by simpa using h, rfl⟩
    · split at hb
      · exact absurd hb (key _ (by omega) (by omega))
      · split at hb
        · exact absurd hb (key _ (by omega) (by omega))
        · exact absurd hb (key _ (by omega) (by omega))
  | long top hi lo ht hhi hlo h =>
    split at hb
    · exact absurd hb (key _ (by omega) (by omega))
    · split at hb
      · exact absurd hb (key _ (by omega) (by omega))
      · split at hb
        · exact absurd hb (key _ (by omega) (by omega))
        · exact absurd hb (key _ (by omega) (by omega))
  | short hi lo hhi hlo h =>
    split at hb
    · exact absurd hb (key _ (by omega) (by omega))
    · exact absurd hb (key _ (by omega) (by omega))

theorem head_append {α : Type} {a b : List α} (h : a ≠ []) : (a ++ b).head? = a.head? := by
  cases a <;> simp_all

theorem Code.ne_nil {st st' cp bs} (h : Code st cp bs st') : bs ≠ [] := by
  intro hb; have := h.length.1; rw [hb] at this; simp at this

/-- Codes are self-delimiting. -/
theorem Code.unique {st s1 s2 : State} {c d : Char} {bs ds r t : List UInt8} (h : Code st c.toNat bs s1) (h' : Code st d.toNat ds s2)
    (he : bs ++ r = ds ++ t) : c = d ∧ r = t := by
  by_cases hz : st.is21Bit = true ∧ (bs.head? = some (byte 187))
  · have hd : ds.head? = some (byte 187) := by
      rw [← head_append (b := t) h'.ne_nil, ← he, head_append h.ne_nil, hz.2]
    obtain ⟨e1, e2, _⟩ := h.marker0 hz.1 hz.2
    obtain ⟨f1, f2, _⟩ := h'.marker0 hz.1 hd
    rw [e1, f1] at he
    exact ⟨Char.toNat_inj.1 (e2.trans f2.symm), List.append_cancel_left he⟩
  · have hd : ¬ (st.is21Bit = true ∧ (ds.head? = some (byte 187))) := by
      rintro ⟨h1, h2⟩
      exact hz ⟨h1, by rw [← head_append (b := r) h.ne_nil, he, head_append h'.ne_nil, h2]⟩
    have e1 := decode_code h (fun hl hb => hz ⟨hl, by rw [hb]; rfl⟩) r
    have e2 := decode_code h' (fun hl hb => hd ⟨hl, by rw [hb]; rfl⟩) t
    rw [he, e2] at e1
    simp only [Except.ok.injEq, Prod.mk.injEq] at e1
    exact ⟨e1.1.symm, e1.2.2.symm⟩

theorem encFrom_prefix (st : State) (s t : List Char) : encFrom st s <+: encFrom st t ↔ s <+: t := by
  constructor
  · rintro ⟨u, hu⟩
    induction s generalizing st t with
    | nil => exact List.nil_prefix
    | cons c s ih =>
      cases t with
      | nil =>
        rw [encFrom, encFrom] at hu
        have := (enc_char st c).ne_nil
        simp_all
      | cons d t =>
        rw [encFrom, encFrom, List.append_assoc] at hu
        obtain ⟨rfl, e⟩ := (enc_char st c).unique (enc_char st d) hu
        exact List.cons_prefix_cons.2 ⟨rfl, ih _ _ e⟩
  · rintro ⟨u, rfl⟩
    rw [encFrom_append]
    exact List.prefix_append _ _

/-! ## Decoding a string -/

/-- No in-window zero character occurs in the 21-bit mode. -/
def Good : State → List Char → Prop
  | _, [] => True
  | st, c :: cs => (st.is21Bit = true → (encodeChar st c.toNat).1 ≠ [byte 187]) ∧ Good (encodeChar st c.toNat).2 cs

theorem decodeLoop_cons {fuel : Nat} {st : State} {buf : List UInt8} (h : buf ≠ []) :
    decodeLoop (fuel + 1) st buf = (decodeChar st buf >>= fun p => decodeLoop fuel p.2.1 p.2.2 >>= fun cs => .ok (p.1 :: cs)) := by
  cases buf with
  | nil => exact absurd rfl h
  | cons => rfl

theorem append_ne_nil_left {α : Type} {a b : List α} (h : a ≠ []) : a ++ b ≠ [] := by
  cases a <;> simp_all

theorem decodeLoop_good {st : State} {s : List Char} (h : Good st s) : ∀ {fuel : Nat}, (encFrom st s).length ≤ fuel → decodeLoop fuel st (encFrom st s) = .ok s := by
  induction s generalizing st with
  | nil => intro fuel _; cases fuel <;> rfl
  | cons c s ih =>
    intro fuel hf
    rw [encFrom] at hf ⊢
    have hl := (enc_char st c).length
    rw [List.length_append] at hf
    cases fuel with
    | zero => omega
    | succ fuel =>
      rw [decodeLoop_cons (append_ne_nil_left (enc_char st c).ne_nil), decode_code (enc_char st c) h.1]
      simp only [ok_bind]
      rw [ih h.2 (by omega)]
      rfl

theorem runeOf_toNat {n : Nat} : (runeOf (some n)).toNat = n ∨ (runeOf (some n)).toNat = 65533 := by
  unfold runeOf
  simp only []
  split
  · next h => exact .inl (by unfold Char.ofNat; rw [dif_pos h]; rfl)
  · exact .inr rfl

theorem good_of_decode {st : State} (hw : WF st) {s : List Char} : ∀ {fuel : Nat}, decodeLoop fuel st (encFrom st s) = .ok s → Good st s := by
  induction s generalizing st with
  | nil => intro _ _; trivial
  | cons c s ih =>
    intro fuel hd
    rw [encFrom] at hd
    have hne := append_ne_nil_left (b := encFrom (encodeChar st c.toNat).2 s) (enc_char st c).ne_nil
    cases fuel with
    | zero =>
      generalize encFrom (encodeChar st c.toNat).2 s = r at *
      cases hb : (encodeChar st c.toNat).1 ++ r with
      | nil => exact absurd hb hne
      | cons => rw [hb] at hd; cases hd
    | succ fuel =>
      rw [decodeLoop_cons hne] at hd
      by_cases hz : st.is21Bit = true ∧ (encodeChar st c.toNat).1 = [byte 187]
      · exfalso
        obtain ⟨e1, e2, e3⟩ := (enc_char st c).marker0 hz.1 (by rw [hz.2]; rfl)
        rw [hz.2, List.singleton_append, decodeChar_zero (.inl rfl)] at hd
        obtain ⟨⟨c', st', buf'⟩, h1, h2⟩ := bind_eq_ok.1 hd
        obtain ⟨cs, _, h3⟩ := bind_eq_ok.1 h2
        simp only [Except.ok.injEq, List.cons.injEq] at h3
        obtain ⟨rfl, rfl⟩ := h3
        unfold decodeRest at h1
        rw [if_neg (by decide), if_neg (by decide), if_neg (by decide), if_neg (by decide), if_pos hz.1] at h1
        obtain ⟨⟨lo, buf2⟩, h4, h5⟩ := bind_eq_ok.1 h1
        simp only [pure_eq_ok, Except.ok.injEq, Prod.mk.injEq] at h5
        have hlo : lo ≠ 0 ∧ lo < 256 := by
          rw [decide_eq_true (by decide)] at h4
          generalize hr : encFrom (encodeChar st c'.toNat).2 cs = r at h4
          cases r with
          | nil => cases h4
          | cons b r =>
            rw [takeIf_true] at h4
            simp only [Except.ok.injEq, Prod.mk.injEq] at h4
            obtain ⟨rfl, _⟩ := h4
            refine ⟨fun h0 => ?_, b.toNat_lt⟩
            have hb0 : b = 0 := UInt8.toNat_inj.1 h0
            cases cs with
            | nil => cases hr
            | cons d cs =>
              rw [encFrom] at hr
              have hm : b ∈ (encodeChar (encodeChar st c'.toNat).2 d.toNat).1 := by
                generalize (encodeChar (encodeChar st c'.toNat).2 d.toNat).1 = w, (enc_char (encodeChar st c'.toNat).2 d).ne_nil = hw' at hr
                cases w with
                | nil => exact absurd rfl hw'
                | cons x w => rw [List.cons_append, List.cons.injEq] at hr; simp [hr.1]
              exact (enc_char _ d).nonzero b hm hb0
        have ho := hw.long hz.1
        have heq : (st.offs ||| 0 <<< 8) ||| lo = st.offs + lo := by
          rw [Nat.zero_shiftLeft, Nat.or_zero, or_low 8 (by omega) (by omega)]
        rw [heq, show min21BitCp = 9728 by rfl] at h5
        have h6 := congrArg Char.toNat h5.1
        rcases runeOf_toNat (n := 9728 + (st.offs + lo)) with h7 | h7 <;> omega
      · rw [decode_code (enc_char st c) (fun h1 h2 => hz ⟨h1, h2⟩)] at hd
        simp only [ok_bind] at hd
        obtain ⟨cs, h2, h3⟩ := bind_eq_ok.1 hd
        simp only [Except.ok.injEq, List.cons.injEq, true_and] at h3
        subst h3
        exact ⟨fun h1 h2 => hz ⟨h1, h2⟩, ih ((enc_char st c).wf (char_lt c) hw) h2⟩

/-- A single byte `marker0` for a zero character is only used in the 21-bit mode. -/
theorem zero_code {st : State} (hw : WF st) {c : Char} (hz : ZeroChar c) (h : (encodeChar st c.toNat).1 = [byte 187]) : st.is21Bit = true := by
  have hc := enc_char st c
  rw [h] at hc
  generalize (encodeChar st c.toNat).2 = st' at hc
  generalize hb : [byte 187] = bs at hc
  have hlen : bs.length = 1 := by rw [← hb]; rfl
  have key : ∀ n, n < 256 → n ≠ 187 → [byte 187] ≠ [byte n] :=
    fun n h1 h2 h3 => h2 (byte_inj (by omega) h1 (List.cons.inj h3).1).symm
  cases hc with
  | aux x hx h => exact absurd hb (key _ (by omega) (by omega))
  | win x hx hl h =>
    exfalso
    have h0 : x = 0 := by
      apply Classical.byContradiction
      intro h0
      rw [if_neg h0] at hb
      exact absurd hb (key _ (by omega) (by omega))
    subst h0
    have := hw.short hl
    unfold ZeroChar at hz
    rw [Nat.or_zero] at h
    omega
  | extra hi lo hhi hlo h => split at hlen <;> simp at hlen
  | winLong hi lo hhi hlo hl h => exact hl
  | long top hi lo ht hhi hlo h => repeat' split at hlen
                                   all_goals simp at hlen
  | short hi lo hhi hlo h => split at hlen <;> simp at hlen

theorem good_iff {st : State} (hw : WF st) (s : List Char) : Good st s ↔
    ∀ p z r, s = p ++ z :: r → ZeroChar z → encFrom st (p ++ [z]) ≠ encFrom st p ++ [byte 187] := by
  induction s generalizing st with
  | nil => simp [Good]
  | cons c s ih =>
    rw [Good, ih ((enc_char st c).wf (char_lt c) hw)]
    constructor
    · rintro ⟨h1, h2⟩ p z r he hz hc
      cases p with
      | nil =>
        rw [List.nil_append, List.cons.injEq] at he
        obtain ⟨rfl, rfl⟩ := he
        rw [List.nil_append, encFrom, encFrom, encFrom, List.append_nil, List.nil_append] at hc
        exact h1 (zero_code hw hz hc) hc
      | cons d p =>
        rw [List.cons_append, List.cons.injEq] at he
        obtain ⟨rfl, he⟩ := he
        refine h2 p z r he hz ?_
        rw [List.cons_append, encFrom, encFrom, List.append_assoc] at hc
        exact List.append_cancel_left hc
    · intro h
      refine ⟨fun hl hc => ?_, fun p z r he hz hc => ?_⟩
      · obtain ⟨_, e2, _⟩ := (enc_char st c).marker0 hl (by rw [hc]; rfl)
        have ho := hw.long hl
        refine h [] c s rfl ⟨by omega, by omega⟩ ?_
        rw [List.nil_append, encFrom, encFrom, encFrom, List.append_nil, List.nil_append, hc]
      · refine h (c :: p) z r (by rw [he]; rfl) hz ?_
        rw [List.cons_append, encFrom, encFrom, hc, List.append_assoc]

/-! ## The shared buffer -/

theorem feed_total {σ : Type} (f : σ → UInt8 → σ) (s : σ) (bs : List UInt8) : feed (fun s b => (f s b, true)) s bs = (bs.foldl f s, true) := by
  induction bs generalizing s with
  | nil => rfl
  | cons b bs ih => unfold feed; exact ih _

namespace Mem

/-- The slice of the shared buffer lies in its array. -/
structure OK (m : Mem) : Prop where
  cur : m.cur < m.arrays.length
  len : m.len ≤ (m.array m.cur).length

theorem OK.init : OK Mem.init := ⟨by decide, Nat.zero_le _⟩

/-- The state while the shared buffer, reset to length 0 with array `A`, receives the bytes `bs`. -/
structure Fill (m0 : Mem) (bs : List UInt8) (m : Mem) : Prop where
  cur : m.cur < m.arrays.length
  len : m.len = bs.length
  cap : bs.length ≤ (m.array m.cur).length
  now : (m.array m.cur).take bs.length = bs
  grows : m0.arrays.length ≤ m.arrays.length
  same : m.cur = m0.cur → bs.length ≤ (m0.array m0.cur).length ∧ m.array m0.cur = bs ++ (m0.array m0.cur).drop bs.length
  moved : m.cur ≠ m0.cur → m0.arrays.length ≤ m.cur ∧ (m0.array m0.cur).length ≤ bs.length ∧ m.array m0.cur = bs.take (m0.array m0.cur).length
  others : ∀ i, i < m0.arrays.length → i ≠ m0.cur → m.array i = m0.array i

theorem array_set {m : Mem} {a : List UInt8} {l : Nat} (h : m.cur < m.arrays.length) (i : Nat) :
    array { m with arrays := m.arrays.set m.cur a, len := l } i = if i = m.cur then a else m.array i := by
  unfold array
  simp only [List.getElem?_set]
  by_cases hi : m.cur = i
  · subst hi; simp [h]
  · rw [if_neg hi, if_neg (fun h => hi h.symm)]

theorem array_push {m : Mem} {a : List UInt8} {c l : Nat} (i : Nat) :
    array { arrays := m.arrays ++ [a], cur := c, len := l } i = if i = m.arrays.length then a else m.array i := by
  unfold array
  simp only []
  by_cases hi : i < m.arrays.length
  · rw [List.getElem?_append_left hi, if_neg (by omega)]
  · by_cases he : i = m.arrays.length
    · subst he; simp
    · rw [if_neg he, List.getElem?_eq_none (by simp; omega), List.getElem?_eq_none (by omega)]

theorem set_len {α : Type} {p r : List α} {b : α} : ∀ {n : Nat}, n = p.length → p.length < (p ++ r).length → (p ++ r).set n b = p ++ b :: r.drop 1 := by
  rintro n rfl h
  rw [List.set_append_right _ _ (Nat.le_refl _), Nat.sub_self]
  cases r with
  | nil => simp at h
  | cons => rfl

theorem Fill.step {m0 m : Mem} {bs : List UInt8} (h : Fill m0 bs m) (h0 : OK m0) (grow : Nat → Nat) (b : UInt8) : Fill m0 (bs ++ [b]) (append grow m b) := by
  unfold append
  by_cases hl : m.len < (m.array m.cur).length
  · simp only [if_pos hl]
    have harr := array_set (m := m) (a := (m.array m.cur).set m.len b) (l := m.len + 1) h.cur
    have hl' := h.len
    refine ⟨by simpa using h.cur, by simp [h.len], ?_, ?_, by simpa using h.grows, ?_, ?_, ?_⟩
    · rw [harr, if_pos rfl, List.length_set, List.length_append, List.length_singleton]; omega
    · rw [harr, if_pos rfl, List.length_append, List.length_singleton, ← h.len]
      rw [List.take_add_one, List.take_set_of_le (Nat.le_refl _), h.len, h.now, List.getElem?_set_self (by omega)]
      rfl
    · intro hc
      have hc : m.cur = m0.cur := hc
      obtain ⟨g1, g2⟩ := h.same hc
      have g3 : (m.array m0.cur).length = (m0.array m0.cur).length := by rw [g2]; simp; omega
      have g4 : m.len < (m.array m0.cur).length := by rw [← hc]; exact hl
      refine ⟨by rw [List.length_append, List.length_singleton]; omega, ?_⟩
      rw [harr, if_pos hc.symm, hc, g2, set_len h.len (by rw [← g2]; omega),
        List.append_assoc, List.drop_drop, List.length_append, List.length_singleton]
      rfl
    · intro hc
      have hc : m.cur ≠ m0.cur := hc
      obtain ⟨a1, a2, a3⟩ := h.moved hc
      rw [harr, if_neg (fun h => hc h.symm), a3, List.length_append, List.length_singleton]
      refine ⟨a1, by omega, ?_⟩
      rw [List.take_append_of_le_length a2]
    · intro i hi hne
      rw [harr]
      split
      · next he =>
        by_cases hc : m.cur = m0.cur
        · exact absurd (he.trans hc) hne
        · have := (h.moved hc).1; omega
      · exact h.others i hi hne
  · simp only [if_neg hl]
    have hl' := h.len
    have hcap := h.cap
    have hcur := h0.cur
    have hg := h.grows
    have harr := array_push (m := m) (a := (m.array m.cur).take m.len ++ [b] ++ List.replicate (grow m.len - (m.len + 1)) 0) (c := m.arrays.length) (l := m.len + 1)
    have htake : (m.array m.cur).take m.len = bs := by rw [h.len]; exact h.now
    rw [htake] at harr ⊢
    refine ⟨by simp, by simp [h.len], ?_, ?_, by simp; omega, ?_, ?_, ?_⟩
    · rw [harr, if_pos rfl]; simp
    · rw [harr, if_pos rfl]
      rw [List.take_append_of_le_length (Nat.le_refl _), List.take_length]
    · intro hc
      have hc : m.arrays.length = m0.cur := hc
      omega
    · intro _
      rw [harr, if_neg (by omega)]
      refine ⟨hg, ?_⟩
      rw [List.length_append, List.length_singleton]
      by_cases hc : m.cur = m0.cur
      · obtain ⟨g1, hs⟩ := h.same hc
        have g3 : (m.array m0.cur).length = (m0.array m0.cur).length := by rw [hs]; simp; omega
        have hlen : (m0.array m0.cur).length = bs.length := by
          rw [hc] at hl; omega
        refine ⟨by omega, ?_⟩
        rw [hs, hlen, List.take_left' rfl, ← hlen, List.drop_length, List.append_nil]
      · obtain ⟨a1, a2, a3⟩ := h.moved hc
        refine ⟨by omega, ?_⟩
        rw [a3, List.take_append_of_le_length a2]
    · intro i hi hne
      rw [harr, if_neg (by omega)]
      exact h.others i hi hne

theorem Fill.foldl {m0 : Mem} (h0 : OK m0) (grow : Nat → Nat) (ds : List UInt8) : ∀ {m : Mem} {bs : List UInt8}, Fill m0 bs m →
    Fill m0 (bs ++ ds) (ds.foldl (append grow) m) := by
  induction ds with
  | nil => intro m bs h; simpa using h
  | cons d ds ih =>
    intro m bs h
    have := ih (h.step h0 grow d)
    rw [List.append_assoc] at this
    exact this

theorem Fill.start (m0 : Mem) (h0 : OK m0) : Fill m0 [] { m0 with len := 0 } :=
  ⟨h0.cur, rfl, Nat.zero_le _, rfl, Nat.le_refl _, fun _ => ⟨Nat.zero_le _, rfl⟩, fun h => absurd rfl h, fun _ _ _ => rfl⟩

/-- One call of `UtfcEncode`. -/
theorem utfcEncode_spec {m : Mem} (h : OK m) (grow : Nat → Nat) (str : List Char) : ∃ m', m.utfcEncode grow str = (m', { arr := m'.cur, len := (encode str).length }) ∧
    Fill m (encode str) m' ∧ OK m' := by
  have hf := Fill.foldl h grow (encode str) (Fill.start m h)
  rw [List.nil_append] at hf
  refine ⟨(encode str).foldl (append grow) { m with len := 0 }, ?_, hf, ⟨hf.cur, by rw [hf.len]; exact hf.cap⟩⟩
  unfold utfcEncode utfcFollow
  rw [followLoop_eq, feed_total, ← encode_eq]
  simp only [hf.len]

theorem utfcEncode_view {m : Mem} (h : OK m) (grow : Nat → Nat) (str : List Char) :
    (m.utfcEncode grow str).1.view (m.utfcEncode grow str).2 = encode str ∧ OK (m.utfcEncode grow str).1 := by
  obtain ⟨m', e, hf, hk⟩ := utfcEncode_spec h grow str
  rw [e]
  exact ⟨hf.now, hk⟩

/-- The next call overwrites the result of the last one from the front. -/
theorem utfcEncode_overwrite {m : Mem} (h : OK m) (grow : Nat → Nat) (a b : List Char) :
    ((m.utfcEncode grow a).1.utfcEncode grow b).1.view (m.utfcEncode grow a).2 =
      (encode b ++ (encode a).drop (encode b).length).take (encode a).length := by
  obtain ⟨m1, e1, f1, k1⟩ := utfcEncode_spec h grow a
  rw [e1]
  obtain ⟨m2, e2, f2, k2⟩ := utfcEncode_spec k1 grow b
  rw [e2]
  unfold view
  simp only []
  have hcap := f1.cap
  have hnow := f1.now
  have hs := f2.same
  have hm := f2.moved
  generalize m1.array m1.cur = A at *
  have key : (m2.array m1.cur).take (encode a).length = ((encode b ++ A.drop (encode b).length).take A.length).take (encode a).length := by
    by_cases hc : m2.cur = m1.cur
    · obtain ⟨g1, g2⟩ := hs hc
      rw [g2, List.take_of_length_le (i := A.length) (by simp; omega)]
    · obtain ⟨g0, g1, g2⟩ := hm hc
      rw [g2, List.take_append_of_le_length g1]
  rw [key, List.take_take, Nat.min_eq_left hcap]
  generalize (encode a).length = n at *
  rw [← hnow, List.take_append, List.take_append, List.drop_take, List.take_take, Nat.min_self]

end Mem
end Dawg.Utfc
