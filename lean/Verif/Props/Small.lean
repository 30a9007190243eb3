import Verif.Props.Exact
import Verif.Props.Query
import Verif.Props.Size

/-!
# Queries with NUL bytes (C82) and dictionaries of at most 2^21 units (C83)

A value unit has bit 31 set, so the offset that `dictOffset` reads from it is at least 2^21.  In a dictionary with at most 2^21 units (a file of at most 8 MiB) a
look-up that has been misled by a value unit therefore leaves the array with the next byte.
-/

namespace Dawg.Props

open Dawg Dawg.Spec Dawg.Client Dawg.Abs Dawg.Dict Dawg.Guided Dawg.Tool

/-- What a misled look-up reads next is not in the array. -/
theorem leaf_far {n i v : Nat} (hn : n ≤ 2 ^ 21) (hi : i < n) (b : UInt8) : n ≤ i ^^^ dictOffset (leafWord v) ∧ n ≤ i ^^^ dictOffset (leafWord v) ^^^ b.toNat := by
  have h1 : leafWord v < 4294967296 ∧ 2147483648 ≤ leafWord v := by unfold leafWord; omega
  rw [dictOffset_eq h1.1]
  have key : ∀ {k off x : Nat}, 21 ≤ k → off / 2 ^ k = 1 → x < 2 ^ 21 → n ≤ x ^^^ off ∧ n ≤ x ^^^ off ^^^ b.toNat := by
    intro k off x hk ho hx
    have hpow : 2 ^ 21 ≤ 2 ^ k := Nat.pow_le_pow_right (by omega) hk
    have hb := label_lt b
    have e1 : (x ^^^ off) / 2 ^ k = 1 := by
      rw [Nat.xor_div_two_pow, ho, Nat.div_eq_of_lt (by omega)]; rfl
    have e2 : (x ^^^ off ^^^ b.toNat) / 2 ^ k = 1 := by
      rw [Nat.xor_div_two_pow, e1, Nat.div_eq_of_lt (by omega)]; rfl
    have := Nat.div_mul_le_self (x ^^^ off) (2 ^ k)
    have := Nat.div_mul_le_self (x ^^^ off ^^^ b.toNat) (2 ^ k)
    rw [e1] at *
    rw [e2] at *
    omega
  unfold childOffset
  by_cases hb : leafWord v / 512 % 2 = 1
  · rw [if_pos hb]
    exact key (k := 29) (by omega) (by omega) (by omega)
  · rw [if_neg hb]
    exact key (k := 21) (by omega) (by omega) (by omega)

theorem rd_far {l : List Nat} {i : Nat} (h : l.length ≤ i) : rd l i = .error .panic := by
  cases hr : rd l i with
  | error f =>
    unfold rd at hr
    split at hr <;> simp_all
  | ok a =>
    have := rd_eq_ok.1 hr
    rw [List.getElem?_eq_none h] at this
    cases this

section
variable {D : Dictionary}

theorem leaf_follow {i v : Nat} (hn : D.units.length ≤ 2 ^ 21) (hi : D.units[i]? = some (leafWord v)) (b : UInt8) : D.follow b i = .error .panic := by
  have hlt : i < D.units.length := by
    refine Nat.lt_of_not_le fun h => ?_
    rw [List.getElem?_eq_none h] at hi; cases hi
  simp only [Dictionary.follow, rd_some hi, ok_bind, rd_far (leaf_far (v := v) hn hlt b).2]
  rfl

theorem leaf_value {i v : Nat} (hn : D.units.length ≤ 2 ^ 21) (hi : D.units[i]? = some (leafWord v)) : D.value i = .error .panic := by
  have hlt : i < D.units.length := by
    refine Nat.lt_of_not_le fun h => ?_
    rw [List.getElem?_eq_none h] at hi; cases hi
  simp only [Dictionary.value, rd_some hi, ok_bind, rd_far (leaf_far (v := v) hn hlt 0).1]
  rfl

theorem leaf_hasValue {i v : Nat} (hi : D.units[i]? = some (leafWord v)) : D.hasValue i = .ok (decide (v / 256 % 2 = 1)) := by
  simp only [Dictionary.hasValue, rd_some hi, ok_bind, pure_eq_ok]
  congr 1
  rw [Bool.eq_iff_iff, hasLeaf_iff, decide_eq_true_eq]
  unfold leafWord; omega

end

section
variable {c : Core} {r : Nat} {acc : Lang} {D : Dictionary} {B : Nat} {G : List (Nat × Nat)} {num : Nat}

/-- All that can happen to a query that leaves the key set. -/
theorem follow_leaves (h : DSem c r acc D B G num) (hn : D.units.length ≤ 2 ^ 21) : ∀ (q : Key) {u o s : Nat} {g : Group} {L : Lang}, Node c G D u o s g L → residual L q = [] →
    (∃ v, D.followString q u = .ok (false, v, (longest L q).length)) ∨
    ∃ p b t v, q = p ++ b :: t ∧ residual L p ≠ [] ∧ residual L (p ++ [b]) = [] ∧ (∃ k, (k, v) ∈ acc) ∧ v % 256 = b.toNat ∧
      ((t = [] ∧ ∃ i, D.followString q u = .ok (true, i, q.length) ∧ D.units[i]? = some (leafWord v)) ∨ (t ≠ [] ∧ D.followString q u = .error .panic))
  | [], u, o, s, g, L, hd, hr => by
    rw [residual_nil] at hr
    exact absurd hr (hd.den.ne_nil h.ne (h.ne _ hd.start.mem))
  | l :: q, u, o, s, g, L, hd, hr => by
    by_cases hl : residual L [l] = []
    · rcases hd.follow_miss h hl with h1 | ⟨v, h1, h2, h3, h4⟩
      · exact .inl ⟨u, by simp only [Dictionary.followString, h1, ok_bind, pure_eq_ok, longest, hl, if_true, List.length_nil]⟩
      · refine .inr ⟨[], l, q, v, rfl, by rw [residual_nil]; exact hd.den.ne_nil h.ne (h.ne _ hd.start.mem), hl, h1, h2, ?_⟩
        cases q with
        | nil => exact .inl ⟨rfl, _, by simp only [Dictionary.followString, h4, ok_bind, pure_eq_ok, List.length_cons, List.length_nil], h3⟩
        | cons b t =>
          refine .inr ⟨by simp, ?_⟩
          simp only [Dictionary.followString, h4, ok_bind, leaf_follow hn h3]
          rfl
    · obtain ⟨h1, o', s', g', h2⟩ := hd.follow_hit h hl
      rw [show l :: q = [l] ++ q from rfl, residual_residual] at hr
      rcases follow_leaves h hn q h2 hr with ⟨v, h3⟩ | ⟨p, b, t, v, rfl, h3, h4, h5, h6, h7⟩
      · exact .inl ⟨v, by simp only [Dictionary.followString, h1, ok_bind, h3, pure_eq_ok, longest, hl, if_false, List.length_cons]⟩
      · refine .inr ⟨l :: p, b, t, v, rfl, ?_, ?_, h5, h6, ?_⟩
        · rw [show l :: p = [l] ++ p from rfl, residual_residual]; exact h3
        · rw [show l :: p ++ [b] = [l] ++ (p ++ [b]) from rfl, residual_residual]; exact h4
        · rcases h7 with ⟨rfl, i, h7, h8⟩ | ⟨h7, h8⟩
          · exact .inl ⟨rfl, i, by simp only [Dictionary.followString, h1, ok_bind, h7, pure_eq_ok, List.length_cons], h8⟩
          · exact .inr ⟨h7, by simp only [Dictionary.followString, h1, ok_bind, h8]; rfl⟩

end

theorem words_of {acc : List (Key × Int)} {v : Nat} (h : ∃ k, (k, v) ∈ acc.map wordE) : ∃ e ∈ acc, stored e.2 = v := by
  obtain ⟨k, hk⟩ := h
  obtain ⟨e, he, h1⟩ := List.mem_map.1 hk
  exact ⟨e, he, congrArg Prod.snd h1⟩

/-- All that can happen to any query. -/
theorem follow_all {hist d D} (h : Made hist d D) (hne : accepted hist ≠ []) (hn : D.units.length ≤ 2 ^ 21) (q : Key) :
    (∃ e ∈ accepted hist, q <+: e.1) ∨ ((¬ ∃ e ∈ accepted hist, q <+: e.1) ∧ ((∃ i k, D.followString q D.root = .ok (false, i, k)) ∨
      ∃ p b t, q = p ++ b :: t ∧ (∃ e ∈ accepted hist, p <+: e.1) ∧ (¬ ∃ e ∈ accepted hist, p ++ [b] <+: e.1) ∧ ∃ e ∈ accepted hist, stored e.2 % 256 = b.toNat ∧
        ((t = [] ∧ ∃ i, D.followString q D.root = .ok (true, i, q.length) ∧ D.units[i]? = some (leafWord (stored e.2))) ∨
          (t ≠ [] ∧ D.followString q D.root = .error .panic)))) := by
  rcases prefix_or_not (acc := accepted hist) q with hp | hp
  · exact .inl hp
  · refine .inr ⟨fun hc => residual_wordE_ne.2 hc hp, ?_⟩
    obtain ⟨c, r, B, G, num, _, _, e3⟩ := Made.sem h hne
    obtain ⟨o, g, hr⟩ := e3.root (by simpa using hne)
    rcases follow_leaves e3 hn q hr hp with ⟨v, h1⟩ | ⟨p, b, t, v, h1, h2, h3, h4, h5, h6⟩
    · exact .inl ⟨v, _, h1⟩
    · obtain ⟨e, he, rfl⟩ := words_of h4
      exact .inr ⟨p, b, t, h1, residual_wordE_ne.1 h2, fun hc => residual_wordE_ne.2 hc h3, e, he, h5, h6⟩

/-! ## C83 -/

/-- Dictionaries of few keys have at most 2^21 units. -/
theorem small_units {hist d D} (h : Made hist d D) (hs : ((accepted hist).map (fun e => e.1.length + 1)).sum ≤ 8191) : D.units.length ≤ 2 ^ 21 := by
  obtain ⟨_, _, _, _, _, _, _, _, _, _, h1, _⟩ := C79_size h
  have : D.size = D.units.length := rfl
  omega

/-- **C83**, `FollowString`: with at least one key, it follows a string only if the string is a prefix of a key, or one byte longer than a prefix of a key, the byte being the
low byte of a stored value.  It panics only if the query goes on after such a byte. -/
theorem C83_follow {hist d D} (h : Made hist d D) (hne : accepted hist ≠ []) (hn : D.units.length ≤ 2 ^ 21) (q : Key) :
    (∀ i k, D.followString q D.root = .ok (true, i, k) → (∃ e ∈ accepted hist, q <+: e.1) ∨
      ∃ p b, q = p ++ [b] ∧ (∃ e ∈ accepted hist, p <+: e.1) ∧ ∃ e ∈ accepted hist, stored e.2 % 256 = b.toNat) ∧
    ∀ f, D.followString q D.root = .error f → f = .panic ∧ ∃ p b t, q = p ++ b :: t ∧ t ≠ [] ∧ (∃ e ∈ accepted hist, p <+: e.1) ∧
      (¬ ∃ e ∈ accepted hist, p ++ [b] <+: e.1) ∧ ∃ e ∈ accepted hist, stored e.2 % 256 = b.toNat := by
  rcases follow_all h hne hn q with hp | ⟨hp, ⟨i, k, h1⟩ | ⟨p, b, t, h1, h2, h3, e, he, h4, h5⟩⟩
  · refine ⟨fun _ _ _ => .inl hp, fun f hf => ?_⟩
    obtain ⟨i, h1, _⟩ := follow_prefix h hp
    rw [h1] at hf; cases hf
  · rw [h1]
    exact ⟨fun _ _ hc => (by cases hc), fun _ hc => by cases hc⟩
  · rcases h5 with ⟨rfl, i, h5, _⟩ | ⟨h5, h6⟩
    · rw [h5]
      exact ⟨fun _ _ _ => .inr ⟨p, b, h1, h2, e, he, h4⟩, fun _ hc => by cases hc⟩
    · rw [h6]
      exact ⟨fun _ _ hc => (by cases hc), fun f hf => by cases hf; exact ⟨rfl, p, b, t, h1, h5, h2, h3, e, he, h4⟩⟩

/-- **C83**, `FindString` and `FindStringValue`: they never return a wrong answer.  They return the value of a key; for any other string they return that there is no value, or
panic. -/
theorem C83_find_right {hist d D} (h : Made hist d D) (hn : D.units.length ≤ 2 ^ 21) (q : Key) :
    (∃ e ∈ accepted hist, e.1 = q ∧ D.findString q = .ok (stored e.2) ∧ ∀ out, D.findStringValue q out = .ok (true, (stored e.2 : Int))) ∨
    ((∀ e ∈ accepted hist, e.1 ≠ q) ∧ ((D.findString q = .ok (-1) ∧ ∀ out, D.findStringValue q out = .ok (false, out)) ∨
      (D.findString q = .error .panic ∧ ∀ out, D.findStringValue q out = .error .panic))) := by
  by_cases hk : ∃ e ∈ accepted hist, e.1 = q
  · obtain ⟨e, he, rfl⟩ := hk
    obtain ⟨_, h1, h2⟩ := C10_inserted_found h e he
    exact .inl ⟨e, he, rfl, h1, h2⟩
  · have hk' : ∀ e ∈ accepted hist, e.1 ≠ q := fun e he hq => hk ⟨e, he, hq⟩
    refine .inr ⟨hk', ?_⟩
    by_cases hne : accepted hist = []
    · obtain ⟨ok, i, k, h1, h2⟩ := follow_empty h hne q
      left
      cases ok <;> simp [Dictionary.findString, Dictionary.findStringValue, h1, ok_bind, h2, pure_eq_ok]
    · rcases follow_all h hne hn q with hp | ⟨hp, ⟨i, k, h1⟩ | ⟨p, b, t, h1, h2, h3, e, he, h4, h5⟩⟩
      · obtain ⟨i, h1, h2, _⟩ := follow_prefix h hp
        rw [decide_eq_false hk] at h2
        left
        simp [Dictionary.findString, Dictionary.findStringValue, h1, ok_bind, h2, pure_eq_ok]
      · left
        simp [Dictionary.findString, Dictionary.findStringValue, h1, ok_bind, pure_eq_ok]
      · rcases h5 with ⟨rfl, i, h5, h6⟩ | ⟨h5, h6⟩
        · have h7 := leaf_hasValue h6
          have h8 := leaf_value hn h6
          by_cases hb : stored e.2 / 256 % 2 = 1
          · right
            rw [decide_eq_true hb] at h7
            simp only [Dictionary.findString, Dictionary.findStringValue, h5, ok_bind, h7, h8, Bool.not_true, Bool.false_eq_true, if_false, if_true]
            exact ⟨rfl, fun _ => rfl⟩
          · left
            rw [decide_eq_false hb] at h7
            simp [Dictionary.findString, Dictionary.findStringValue, h5, ok_bind, h7, pure_eq_ok]
        · right
          simp only [Dictionary.findString, Dictionary.findStringValue, h6]
          exact ⟨rfl, fun _ => rfl⟩

/-- **C83**, `ContainsString`: it is wrong only for strings that are one byte longer than a prefix of a key, that byte being the low byte of a stored value with bit 8 set. -/
theorem C83_contains {hist d D} (h : Made hist d D) (hn : D.units.length ≤ 2 ^ 21) (q : Key) :
    (∀ ok, D.containsString q = .ok ok → (ok = true ↔ ∃ e ∈ accepted hist, e.1 = q) ∨
      (ok = true ∧ ∃ p b, q = p ++ [b] ∧ (∃ e ∈ accepted hist, p <+: e.1) ∧ ∃ e ∈ accepted hist, stored e.2 % 256 = b.toNat ∧ stored e.2 / 256 % 2 = 1)) ∧
    ∀ f, D.containsString q = .error f → f = .panic := by
  by_cases hk : ∃ e ∈ accepted hist, e.1 = q
  · obtain ⟨e, he, rfl⟩ := hk
    rw [(C10_inserted_found h e he).1]
    exact ⟨fun ok hok => .inl (by cases hok; simpa using ⟨e.2, he⟩), fun f hf => by cases hf⟩
  · have right : ∀ {r : Go Bool}, r = .ok false → (∀ ok, r = .ok ok → (ok = true ↔ ∃ e ∈ accepted hist, e.1 = q) ∨
      (ok = true ∧ ∃ p b, q = p ++ [b] ∧ (∃ e ∈ accepted hist, p <+: e.1) ∧ ∃ e ∈ accepted hist, stored e.2 % 256 = b.toNat ∧ stored e.2 / 256 % 2 = 1)) ∧
      ∀ f, r = .error f → f = .panic := by
      rintro r rfl
      refine ⟨fun ok hok => .inl ?_, fun f hf => by cases hf⟩
      cases hok
      exact ⟨fun hc => (by cases hc), fun hc => absurd hc hk⟩
    by_cases hne : accepted hist = []
    · obtain ⟨ok, i, k, h1, h2⟩ := follow_empty h hne q
      refine right ?_
      cases ok <;> simp [Dictionary.containsString, h1, ok_bind, h2, pure_eq_ok]
    · rcases follow_all h hne hn q with hp | ⟨hp, ⟨i, k, h1⟩ | ⟨p, b, t, h1, h2, h3, e, he, h4, h5⟩⟩
      · obtain ⟨i, h1, h2, _⟩ := follow_prefix h hp
        rw [decide_eq_false hk] at h2
        exact right (by simp [Dictionary.containsString, h1, ok_bind, h2])
      · exact right (by simp [Dictionary.containsString, h1, ok_bind, pure_eq_ok])
      · rcases h5 with ⟨rfl, i, h5, h6⟩ | ⟨h5, h6⟩
        · have h7 := leaf_hasValue h6
          have h9 : D.containsString q = .ok (decide (stored e.2 / 256 % 2 = 1)) := by
            simp only [Dictionary.containsString, h5, ok_bind, h7, Bool.not_true, Bool.false_eq_true, if_false]
          by_cases hb : stored e.2 / 256 % 2 = 1
          · rw [decide_eq_true hb] at h9
            rw [h9]
            exact ⟨fun ok hok => by cases hok; exact .inr ⟨rfl, p, b, h1, h2, e, he, h4, hb⟩, fun f hf => by cases hf⟩
          · rw [decide_eq_false hb] at h9
            exact right h9
        · have h7 : D.containsString q = .error .panic := by
            simp only [Dictionary.containsString, h6]; rfl
          rw [h7]
          exact ⟨fun ok hok => (by cases hok), fun f hf => by cases hf; rfl⟩

/-- **C83**: if bit 8 of all values is clear, for example if all values are below 256, `ContainsString` is never wrong either. -/
theorem C83_contains_right {hist d D} (h : Made hist d D) (hn : D.units.length ≤ 2 ^ 21) (hv : ∀ e ∈ accepted hist, stored e.2 / 256 % 2 = 0) (q : Key) :
    D.containsString q = .error .panic ∨ D.containsString q = .ok (decide (∃ e ∈ accepted hist, e.1 = q)) := by
  cases hr : D.containsString q with
  | error f => exact .inl (by rw [(C83_contains h hn q).2 f hr])
  | ok b =>
    right
    rcases (C83_contains h hn q).1 b hr with h1 | ⟨_, _, _, _, _, e, he, _, h2⟩
    · congr 1
      rw [Bool.eq_iff_iff, h1, decide_eq_true_eq]
    · have := hv e he; omega

/-- One step of a walk along any query. -/
theorem walk_any {hist d D} (h : Made hist d D) (hn : D.units.length ≤ 2 ^ 21) {p : Key} {b : UInt8} {u n : Nat} (hf : D.followString p D.root = .ok (true, u, n))
    (hp : ∃ e ∈ accepted hist, p <+: e.1) :
    (D.follow b u = .ok none ∧ ¬ ∃ e ∈ accepted hist, p ++ [b] <+: e.1) ∨
    (∃ v, D.follow b u = .ok (some v) ∧ (∃ e ∈ accepted hist, p ++ [b] <+: e.1) ∧ D.followString (p ++ [b]) D.root = .ok (true, v, p.length + 1) ∧
      D.hasValue v = .ok (decide (∃ e ∈ accepted hist, e.1 = p ++ [b])) ∧ ∀ e ∈ accepted hist, e.1 = p ++ [b] → D.value v = .ok (stored e.2)) ∨
    ∃ v x, D.follow b u = .ok (some v) ∧ (¬ ∃ e ∈ accepted hist, p ++ [b] <+: e.1) ∧ D.units[v]? = some (leafWord x) := by
  have happ := Dictionary.followString_append D p [b] D.root
  rw [hf] at happ
  simp only [ok_bind, if_true, Dictionary.followString] at happ
  have hne : accepted hist ≠ [] := by
    obtain ⟨e, he, _⟩ := hp; exact List.ne_nil_of_mem he
  have hit : ∀ {v k : Nat}, D.followString (p ++ [b]) D.root = .ok (true, v, k) → D.follow b u = .ok (some v) := by
    intro v k h1
    rw [h1] at happ
    cases hx : D.follow b u with
    | error e => rw [hx] at happ; cases happ
    | ok r =>
      rw [hx] at happ
      cases r with
      | none => cases happ
      | some w =>
        simp only [ok_bind, pure_eq_ok, Except.ok.injEq, Prod.mk.injEq] at happ
        rw [happ.2.1]
  rcases follow_all h hne hn (p ++ [b]) with hb | ⟨hb, ⟨i, k, h1⟩ | ⟨p', b', t, h1, h2, h3, e, he, h4, h5⟩⟩
  · obtain ⟨v, h1, h2, h3⟩ := follow_prefix h hb
    exact .inr (.inl ⟨v, hit h1, hb, by simpa using h1, h2, h3⟩)
  · refine .inl ⟨?_, hb⟩
    rw [h1] at happ
    cases hx : D.follow b u with
    | error e => rw [hx] at happ; cases happ
    | ok r =>
      rw [hx] at happ
      cases r with
      | none => rfl
      | some w => cases happ
  · rcases h5 with ⟨rfl, i, h5, h6⟩ | ⟨h5, h6⟩
    · exact .inr (.inr ⟨i, _, hit h5, hb, h6⟩)
    · exfalso
      have hlen := congrArg List.length h1
      simp only [List.length_append, List.length_cons, List.length_nil] at hlen
      have : p' ++ [b'] <+: p := by
        have e1 : p' ++ [b'] <+: p ++ [b] := ⟨t, by rw [h1]; simp⟩
        refine List.prefix_of_prefix_length_le e1 (List.prefix_append p [b]) ?_
        have : t.length ≠ 0 := fun h0 => h5 (List.length_eq_zero_iff.1 h0)
        simp only [List.length_append, List.length_cons, List.length_nil]
        omega
      obtain ⟨e, he, hpe⟩ := hp
      exact h3 ⟨e, he, this.trans hpe⟩

theorem prefixLoop_any {hist d D} (h : Made hist d D) (hn : D.units.length ≤ 2 ^ 21) {q : Key} : ∀ (r p : Key) (u n : Nat), q = p ++ r →
    D.followString p D.root = .ok (true, u, n) → (∃ e ∈ accepted hist, p <+: e.1) →
    prefixLoop D q r p.length u = .ok ((List.range' p.length r.length).filterMap (fun i => lookup (accepted hist) (q.take (i + 1)))) ∨
      prefixLoop D q r p.length u = .error .panic := by
  intro r
  induction r with
  | nil => intros; exact .inl rfl
  | cons b r ih =>
    intro p u n hq hf hp
    have htake : q.take (p.length + 1) = p ++ [b] := by rw [hq]; simp [List.take_append, List.take_of_length_le]
    rw [prefixLoop, List.length_cons, List.range'_succ, List.filterMap_cons, htake]
    have none' : (¬ ∃ e ∈ accepted hist, p ++ [b] <+: e.1) → lookup (accepted hist) (p ++ [b]) = none ∧
        (List.range' (p.length + 1) r.length).filterMap (fun i => lookup (accepted hist) (q.take (i + 1))) = [] := by
      intro h2
      refine ⟨lookup_none (fun ⟨e, he, hk⟩ => h2 ⟨e, he, hk ▸ List.prefix_rfl⟩), ?_⟩
      rw [List.filterMap_eq_nil_iff.2]
      intro i hi
      rw [List.mem_range'_1] at hi
      refine lookup_none (fun ⟨e, he, hk⟩ => h2 ⟨e, he, ?_⟩)
      rw [hk, ← htake]
      exact List.take_prefix_take_left (by omega)
    rcases walk_any h hn hf hp with ⟨h1, h2⟩ | ⟨v, h1, h2, h3, h4, h5⟩ | ⟨v, x, h1, h2, h3⟩
    · left
      rw [h1, (none' h2).1, (none' h2).2]
      rfl
    · rw [h1]
      simp only [ok_bind]
      rcases ih (p ++ [b]) v _ (by simp [hq]) h3 h2 with this | this
      · left
        rw [List.length_append, List.length_singleton] at this
        rw [this, h4]
        simp only [ok_bind]
        by_cases hk : ∃ e ∈ accepted hist, e.1 = p ++ [b]
        · obtain ⟨e, he, he1, he2⟩ := lookup_some hk
          rw [decide_eq_true hk, he2, h5 e he he1]
          rfl
        · rw [decide_eq_false hk, lookup_none hk]
          rfl
      · right
        rw [List.length_append, List.length_singleton] at this
        rw [this]
        rfl
    · rw [h1, (none' h2).1, (none' h2).2]
      simp only [ok_bind]
      cases r with
      | cons c r =>
        right
        rw [prefixLoop, leaf_follow hn h3]
        rfl
      | nil =>
        simp only [prefixLoop, ok_bind, leaf_hasValue h3]
        by_cases hb : x / 256 % 2 = 1
        · right
          rw [decide_eq_true hb]
          simp only [if_true, leaf_value hn h3]
          rfl
        · left
          rw [decide_eq_false hb]
          rfl

/-- **C83**, dawgtool without a guide: the answer to any query is right, or the program panics. -/
theorem C83_tool_right {hist d D} (h : Made hist d D) (hn : D.units.length ≤ 2 ^ 21) (q : Key) :
    queryPrefixes D q = .ok (prefixesOf (accepted hist) q) ∨ queryPrefixes D q = .error .panic := by
  by_cases he : accepted hist = []
  · refine .inl (C48_prefixes_partial h fun p b _ hp _ => ?_)
    obtain ⟨e, he', _⟩ := hp
    rw [he] at he'; cases he'
  · obtain ⟨e, he'⟩ := List.exists_mem_of_ne_nil _ he
    have := prefixLoop_any h hn (q := q) q [] D.root 0 rfl rfl ⟨e, he', by simp⟩
    rw [List.length_nil, ← List.range_eq_range'] at this
    exact this

/-- A completer that was started at a value unit. -/
theorem plain_misled {D : Dictionary} (hn : D.units.length ≤ 2 ^ 21) {i v : Nat} (hi : D.units[i]? = some (leafWord v)) (g : Guide) (c : Completer) (key : Key) {fuel : Nat}
    (hf : 0 < fuel) : ∃ pc, Completer.start g c i = .ok pc ∧ (completeLoop D g key fuel pc = .ok ([], pc) ∨ completeLoop D g key fuel pc = .error .panic) := by
  obtain ⟨fuel, rfl⟩ : ∃ f, fuel = f + 1 := ⟨fuel - 1, by omega⟩
  by_cases hz : g.size = 0
  · refine ⟨{ c with path := [0], indexStack := [] }, ?_, .inl ?_⟩
    · unfold Completer.start Completer.startStringLen Completer.takeLen
      rw [if_neg (by omega)]
      simp [hz, ok_bind, pure_eq_ok]
    · rw [completeLoop]; rfl
  · refine ⟨_, (start_eq g c i).trans (startString_eq hz c i []), .inr ?_⟩
    rw [completeLoop]
    unfold Completer.next
    simp only [show ¬ (0 ≠ D.root) from fun h => h rfl, if_false]
    unfold Completer.findTerminal
    rw [Completer.findTerminalLoop, leaf_hasValue hi]
    by_cases hb : v / 256 % 2 = 1
    · rw [decide_eq_true hb]
      simp only [ok_bind, if_true, pure_eq_ok, Bool.not_true, Bool.false_eq_true, if_false, Completer.value, leaf_value hn hi]
      rfl
    · rw [decide_eq_false hb]
      simp only [ok_bind, Bool.false_eq_true, if_false]
      cases hc : g.child i with
      | error e =>
        have : e = .panic := by
          unfold Guide.child at hc
          cases hr : rd g.units i with
          | error e' => rw [hr] at hc; cases hc; cases e with | panic => rfl | hang => exact absurd hr rd_not_hang
          | ok x => rw [hr] at hc; cases hc
        subst this; rfl
      | ok l =>
        simp only [ok_bind, Completer.follow, leaf_follow hn hi]
        rfl

/-- A ranked completer that was started at a value unit. -/
theorem ranked_misled {D : Dictionary} (hn : D.units.length ≤ 2 ^ 21) {i v : Nat} (hi : D.units[i]? = some (leafWord v)) (g : Guide) (c : RankedCompleter) (key : Key) {fuel : Nat}
    (hf : 0 < fuel) : ∃ rc, RankedCompleter.start D g c i = .ok rc ∧ ((∃ rc', rankedLoop D g key fuel rc = .ok ([], rc')) ∨ rankedLoop D g key fuel rc = .error .panic) := by
  obtain ⟨fuel, rfl⟩ : ∃ f, fuel = f + 1 := ⟨fuel - 1, by omega⟩
  have hlt : i < D.units.length := by
    refine Nat.lt_of_not_le fun h => ?_
    rw [List.getElem?_eq_none h] at hi; cases hi
  by_cases hz : g.size = 0
  · refine ⟨⟨[], 0, -1, [], [], []⟩, ?_, .inl ⟨⟨[], 0, -1, [], [], []⟩, ?_⟩⟩
    · unfold RankedCompleter.start RankedCompleter.startStringLen Completer.takeLen
      rw [if_neg (by omega)]
      simp [hz, ok_bind, pure_eq_ok]
    · rw [rankedLoop]; rfl
  · refine ⟨⟨[], 0, -1, [⟨i, 0, 88, true, decide (v / 256 % 2 = 1)⟩], [0], []⟩, ?_, .inr ?_⟩
    · unfold RankedCompleter.start RankedCompleter.startStringLen Completer.takeLen
      rw [if_neg (by omega)]
      simp only [Int.toNat_zero, List.length_nil, Nat.le_refl, if_true, ok_bind, List.take_nil, if_pos hz]
      unfold RankedCompleter.createNode
      rw [if_pos (by decide), leaf_hasValue hi]
      rfl
    · have hnext : RankedCompleter.next D g ⟨[], 0, -1, [⟨i, 0, 88, true, decide (v / 256 % 2 = 1)⟩], [0], []⟩ = .error .panic := by
        unfold RankedCompleter.next
        simp only [RankedCompleter.drainQueue, ne_eq, not_true, if_false, pure_eq_ok, ok_bind]
        unfold RankedCompleter.findTerminal
        rw [RankedCompleter.findTerminalLoop]
        simp only [rd, List.getElem?_cons_zero, ok_bind, show ¬ ((88 : UInt8) = 0) by decide, if_false]
        cases hc : g.child i with
        | error e =>
          have : e = .panic := by
            unfold Guide.child at hc
            cases hr : rd g.units i with
            | error e' => rw [hr] at hc; cases hc; cases e with | panic => rfl | hang => exact absurd hr rd_not_hang
            | ok x => rw [hr] at hc; cases hc
          subst this; rfl
        | ok l =>
          have hfw : RankedBuilder.followWithoutCheck D i l = .ok (i ^^^ dictOffset (leafWord v) ^^^ l.toNat) := by
            unfold RankedBuilder.followWithoutCheck
            rw [rd_some hi]; rfl
          have hfar := (leaf_far (v := v) hn hlt l).2
          by_cases hl : l = 0
          · subst hl
            simp only [ok_bind, if_true, wr, List.length_cons, List.length_nil, show (0 : Nat) < 0 + 1 by omega, List.set_cons_zero, hfw, pure_eq_ok]
            simp only [RankedCompleter.createNode, ne_eq, not_true, if_false, pure_eq_ok, ok_bind, RankedCompleter.findTerminalLoop]
            simp [rd, u32, ok_bind, pure_eq_ok, RankedCompleter.enqueueCandidate]
            rw [List.getElem?_eq_none (by simpa using hfar)]
            rfl
          · simp only [ok_bind, if_neg hl, hfw, pure_eq_ok]
            simp only [RankedCompleter.createNode, ne_eq, hl, not_false_eq_true, if_true, Dictionary.hasValue, rd_ge hfar]
            rfl
      rw [rankedLoop, hnext]
      rfl

/-- What can happen to a query with a guide: it does not leave the key set with the low byte of a value, or it is misled. -/
theorem misled {hist d D} (h : Made hist d D) (hn : D.units.length ≤ 2 ^ 21) (q : Key) :
    ((∃ e ∈ accepted hist, q <+: e.1) ∨ accepted hist = []) ∨ (¬ ∃ e ∈ accepted hist, q <+: e.1) ∧ ((∃ i k, D.followString q D.root = .ok (false, i, k)) ∨
      (∃ i k v, D.followString q D.root = .ok (true, i, k) ∧ D.units[i]? = some (leafWord v)) ∨ D.followString q D.root = .error .panic) := by
  by_cases hne : accepted hist = []
  · exact .inl (.inr hne)
  · rcases follow_all h hne hn q with hp | ⟨hp, h1 | ⟨p, b, t, _, _, _, e, _, _, ⟨_, i, h5, h6⟩ | ⟨_, h6⟩⟩⟩
    · exact .inl (.inl hp)
    · exact .inr ⟨hp, .inl h1⟩
    · exact .inr ⟨hp, .inr (.inl ⟨i, _, _, h5, h6⟩)⟩
    · exact .inr ⟨hp, .inr (.inr h6)⟩

theorem noClash_of_none {hist : List (Key × Int)} {q : Key} (h : (∃ e ∈ accepted hist, q <+: e.1) ∨ accepted hist = []) : NoClash hist q := by
  rcases h with h | h
  · exact .of_prefix h
  · intro p b _ hp
    obtain ⟨e, he, _⟩ := hp
    rw [h] at he; cases he

theorem answer_plain_any {hist d D g l} {o : Opts} (h : Made hist d D) (hg : buildGuide d D = .ok (some g)) (hl : Loads o d D g l) (hr : o.ranked = false) (hi : o.index = false)
    (hn : D.units.length ≤ 2 ^ 21) {q : Key} (hx : ¬ (q = [] ∧ ∃ e ∈ accepted hist, e.1 = [])) (c : Completers) {fuel : Nat} (hfuel : (extensions (accepted hist) q).length < fuel) :
    (∃ c', answer o l fuel c q = .ok (⟨q, none, withNul (extensions (accepted hist) q)⟩, c')) ∨ answer o l fuel c q = .error .panic := by
  rcases misled h hn q with hp | ⟨hp, h1⟩
  · have := answer_plain h hg hl hr (noClash_of_none hp) hx c hfuel
    rw [hi] at this
    exact .inl this
  · rw [extensions_nil hp]
    unfold answer
    rw [hl.guide]
    simp only [queryRank, hl.noIndex hi, ok_bind, hl.dict, hr]
    rcases h1 with ⟨i, k, h1⟩ | ⟨i, k, v, h1, h2⟩ | h1
    · rw [h1]; exact .inl ⟨c, rfl⟩
    · rw [h1]
      simp only [ok_bind, Bool.not_true, Bool.false_eq_true, if_false]
      obtain ⟨pc, h3, h4 | h4⟩ := plain_misled hn h2 g c.plain q (fuel := fuel) (by omega)
      · rw [h3]
        simp only [ok_bind]
        rw [h4]
        exact .inl ⟨{ c with plain := pc }, rfl⟩
      · rw [h3]
        simp only [ok_bind]
        rw [h4]
        exact .inr rfl
    · rw [h1]; exact .inr rfl

theorem answer_ranked_any {hist d D g l} {linkSorter : Sorter} {o : Opts} (h : Made hist d D) (hs : StableSort linkSorter) (hg : buildRankedGuide linkSorter d D = .ok (some g))
    (hl : Loads o d D g l) (hr : o.ranked = true) (hi : o.index = false) (hn : D.units.length ≤ 2 ^ 21) {q : Key} (c : Completers) {fuel : Nat}
    (hfuel : (extensions (accepted hist) q).length < fuel) :
    (∃ hits c', answer o l fuel c q = .ok (⟨q, none, hits⟩, c') ∧ RankedHits (accepted hist) q hits) ∨ answer o l fuel c q = .error .panic := by
  rcases misled h hn q with hp | ⟨hp, h1⟩
  · exact .inl (answer_ranked h hs hg hl hr hi (noClash_of_none hp) c hfuel)
  · have hnil : RankedHits (accepted hist) q [] := ⟨[], by rw [extensions_nil hp], by simp, rfl⟩
    unfold answer
    rw [hl.guide]
    simp only [queryRank, hl.noIndex hi, ok_bind, hl.dict, hr]
    rcases h1 with ⟨i, k, h1⟩ | ⟨i, k, v, h1, h2⟩ | h1
    · rw [h1]; exact .inl ⟨[], c, rfl, hnil⟩
    · rw [h1]
      simp only [ok_bind, Bool.not_true, Bool.false_eq_true, if_false, if_true]
      obtain ⟨rc, h3, ⟨rc', h4⟩ | h4⟩ := ranked_misled hn h2 g c.ranked q (fuel := fuel) (by omega)
      · rw [h3]
        simp only [ok_bind]
        rw [h4]
        exact .inl ⟨[], { c with ranked := rc' }, rfl, hnil⟩
      · rw [h3]
        simp only [ok_bind]
        rw [h4]
        exact .inr rfl
    · rw [h1]; exact .inr rfl

theorem answers_any {o : Opts} {l : Loaded} {fuel : Nat} {P : Key → List (Key × Int) → Prop} {qs : List Key}
    (h : ∀ q ∈ qs, ∀ c, (∃ hits c', answer o l fuel c q = .ok (⟨q, none, hits⟩, c') ∧ P q hits) ∨ answer o l fuel c q = .error .panic) (c : Completers) :
    (∃ as, answers o l fuel c qs = .ok as ∧ as.map (·.query) = qs ∧ ∀ a ∈ as, a.rank = none ∧ P a.query a.hits) ∨ answers o l fuel c qs = .error .panic := by
  induction qs generalizing c with
  | nil => exact .inl ⟨[], rfl, rfl, by simp⟩
  | cons q qs ih =>
    rcases h q (by simp) c with ⟨hits, c', h1, h2⟩ | h1
    · rcases ih (fun q hq => h q (by simp [hq])) c' with ⟨as, h3, h4, h5⟩ | h3
      · refine .inl ⟨⟨q, none, hits⟩ :: as, ?_, by simp [h4], ?_⟩
        · rw [answers, h1]
          simp only [ok_bind]
          rw [h3]
          rfl
        · intro a ha
          rcases List.mem_cons.1 ha with rfl | ha
          · exact ⟨rfl, h2⟩
          · exact h5 a ha
      · right
        rw [answers, h1]
        simp only [ok_bind]
        rw [h3]
        rfl
    · right
      rw [answers, h1]
      rfl

/-- **C83**, dawgtool with `-g`: whatever the queries are, except the empty query when the empty key is stored, the answers to all of them are right (up to the NUL byte of C23), or
the program panics. -/
theorem C83_completions_right {hist d D} {linkSorter : Sorter} (h : Made hist d D) (hs : StableSort linkSorter) {o : Opts} (hr : o.ranked = false) (hgd : o.guide = true)
    (hi : o.index = false) {file : List UInt8} (hf : buildFile linkSorter o d = .ok file) (hn : D.units.length ≤ 2 ^ 21) {qs : List Key}
    (hx : ¬ ([] ∈ qs ∧ ∃ e ∈ accepted hist, e.1 = [])) {fuel : Nat} (hfuel : (accepted hist).length < fuel) :
    (∃ as, handleLoad o fuel file qs = .ok (as, none) ∧ as.map (·.query) = qs ∧ ∀ a ∈ as, a.rank = none ∧ a.hits = withNul (extensions (accepted hist) a.query)) ∨
      handleLoad o fuel file qs = .error (.fault .panic) := by
  obtain ⟨g, l, h1, h2, h3⟩ := load_guide h hs hr hgd hf
  have h4 := answers_any (o := o) (l := l) (fuel := fuel) (qs := qs) (P := fun q hits => hits = withNul (extensions (accepted hist) q))
    (fun q hq c => by
      rcases answer_plain_any (q := q) h h2 h3 hr hi hn (fun hn => hx ⟨hn.1 ▸ hq, hn.2⟩) c (fuel := fuel) (by have := extensions_le (accepted hist) q; omega) with ⟨c', h4⟩ | h4
      · exact .inl ⟨_, c', h4, rfl⟩
      · exact .inr h4) Completers.new
  unfold handleLoad
  rw [h1]
  rcases h4 with ⟨as, h4, h5⟩ | h4
  · refine .inl ⟨as, ?_, h5⟩
    change (lift (answers o l fuel Completers.new qs) >>= _) = _
    rw [h4]
    change (lift (totals o l) >>= _) = _
    unfold totals
    rw [hi]
    rfl
  · right
    change (lift (answers o l fuel Completers.new qs) >>= _) = _
    rw [h4]
    rfl

/-- **C83**, dawgtool with `-r`: the same, by value. -/
theorem C83_ranked_right {hist d D} {linkSorter : Sorter} (h : Made hist d D) (hs : StableSort linkSorter) {o : Opts} (hr : o.ranked = true) (hi : o.index = false)
    {file : List UInt8} (hf : buildFile linkSorter o d = .ok file) (hn : D.units.length ≤ 2 ^ 21) (qs : List Key) {fuel : Nat} (hfuel : (accepted hist).length < fuel) :
    (∃ as, handleLoad o fuel file qs = .ok (as, none) ∧ as.map (·.query) = qs ∧ ∀ a ∈ as, a.rank = none ∧ RankedHits (accepted hist) a.query a.hits) ∨
      handleLoad o fuel file qs = .error (.fault .panic) := by
  obtain ⟨l, h1, h2, h3, _, _, h4, h5⟩ := C45_tool_roundtrip h hs o hf
  obtain ⟨g, h6, h7⟩ := h3 hr
  have hl : Loads o d D g l := ⟨h2, h6, h4 g h6, h5⟩
  have h8 := answers_any (o := o) (l := l) (fuel := fuel) (P := RankedHits (accepted hist)) (qs := qs)
    (fun q _ c => answer_ranked_any h hs h7 hl hr hi hn c (by have := extensions_le (accepted hist) q; omega)) Completers.new
  unfold handleLoad
  rw [h1]
  rcases h8 with ⟨as, h8, h9⟩ | h8
  · refine .inl ⟨as, ?_, h9⟩
    change (lift (answers o l fuel Completers.new qs) >>= _) = _
    rw [h8]
    change (lift (totals o l) >>= _) = _
    unfold totals
    rw [hi]
    rfl
  · right
    change (lift (answers o l fuel Completers.new qs) >>= _) = _
    rw [h8]
    rfl

/-- Three keys ("a" 5, "ab" 3, "b" 7), any queries, with `-g` and with `-r`: "a", then a byte 5, then another byte, is answered with nothing or makes the program panic. -/
example : ∃ d D file file', Made keysG d D ∧ buildFile insertionSort { guide := true } d = .ok file ∧ buildFile insertionSort { ranked := true } d = .ok file' ∧
    (handleLoad { guide := true } 9 file [[97, 5, 98]] = .ok ([⟨[97, 5, 98], none, []⟩], none) ∨ handleLoad { guide := true } 9 file [[97, 5, 98]] = .error (.fault .panic)) ∧
    ∀ qs, (∃ as, handleLoad { ranked := true } 9 file' qs = .ok (as, none) ∧ as.map (·.query) = qs ∧ ∀ a ∈ as, a.rank = none ∧ RankedHits (accepted keysG) a.query a.hits) ∨
      handleLoad { ranked := true } 9 file' qs = .error (.fault .panic) := by
  obtain ⟨d, D, h⟩ := madeG
  obtain ⟨file, h1⟩ := C45_tool_writes h insertionSort_stableSort { guide := true } (by simp)
  obtain ⟨file', h2⟩ := C45_tool_writes h insertionSort_stableSort { ranked := true } (by simp)
  have hn := small_units h (by decide)
  refine ⟨d, D, file, file', h, h1, h2, ?_, fun qs => C83_ranked_right h insertionSort_stableSort rfl rfl h2 hn qs (by decide)⟩
  rcases C83_completions_right h insertionSort_stableSort rfl rfl rfl h1 hn (qs := [[97, 5, 98]]) (fuel := 9) (by decide) (by decide) with ⟨as, h3, h4, h5⟩ | h3
  · left
    rw [h3]
    match as, h4, h5 with
    | [⟨q, r, x⟩], h4, h5 =>
      obtain ⟨h6, h7⟩ := h5 _ (List.mem_singleton.2 rfl)
      simp only [List.map_cons, List.map_nil, List.cons.injEq, and_true] at h4
      simp only at h6 h7
      subst h4 h6
      rw [h7]
      decide
  · exact .inr h3

/-- The sample dictionary again ("a" with value 354): `Find("b")` and the query "b" panic, `Contains("b")` is wrong, as 354 = 256 + 98; nothing else is wrong. -/
example : ∃ d, Made Witness.histA d Witness.dictA ∧ Witness.dictA.units.length ≤ 2 ^ 21 ∧ Witness.dictA.findString [98] = .error .panic ∧
    queryPrefixes Witness.dictA [98] = .error .panic ∧ Witness.dictA.containsString [98] = .ok true ∧ ∀ q, Witness.dictA.containsString q = .ok true → q = [97] ∨ q = [98] ∨ q = [97, 98] := by
  obtain ⟨d, h⟩ := sampleMade
  have hn : Witness.dictA.units.length ≤ 2 ^ 21 := by decide +kernel
  refine ⟨d, h, hn, by decide +kernel, by decide +kernel, by decide +kernel, fun q hq => ?_⟩
  have hacc : accepted Witness.histA = [([97], 354)] := by decide
  rcases (C83_contains h hn q).1 true hq with h1 | ⟨_, p, b, rfl, h2, e, he, h3, _⟩
  · obtain ⟨e, he, rfl⟩ := h1.1 rfl
    rw [hacc, List.mem_singleton] at he
    subst he; exact .inl rfl
  · rw [hacc, List.mem_singleton] at he
    subst he
    have hb : b = 98 := UInt8.toNat.inj (by rw [← h3]; decide)
    subst hb
    obtain ⟨e, he, h4⟩ := h2
    rw [hacc, List.mem_singleton] at he
    subst he
    rcases p with _ | ⟨x, p⟩
    · exact .inr (.inl rfl)
    · rw [List.cons_prefix_cons, List.prefix_nil] at h4
      obtain ⟨rfl, rfl⟩ := h4
      exact .inr (.inr rfl)

/-! ## C82 -/

section
variable {c : Core} {r : Nat} {acc : Lang} {D : Dictionary} {B : Nat} {G : List (Nat × Nat)} {num : Nat}

/-- From a unit with a value whose low byte is 0, the byte 0 leads to the value unit. -/
theorem nul_follow (h : DSem c r acc D B G num) {u o s g L} (hd : Node c G D u o s g L) {v : Nat} (hv : (([] : Key), v) ∈ L) (h0 : v % 256 = 0) :
    D.follow 0 u = .ok (some o) ∧ D.units[o]? = some (leafWord v) := by
  obtain ⟨w, h1, _, h3⟩ := hd.offset
  obtain ⟨b, hb, rfl⟩ := (DenG.nil_mem hd.den).1 hv
  have hk : Kid c G o (o, s) (0, b) := ⟨hd.mem, by rw [show grp c (o, s).2 = g from hd.start.groupAt h.ne]; exact hb, by simp⟩
  have h2 := (h.u.leaf hk rfl).2
  refine ⟨?_, h2⟩
  have hlab : dictLabel (leafWord (baseValue b)) = 0 := label_iff.2 (by unfold leafWord; simp; omega)
  simp only [Dictionary.follow, h1, ok_bind, h3, show o ^^^ (0 : UInt8).toNat = o by simp, rd_some h2, hlab, pure_eq_ok, ne_eq, not_true, if_false]

end

theorem prefixLoop_follow {D : Dictionary} {q : Key} : ∀ (cs : Key) (pos i : Nat) {l : List (Key × Nat)}, prefixLoop D q cs pos i = .ok l → ∃ x, D.followString cs i = .ok x
  | [], _, _, _, _ => ⟨_, rfl⟩
  | c :: cs, pos, i, l, h => by
    rw [prefixLoop] at h
    obtain ⟨x, h1, h2⟩ := bind_eq_ok.1 h
    cases x with
    | none => exact ⟨_, by simp only [Dictionary.followString, h1, ok_bind]; rfl⟩
    | some j =>
      obtain ⟨y, h3, _⟩ := bind_eq_ok.1 h2
      obtain ⟨z, h4⟩ := prefixLoop_follow cs _ _ h3
      exact ⟨_, by simp only [Dictionary.followString, h1, ok_bind, h4]; rfl⟩

/-- The full claim C82: a string with a NUL byte, which no builder stores, is not found. -/
def C82_statement : Prop := ∀ hist d D, Made hist d D → accepted hist ≠ [] → ∀ q : Key, (0 : UInt8) ∈ q → D.containsString q = .ok false ∧ D.findString q = .ok (-1) ∧
  ∃ i k, D.followString q D.root = .ok (false, i, k)

/-- **C82 is false** in every dictionary that has a key with a value of low byte 0, such as the value 0 of `InsertString` without value: the key followed by a NUL byte is followed;
it is contained if bit 8 of the value is set; and, with at most 2^21 units, every look-up of it with further bytes panics. -/
theorem C82_nul_hits {hist d D} (h : Made hist d D) {e : Key × Int} (he : e ∈ accepted hist) (h0 : stored e.2 % 256 = 0) :
    (∃ i, D.followString (e.1 ++ [0]) D.root = .ok (true, i, e.1.length + 1)) ∧
    D.containsString (e.1 ++ [0]) = .ok (decide (stored e.2 / 256 % 2 = 1)) ∧
    (D.units.length ≤ 2 ^ 21 → (stored e.2 / 256 % 2 = 1 → D.findString (e.1 ++ [0]) = .error .panic) ∧
      ∀ b t, D.followString (e.1 ++ 0 :: b :: t) D.root = .error .panic ∧ D.containsString (e.1 ++ 0 :: b :: t) = .error .panic ∧
        D.findString (e.1 ++ 0 :: b :: t) = .error .panic ∧ queryPrefixes D (e.1 ++ 0 :: b :: t) = .error .panic) := by
  have hne : accepted hist ≠ [] := List.ne_nil_of_mem he
  obtain ⟨c, r, B, G, num, _, _, e3⟩ := Made.sem h hne
  obtain ⟨o, g, hr⟩ := e3.root (by simpa using hne)
  obtain ⟨u, o', s', g', k1, k2⟩ := followString_hit e3 hr (residual_wordE_ne.2 ⟨e, he, List.prefix_rfl⟩)
  obtain ⟨k3, k4⟩ := nul_follow e3 k2 (v := stored e.2) (by rw [mem_residual]; simpa using mem_wordE he) h0
  have happ : ∀ t, D.followString (e.1 ++ 0 :: t) D.root = (do
      let (ok', k, m) ← D.followString t o'
      return (ok', k, e.1.length + (m + 1))) := by
    intro t
    rw [Dictionary.followString_append, show D.root = 0 from rfl, k1]
    simp only [ok_bind, if_true, Dictionary.followString, k3]
    cases D.followString t o' <;> rfl
  have hf : D.followString (e.1 ++ [0]) D.root = .ok (true, o', e.1.length + 1) := by
    rw [happ]; rfl
  refine ⟨⟨o', hf⟩, ?_, fun hn => ⟨fun hb => ?_, fun b t => ?_⟩⟩
  · simp only [Dictionary.containsString, hf, ok_bind, Bool.not_true, Bool.false_eq_true, if_false, leaf_hasValue k4]
  · simp only [Dictionary.findString, hf, ok_bind, Bool.not_true, Bool.false_eq_true, if_false, leaf_hasValue k4, decide_eq_true hb, if_true, leaf_value hn k4]
    rfl
  · have hp : D.followString (e.1 ++ 0 :: b :: t) D.root = .error .panic := by
      rw [happ]
      simp only [Dictionary.followString, leaf_follow hn k4]
      rfl
    refine ⟨hp, by simp only [Dictionary.containsString, hp]; rfl, by simp only [Dictionary.findString, hp]; rfl, ?_⟩
    rcases C83_tool_right h hn (e.1 ++ 0 :: b :: t) with h1 | h1
    · have := prefixLoop_follow _ _ _ h1
      rw [hp] at this
      obtain ⟨_, h2⟩ := this; cases h2
    · exact h1

theorem madeZero : ∃ d D, Made [([97], 0)] d D := by
  obtain ⟨d, D, h, _⟩ := C14_small_builds 1 (by omega) (by omega) [([97], 0)] (by decide) (by decide)
  exact ⟨d, D, h⟩

/-- **C82 is false**: in the dictionary of the only key "a" with value 0, `FollowString("a\0")` succeeds. -/
theorem C82_nul_false : ¬ C82_statement := by
  intro hs
  obtain ⟨d, D, h⟩ := madeZero
  obtain ⟨_, _, i, k, h1⟩ := hs _ d D h (by decide) [97, 0] (by decide)
  obtain ⟨⟨j, h2⟩, _⟩ := C82_nul_hits h (e := ([97], 0)) (by decide) (by decide)
  rw [show ([97, 0] : Key) = [97] ++ [0] from rfl, h2] at h1
  cases h1

/-- **C82**, when no stored value has the low byte 0, and for queries that do not leave the key set with the low byte of a stored value before the first NUL byte. -/
theorem C82_nul_partial {hist d D} (h : Made hist d D) (hne : accepted hist ≠ []) (hv : ∀ e ∈ accepted hist, stored e.2 % 256 ≠ 0) {p : Key} (hc : NoClash hist p) (t : Key) :
    D.containsString (p ++ 0 :: t) = .ok false ∧ D.findString (p ++ 0 :: t) = .ok (-1) ∧ ∃ i k, D.followString (p ++ 0 :: t) D.root = .ok (false, i, k) := by
  have nul : ∀ {x : Key}, p ++ [0] <+: x → ¬ ∃ e ∈ accepted hist, x <+: e.1 := by
    rintro x hx ⟨e, he, hxe⟩
    exact h.1.nulFree e (mem_of_accepted he) ((hx.trans hxe).subset (by simp))
  have hc' : NoClash hist (p ++ 0 :: t) := by
    intro a b hab ha hb e he
    have hp : p ++ [0] <+: p ++ 0 :: t := ⟨t, by simp⟩
    rcases Nat.lt_trichotomy a.length p.length with hl | hl | hl
    · refine hc a b (List.prefix_of_prefix_length_le hab (List.prefix_append p _) ?_) ha hb e he
      simpa using Nat.succ_le_of_lt hl
    · have e1 : a ++ [b] = p ++ [0] := (List.prefix_of_prefix_length_le hab hp (by simp [hl])).eq_of_length (by simp [hl])
      have := (List.append_inj' e1 rfl).2
      simp only [List.cons.injEq, and_true] at this
      subst this
      exact hv e he
    · exact absurd ha (nul (List.prefix_of_prefix_length_le hp ((List.prefix_append a [b]).trans hab) (by simpa using Nat.succ_le_of_lt hl)))
  have hq : ∀ e ∈ accepted hist, e.1 ≠ p ++ 0 :: t := fun e he hq => nul (x := p ++ 0 :: t) ⟨t, by simp⟩ ⟨e, he, by rw [hq]; exact List.prefix_rfl⟩
  obtain ⟨h1, h2, _⟩ := C11_nothing_else_partial h hc' hq
  exact ⟨h1, h2, follow_other h hne (nul ⟨t, by simp⟩) hc'⟩

/-- In the sample dictionary ("a" with value 354) "a\0" is not found. -/
example : ∃ d, Made Witness.histA d Witness.dictA ∧ Witness.dictA.containsString [97, 0, 7] = .ok false := by
  obtain ⟨d, h⟩ := sampleMade
  exact ⟨d, h, (C82_nul_partial h (by decide) (by decide) (p := [97]) (.of_prefix (by decide)) [7]).1⟩

/-- With "a" and the value 256, `Contains("a\0")` is true; with the value 0, `Follow("a\0")` succeeds and `Contains("a\0b")` panics if the dictionary has at most 2^21 units, as
all dictionaries of up to 8191 bytes of keys and terminators have. -/
example : (∃ d D, Made [([97], 256)] d D ∧ D.containsString [97, 0] = .ok true) ∧ ∃ d D, Made [([97], 0)] d D ∧ D.containsString [97, 0] = .ok false ∧
    D.containsString [97, 0, 98] = .error .panic := by
  constructor
  · obtain ⟨d, D, h, _⟩ := C14_small_builds 1 (by omega) (by omega) [([97], 256)] (by decide) (by decide)
    exact ⟨d, D, h, (C82_nul_hits h (e := ([97], 256)) (by decide) (by decide)).2.1⟩
  · obtain ⟨d, D, h⟩ := madeZero
    have := C82_nul_hits h (e := ([97], 0)) (by decide) (by decide)
    exact ⟨d, D, h, this.2.1, ((this.2.2 (small_units h (by decide))).2 98 []).2.1⟩

end Dawg.Props
