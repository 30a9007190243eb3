import Verif.Props.Canonical

/-!
# The units spell exactly the keys (C80, C81)

The look-ups of the package also accept some strings that were never inserted (C11, C12), because `dictLabel` does not look at bit 31 of a unit.
The theorems of this file show that the data is not to blame: a reader that skips the units with bit 31 finds the inserted pairs and nothing else.
The reader is a relation on the units of the array; it uses no function of the package.
-/

namespace Dawg.Props

open Dawg Dawg.Spec Dawg.Client Dawg.Abs Dawg.Dict

/-- Where the children of a unit are: bits 10 to 30, shifted by another 8 bits if bit 9 is set. -/
def childOffset (w : Nat) : Nat := if w / 512 % 2 = 1 then w / 1024 * 256 else w / 1024

/-- From unit `i` the string `q` leads to unit `j`, through units with clear bit 31 that carry the bytes of `q` in their bits 0 to 7. -/
inductive Spells (units : List Nat) : Nat → Key → Nat → Prop
  | done {i : Nat} : Spells units i [] i
  | step {i j w w' : Nat} {b : UInt8} {q : Key} : units[i]? = some w → units[i ^^^ childOffset w ^^^ b.toNat]? = some w' → w' < 2 ^ 31 → w' % 256 = b.toNat →
      Spells units (i ^^^ childOffset w ^^^ b.toNat) q j → Spells units i (b :: q) j

/-- The string `q` leads to a unit with set bit 8, and the unit where its children begin holds `v` in its bits 0 to 30. -/
def SpellsKey (units : List Nat) (q : Key) (v : Nat) : Prop :=
  ∃ j w x, Spells units 0 q j ∧ units[j]? = some w ∧ w / 256 % 2 = 1 ∧ units[j ^^^ childOffset w]? = some x ∧ x % 2 ^ 31 = v

theorem dictOffset_eq {w : Nat} (h : w < 4294967296) : dictOffset w = childOffset w := by
  unfold dictOffset childOffset extensionBit
  rw [testBit_9, Nat.shiftRight_eq_div_pow, show 2 ^ 10 = 1024 from rfl]
  by_cases hb : w / 512 % 2 = 1
  · rw [if_pos hb, hb, show (512 * 1) >>> 6 = 8 by decide, Nat.shiftLeft_eq, u32_of_lt (by omega)]
  · rw [if_neg hb, show w / 512 % 2 = 0 by omega, show (512 * 0) >>> 6 = 0 by decide, Nat.shiftLeft_zero, u32_of_lt (by omega)]

theorem label_iff {w : Nat} {b : UInt8} : dictLabel w = b ↔ w % 256 = b.toNat := by
  rw [dictLabel_mod]
  constructor
  · rintro rfl; simp
  · intro h
    apply UInt8.toNat.inj
    simp [h]

/-- Whatever is spelled is also followed by `FollowString`. -/
theorem Spells.followString {D : Dictionary} (h32 : Units32 D.units) {i j : Nat} {q : Key} (h : Spells D.units i q j) :
    D.followString q i = .ok (true, j, q.length) := by
  induction h with
  | done => rfl
  | @step i j w w' b q h1 h2 h3 h4 _ ih =>
    have hw : dictOffset w = childOffset w := dictOffset_eq (h32.2 _ (List.mem_of_getElem? h1))
    have hf : D.follow b i = .ok (some (i ^^^ childOffset w ^^^ b.toNat)) := by
      simp only [Dictionary.follow, rd_some h1, ok_bind, hw, rd_some h2, label_iff.2 h4, ne_eq, not_true, if_false, pure_eq_ok]
    simp only [Dictionary.followString, hf, ok_bind, ih, pure_eq_ok, List.length_cons]

section
variable {c : Core} {r : Nat} {acc : Lang} {D : Dictionary} {B : Nat} {G : List (Nat × Nat)} {num : Nat}

theorem spells_hit (h : DSem c r acc D B G num) (h32 : Units32 D.units) : ∀ (q : Key) {u o s : Nat} {g : Group} {L : Lang}, Node c G D u o s g L → residual L q ≠ [] →
    ∃ j o' s' g', Spells D.units u q j ∧ Node c G D j o' s' g' (residual L q)
  | [], u, o, s, g, L, hn, _ => ⟨u, o, s, g, .done, by
      have : residual L [] = L := by simp [residual]
      rw [this]; exact hn⟩
  | b :: q, u, o, s, g, L, hn, hq => by
    rw [show b :: q = [b] ++ q from rfl, residual_residual] at hq
    have hb : residual L [b] ≠ [] := by
      intro h0; rw [h0] at hq; exact hq rfl
    obtain ⟨h1, o', s', g', h2⟩ := hn.follow_hit h hb
    obtain ⟨j, o'', s'', g'', h3, h4⟩ := spells_hit h h32 q h2 hq
    refine ⟨j, o'', s'', g'', ?_, by rw [show b :: q = [b] ++ q from rfl, residual_residual]; exact h4⟩
    obtain ⟨w, w1, _, w3⟩ := hn.offset
    have w1' := rd_eq_ok.1 w1
    rw [dictOffset_eq (h32.2 _ (List.mem_of_getElem? w1'))] at w3
    obtain ⟨l', hw'⟩ := h2.word
    have hlab : dictLabel (nodeWord l' (hasEmpty c s') (o ^^^ b.toNat ^^^ o')) = b := by
      simp only [Dictionary.follow, w1, ok_bind, rd_some hw', pure_eq_ok, show u ^^^ dictOffset w = o by rw [dictOffset_eq (h32.2 _ (List.mem_of_getElem? w1')), w3]] at h1
      refine Classical.byContradiction fun hc => ?_
      rw [if_pos hc] at h1
      cases h1
    refine .step w1' (w' := nodeWord l' (hasEmpty c s') (o ^^^ b.toNat ^^^ o')) ?_ (nodeWord_lt _ _ h2.enc) (label_iff.1 hlab) ?_
    · rw [w3]; exact hw'
    · rw [w3]; exact h3

theorem spells_only (h : DSem c r acc D B G num) (h32 : Units32 D.units) {u j : Nat} {q : Key} (hs : Spells D.units u q j) :
    ∀ {o s : Nat} {g : Group} {L : Lang}, Node c G D u o s g L → ∃ o' s' g', Node c G D j o' s' g' (residual L q) := by
  induction hs with
  | done =>
    intro o s g L hn
    have : residual L [] = L := by simp [residual]
    exact ⟨o, s, g, by rw [this]; exact hn⟩
  | @step i j w w' b q h1 h2 h3 h4 _ ih =>
    intro o s g L hn
    obtain ⟨x, x1, _, x3⟩ := hn.offset
    have hx := Option.some.inj (h1.symm.trans (rd_eq_ok.1 x1))
    subst hx
    rw [dictOffset_eq (h32.2 _ (List.mem_of_getElem? h1))] at x3
    rw [x3] at h2 ih
    have hb : residual L [b] ≠ [] := by
      intro h0
      rcases hn.follow_miss h h0 with h5 | ⟨v, _, _, h5, _⟩
      · have hf : D.follow b i = .ok (some (o ^^^ b.toNat)) := by
          simp only [Dictionary.follow, x1, ok_bind, dictOffset_eq (h32.2 _ (List.mem_of_getElem? h1)), x3, rd_some h2, label_iff.2 h4, ne_eq, not_true, if_false, pure_eq_ok]
        rw [hf] at h5; cases h5
      · have := Option.some.inj (h2.symm.trans h5)
        rw [this] at h3
        unfold leafWord at h3
        omega
    obtain ⟨_, o', s', g', h6⟩ := hn.follow_hit h hb
    obtain ⟨o'', s'', g'', h7⟩ := ih h6
    exact ⟨o'', s'', g'', by rw [show b :: q = [b] ++ q from rfl, residual_residual]; exact h7⟩

end

theorem hasLeaf_iff {w : Nat} : dictHasLeaf w = true ↔ w / 256 % 2 = 1 := by
  unfold dictHasLeaf hasLeafBit
  rw [testBit_8, decide_eq_true_eq]

/-! ## C80 -/

/-- **C80.** The units of a built dictionary spell exactly the accepted pairs, whatever the values are. -/
theorem C80_spells_keys {hist d D} (h : Made hist d D) (q : Key) (v : Nat) :
    SpellsKey D.units q v ↔ ∃ e ∈ accepted hist, e.1 = q ∧ stored e.2 = v := by
  have h32 := Made.units32 h
  by_cases hne : accepted hist = []
  · rw [hne]
    constructor
    · rintro ⟨j, w, x, h1, h2, h3, _⟩
      obtain ⟨ok, i, k, e1, e2⟩ := follow_empty h hne q
      rw [show D.root = 0 from rfl, h1.followString h32] at e1
      cases e1
      simp only [Dictionary.hasValue, rd_some h2, ok_bind, pure_eq_ok, hasLeaf_iff.2 h3] at e2
      cases e2
    · rintro ⟨e, he, _⟩; cases he
  · obtain ⟨c, r, B, G, num, _, _, e3⟩ := Made.sem h hne
    obtain ⟨o, g, hr⟩ := e3.root (by simpa using hne)
    constructor
    · rintro ⟨j, w, x, h1, h2, h3, h4, h5⟩
      obtain ⟨o', s', g', hn⟩ := spells_only e3 h32 h1 hr
      have hv := hn.hasValue e3
      simp only [Dictionary.hasValue, rd_some h2, ok_bind, pure_eq_ok, hasLeaf_iff.2 h3] at hv
      have hv := (Except.ok.inj hv).symm
      obtain ⟨⟨k, y⟩, hy, hk⟩ := List.any_eq_true.1 hv
      simp only [beq_iff_eq] at hk
      subst hk
      have hval := hn.value e3 hy
      simp only [Dictionary.value, rd_some h2, ok_bind, dictOffset_eq (h32.2 _ (List.mem_of_getElem? h2)), rd_some h4, pure_eq_ok, dictValue_eq] at hval
      have hval := Except.ok.inj hval
      rw [mem_residual] at hy
      obtain ⟨e, he, hee⟩ := List.mem_map.1 hy
      refine ⟨e, he, ?_⟩
      simp only [wordE, Prod.mk.injEq, List.append_nil] at hee
      exact ⟨hee.1, by rw [hee.2, ← hval]; exact h5⟩
    · rintro ⟨e, he, rfl, rfl⟩
      obtain ⟨j, o', s', g', h1, hn⟩ := spells_hit e3 h32 e.1 hr (residual_wordE_ne.2 ⟨e, he, List.prefix_rfl⟩)
      have hy : (([] : Key), stored e.2) ∈ residual ((accepted hist).map wordE) e.1 := by rw [mem_residual]; simpa using mem_wordE he
      have hv := hn.hasValue e3
      have hval := hn.value e3 hy
      obtain ⟨w, w1, w2, w3⟩ := hn.offset
      simp only [Dictionary.hasValue, w1, ok_bind, pure_eq_ok] at hv
      simp only [Dictionary.value, w1, ok_bind] at hval
      obtain ⟨x, x1, x2⟩ := bind_eq_ok.1 hval
      rw [dictOffset_eq (h32.2 _ (List.mem_of_getElem? (rd_eq_ok.1 w1)))] at x1
      refine ⟨j, w, x, h1, rd_eq_ok.1 w1, hasLeaf_iff.1 ?_, rd_eq_ok.1 x1, ?_⟩
      · rw [Except.ok.inj hv]
        exact List.any_eq_true.2 ⟨_, hy, by simp⟩
      · have := Except.ok.inj x2
        rw [dictValue_eq] at this
        exact this

/-- **C80**, for prefixes: in a dictionary with keys, exactly the prefixes of keys are spelled. -/
theorem C80_spells_prefixes {hist d D} (h : Made hist d D) (hne : accepted hist ≠ []) (q : Key) :
    (∃ j, Spells D.units 0 q j) ↔ ∃ e ∈ accepted hist, q <+: e.1 := by
  have h32 := Made.units32 h
  obtain ⟨c, r, B, G, num, _, _, e3⟩ := Made.sem h hne
  obtain ⟨o, g, hr⟩ := e3.root (by simpa using hne)
  constructor
  · rintro ⟨j, h1⟩
    obtain ⟨o', s', g', hn⟩ := spells_only e3 h32 h1 hr
    refine residual_wordE_ne.1 fun h0 => ?_
    rw [h0] at hn
    exact hn.den.ne_nil e3.ne (e3.ne _ hn.start.mem) rfl
  · intro hq
    obtain ⟨j, _, _, _, h1, _⟩ := spells_hit e3 h32 q hr (residual_wordE_ne.2 hq)
    exact ⟨j, h1⟩

/-- The sample dictionary has the single key "a" with value 354, and 354 = 256 + 98.  `Contains("b")` is true there, but "b" is not spelled. -/
example : ∃ d, Made Witness.histA d Witness.dictA ∧ Witness.dictA.containsString [98] = .ok true ∧ SpellsKey Witness.dictA.units [97] 354 ∧
    (∀ v, ¬ SpellsKey Witness.dictA.units [98] v) ∧ ¬ ∃ j, Spells Witness.dictA.units 0 [98] j := by
  obtain ⟨d, h⟩ := sampleMade
  refine ⟨d, h, by decide +kernel, (C80_spells_keys h _ _).2 (by decide), fun v hv => ?_, fun hv => ?_⟩
  · obtain ⟨e, he, h1, _⟩ := (C80_spells_keys h _ _).1 hv
    have : ∀ e ∈ accepted Witness.histA, e.1 ≠ [98] := by decide
    exact this e he h1
  · exact absurd ((C80_spells_prefixes h (by decide) _).1 hv) (by decide)

/-! ## C81 -/

/-- **C81.** Two dictionaries are the same if and only if they were built from the same keys with the same values (as far as 31 bits hold them), and also if
and only if the Dawgs they were built from are the same. -/
theorem C81_units_determine {hist hist' d d' D D'} (h : Made hist d D) (h' : Made hist' d' D') :
    (D = D' ↔ words (accepted hist) = words (accepted hist')) ∧ (D = D' ↔ d = d') := by
  have h1 : D = D' → words (accepted hist) = words (accepted hist') := by
    rintro rfl
    have hmem : ∀ e, e ∈ words (accepted hist) ↔ e ∈ words (accepted hist') := by
      have key : ∀ {hist d}, Made hist d D → ∀ e, e ∈ words (accepted hist) ↔ SpellsKey D.units e.1 e.2 := by
        intro hist d h e
        rw [C80_spells_keys h]
        unfold words
        rw [List.mem_map]
        constructor
        · rintro ⟨x, hx, rfl⟩; exact ⟨x, hx, rfl, rfl⟩
        · rintro ⟨x, hx, e1, e2⟩; exact ⟨x, hx, by rw [e1, e2]⟩
      intro e
      rw [key h, key h']
    have nodup : ∀ hist, (words (accepted hist)).Nodup := fun hist => (C04_listing_sorted hist).imp (fun {a b} (hab : a.1 < b.1) he => by
      subst he; exact absurd hab (List.lt_irrefl _))
    exact List.Perm.eq_of_pairwise (le := fun a b : Key × Nat => a.1 < b.1) (fun a b _ _ h1 h2 => absurd (List.lt_trans h1 h2) (List.lt_irrefl _))
      (C04_listing_sorted hist) (C04_listing_sorted hist') ((List.perm_ext_iff_of_nodup (nodup hist) (nodup hist')).2 hmem)
  obtain ⟨ha, n, oks, b, n1, n2, b1, b2⟩ := h
  obtain ⟨ha', n', oks', b', n1', n2', b1', b2'⟩ := h'
  obtain ⟨_, _, _, _, x, x', k1, k2, k3⟩ := C63_canonical n1 n2 n1' n2' ha ha'
  rw [b1] at k1
  rw [b1'] at k2
  simp only [Except.ok.injEq, Prod.mk.injEq] at k1 k2
  obtain ⟨_, _, rfl⟩ := k1
  obtain ⟨_, _, rfl⟩ := k2
  have h2 : d = d' → D = D' := by
    rintro rfl
    rw [b2] at b2'
    exact Option.some.inj (Except.ok.inj b2')
  exact ⟨⟨h1, fun hw => h2 (k3.2 hw)⟩, ⟨fun he => k3.2 (h1 he), h2⟩⟩

/-- The dictionary of "a" with value 354 is also the one of "a" with value 354 - 2^31, which has the same low 31 bits, and it is not the one of "a" with value 355
or of no keys. -/
example : ∃ d, Made Witness.histA d Witness.dictA ∧ (∀ d' D', Made [([97], 354 - 2147483648)] d' D' → Witness.dictA = D' ∧ d = d') ∧
    (∀ d' D', Made [([97], 355)] d' D' → Witness.dictA ≠ D') ∧ ∀ d' D', Made [] d' D' → Witness.dictA ≠ D' := by
  obtain ⟨d, h⟩ := sampleMade
  refine ⟨d, h, fun d' D' h' => ?_, fun d' D' h' he => ?_, fun d' D' h' he => ?_⟩
  · have := (C81_units_determine h h').1.2 (by decide)
    exact ⟨this, (C81_units_determine h h').2.1 this⟩
  · exact absurd ((C81_units_determine h h').1.1 he) (by decide)
  · exact absurd ((C81_units_determine h h').1.1 he) (by decide)

/-- **C81**, for files: if two written dictionaries begin in the same way, whatever follows them in the files, then they hold the same keys and values. -/
theorem C81_files_determine {hist hist' d d' D D'} (h : Made hist d D) (h' : Made hist' d' D') {rest rest' : List UInt8} (hf : D.write ++ rest = D'.write ++ rest') :
    words (accepted hist) = words (accepted hist') ∧ rest = rest' := by
  have e1 := (C19_dictionary_roundtrip D D (Made.units32 h) rest).2
  have e2 := (C19_dictionary_roundtrip D' D' (Made.units32 h') rest').2
  rw [hf, e2] at e1
  simp only [Prod.mk.injEq, Option.some.injEq] at e1
  exact ⟨(C81_units_determine h h').1.1 e1.1.symm, e1.2.symm⟩

/-- No file that begins with the dictionary of "a" with value 354 begins with one of "a" with value 355. -/
example : ∃ d, Made Witness.histA d Witness.dictA ∧ ∀ d' D' rest rest', Made [([97], 355)] d' D' → Witness.dictA.write ++ rest ≠ D'.write ++ rest' := by
  obtain ⟨d, h⟩ := sampleMade
  exact ⟨d, h, fun d' D' rest rest' h' he => absurd (C81_files_determine h h' he).1 (by decide)⟩

end Dawg.Props
