import Verif.Proof.Dict.Inv
/-! # Steps of the builder and the invariant -/
namespace Dawg.Dict
attribute [-simp] List.length_flatten
open Dawg.Abs DictBuilder

theorem deadWord (j un : Nat) : dictSetLabel 0 (UInt8.ofNat (j ^^^ un)) = (j ^^^ un) % 256 := by
  rw [setLabel_zero, UInt8.toNat_ofNat']

theorem unplacedBelow_add (c : Core) (G : List (Nat × Nat)) (F : Nat) {f : Nat → Bool}
    (hf : ∀ j, F ≤ j → j < F + 256 → (f j = true ↔ Unplaced c G j)) :
    unplacedBelow c G (F + 256) = unplacedBelow c G F + (List.range' F 256).countP f := by
  unfold unplacedBelow
  rw [List.range_eq_range', List.range_eq_range', show List.range' 0 (F + 256) = List.range' 0 F ++ List.range' F 256 by
    rw [List.range'_eq_append_iff]; exact ⟨F, by omega, by simp, by simp⟩, List.countP_append]
  congr 1
  apply List.countP_congr
  intro j hj
  rw [List.mem_range'_1] at hj
  simp only [decide_eq_true_eq]
  exact (hf j hj.1 hj.2).symm

/-- Fixing the block at `F`. -/
theorem UInv.fix {c r units B F G pend num units' un} (h : UInv c r units B F G pend num) (hpos : 0 < B) (hF : F + 256 ≤ 256 * B)
    (hlen : units'.length = 256 * B)
    (hun : (∃ u, u / 256 = F / 256 ∧ Unplaced c G u) → un / 256 = F / 256 ∧ un ≠ 0 ∧ ∀ x ∈ G, x.1 ≠ un)
    (h1 : ∀ j, j / 256 = F / 256 → Unplaced c G j → units'[j]? = (units[j]?).map (fun w => dictSetLabel w (UInt8.ofNat (j ^^^ un))))
    (h2 : ∀ j, ¬ (j / 256 = F / 256 ∧ Unplaced c G j) → units'[j]? = units[j]?)
    {f : Nat → Bool} (hf : ∀ j, F ≤ j → j < F + 256 → (f j = true ↔ Unplaced c G j)) :
    UInv c r units' B (F + 256) G pend (num + (List.range' F 256).countP f) := by
  have hm := h.mult
  apply h.transfer (Nat.le_refl _) hlen
  · intro j _ hj
    exact h2 j (fun h => hj h.2)
  · intro u hu1 hu2 hu3
    rw [h2 u (by omega)]
    exact h.free (by omega) hu2 hu3
  · intro u hu1 hu2
    by_cases hlt : u < F
    · rw [h2 u (by omega)]
      exact h.dead hlt hu2
    · have hub : u / 256 = F / 256 := by omega
      obtain ⟨a, b, c⟩ := hun ⟨u, hub, hu2⟩
      refine ⟨un, by omega, b, c, ?_⟩
      rw [h1 u hub hu2, h.free (by omega) (by omega) hu2, Option.map_some, deadWord]
  · rw [h.num, unplacedBelow_add c G F hf]
  · exact hF
  · omega
  · exact hpos

/-- Adding a block of zero units. -/
theorem UInv.grow {c r units B F G pend num units'} (h : UInv c r units B F G pend num) (hpos : 0 < B) (hlen : units'.length = 256 * (B + 1))
    (h1 : ∀ j, j < 256 * B → units'[j]? = units[j]?) (h2 : ∀ j, 256 * B ≤ j → j < 256 * B + 256 → units'[j]? = some 0) :
    UInv c r units' (B + 1) F G pend num := by
  have hb := h.bound
  apply h.transfer (by omega) hlen
  · exact fun j hj _ => h1 j hj
  · intro u hu1 hu2 hu3
    by_cases hlt : u < 256 * B
    · rw [h1 u hlt]; exact h.free hu1 hlt hu3
    · exact h2 u (by omega) (by omega)
  · intro u hu1 hu2
    rw [h1 u (by omega)]; exact h.dead hu1 hu2
  · exact h.num
  · omega
  · exact h.mult
  · exact hpos

/-- The state of the builder between two steps. -/
structure DInv (c : Core) (r : Nat) (db : DictBuilder) (B : Nat) (ex : Nat → ExtraUnit) (G : List (Nat × Nat)) (pend : Nat → Option Nat) : Prop where
  ext : EX db.units db.extras B ex
  fl : FL B ex db.unfixedIndex
  u : UInv c r db.units B (256 * (B - 16)) G pend db.numOfUnusedUnits
  w : WInv c B (256 * (B - 16)) ex G
  pos : 1 ≤ B
  le : B ≤ 2097152

theorem DInv.win_lt {c r db B ex G pend} (_h : DInv c r db B ex G pend) {u : Nat} (hw : Win B u) : 256 * (B - 16) ≤ u := by
  have := hw.2; omega

theorem DInv.expand {c r db B ex G pend} (h : DInv c r db B ex G pend) (hne : ∀ g ∈ c.groups, g ≠ []) (hB : B < 2097152) :
    ∃ db' ex', db.expandDictionary = .ok db' ∧ DInv c r db' (B + 1) ex' G pend ∧ db'.linkTable = db.linkTable ∧ db'.labels = db.labels := by
  obtain ⟨us, xs, uf, num, ex', e1, e2, e3, e4, e5, un, e6, e7, e8⟩ := expand_spec hB h.ext h.fl
  have hpos := h.pos
  refine ⟨_, ex', e1, ⟨e2, e3, ?_, ?_, by omega, by omega⟩, rfl, rfl⟩
  · -- units
    simp only []
    by_cases hc : B < 16
    · have hF : 256 * (B + 1 - 16) = 256 * (B - 16) := by omega
      rw [if_pos hc, Nat.add_zero] at e7
      rw [hF, e7]
      apply h.u.grow (by omega) e2.units
      · intro j hj
        rw [e6, if_neg (by omega), if_neg (by omega)]
      · intro j h1 h2
        rw [e6, if_pos ⟨h1, h2⟩]
    · have hF : 256 * (B + 1 - 16) = 256 * (B - 16) + 256 := by omega
      rw [if_neg hc] at e7
      rw [hF, e7]
      -- first fix the old block
      have hFd : 256 * (B - 16) / 256 = B - 16 := by omega
      have hfree : ∀ j, j / 256 + 16 = B → ((ex j).isFixed = false ↔ Unplaced c G j) := by
        intro j hj
        rw [h.w.free_iff (u := j) ⟨by omega, by omega⟩]
        exact ⟨fun h => h.2, fun h => ⟨by omega, h⟩⟩
      have hmid := h.u.fix (units' := us.take (256 * B)) (un := un) (f := fun j => !(ex j).isFixed) hpos (by omega)
        (by rw [List.length_take, e2.units]; omega)
        (by
          rintro ⟨u, hu1, hu2⟩
          obtain ⟨j, hj1, hj2⟩ := unused_exists h.u h.w hne (b := B - 16) (by omega) (by omega) (by omega) hu2
          obtain ⟨a1, a2⟩ := e8 (by omega) ⟨j, by omega, hj2⟩
          have a3 := h.w.used un ⟨by omega, by omega⟩
          rw [a2] at a3
          simp only [Bool.false_eq_true, false_iff, not_or] at a3
          refine ⟨by omega, a3.1, fun x hx he => a3.2 ⟨x.2, by rw [← he]; exact hx⟩⟩)
        (by
          intro j hj1 hj2
          have hjb : j / 256 + 16 = B := by omega
          rw [List.getElem?_take, if_pos (by omega), e6, if_neg (by omega), if_pos ⟨hjb, (hfree j hjb).2 hj2⟩])
        (by
          intro j hj
          by_cases hlt : j < 256 * B
          · rw [List.getElem?_take, if_pos hlt, e6, if_neg (by omega), if_neg]
            rintro ⟨hj1, hj2⟩
            exact hj ⟨by omega, (hfree j hj1).1 hj2⟩
          · rw [List.getElem?_eq_none (by rw [List.length_take]; omega), List.getElem?_eq_none (by rw [h.ext.units]; omega)])
        (by
          intro j h1 h2
          rw [Bool.not_eq_true']
          exact hfree j (by omega))
      apply hmid.grow hpos e2.units
      · intro j hj
        rw [List.getElem?_take, if_pos hj]
      · intro j h1 h2
        rw [e6, if_pos ⟨h1, h2⟩]
  · -- window
    constructor
    · intro u hu
      rw [e4 u hu]
      by_cases hlt : u < 256 * B
      · rw [decide_eq_true hlt, Bool.true_and, h.w.fixed u ⟨hlt, by have := hu.2; omega⟩]
        have := hu.2
        constructor
        · rintro (h1 | h1)
          · omega
          · exact .inr h1
        · rintro (h1 | h1)
          · omega
          · exact .inr h1
      · rw [decide_eq_false hlt, Bool.false_and]
        simp only [Bool.false_eq_true, false_iff, not_or]
        refine ⟨by omega, by omega, ?_⟩
        rintro ⟨x, q, hk⟩
        exact hlt (h.u.kid_lt hk)
    · intro o ho
      rw [e5 o ho]
      by_cases hlt : o < 256 * B
      · rw [decide_eq_true hlt, Bool.true_and, h.w.used o ⟨hlt, by have := ho.2; omega⟩]
      · rw [decide_eq_false hlt, Bool.false_and]
        simp only [Bool.false_eq_true, false_iff, not_or]
        refine ⟨by omega, ?_⟩
        rintro ⟨s, hs⟩
        exact hlt (h.u.offs _ hs).2.1

/-! ## The list of children -/

/-- The word first written into the unit of a transition. -/
def kidWord (q : Pair) : Nat := if q.1 = 0 then leafWord (baseValue q.2) else q.1.toNat

theorem chain_spec {d : Dawg} {c r acc s g} (hd : DawgIs d c r) (hf : FinalCore c r acc) (hs : IsStart c.groups s g) :
    ∀ (n j fuel : Nat), j + n = g.length → 0 < n → n < fuel → d.chain fuel (s + j) = .ok ((List.range' j n).map (s + ·))
  | 0, _, _, _, h, _ => absurd h (by omega)
  | n + 1, j, 0, _, _, h => absurd h (by omega)
  | n + 1, j, fuel + 1, hj, _, hfu => by
    have hjl : j < g.length := by omega
    have hget : g[j]? = some g[j] := by simp [hjl]
    have hsib := hd.sibling_at hf hs hget
    rw [Dawg.chain]
    by_cases hn : n = 0
    · subst hn
      rw [if_neg (by omega)] at hsib
      rw [hsib]; simp
    · have hpos := hs.pos
      rw [if_pos (by omega)] at hsib
      rw [hsib]
      simp only [ok_bind]
      rw [if_neg (by omega), chain_spec hd hf hs n (j + 1) fuel (by omega) (by omega) (by omega)]
      simp [List.range'_succ]

theorem chain_full {d : Dawg} {c r acc s g} (hd : DawgIs d c r) (hf : FinalCore c r acc) (hs : IsStart c.groups s g) :
    d.chain (d.size + 1) s = .ok ((List.range' 0 g.length).map (s + ·)) := by
  have hlen : g.length < d.size + 1 := by
    have h1 := hs.bound
    have h2 := hs.pos
    have : u32 (poolLen c.groups) = poolLen c.groups := u32_of_lt (by have := hf.small; omega)
    have h3 : d.size = poolLen c.groups := by
      unfold Dawg.size
      rw [hd.base]
      simp only [List.length_cons, List.length_map, poolLen]
      have h4 := hf.small
      unfold poolLen at h4
      first | omega | (rw [u32_of_lt (by omega)]; omega)
    omega
  have := chain_spec hd hf hs g.length 0 (d.size + 1) (by omega) (List.length_pos_iff.2 (hf.cinv.ne _ hs.mem)) hlen
  simpa using this

theorem collect_spec {d : Dawg} {c r s g} (hd : DawgIs d c r) (hs : IsStart c.groups s g) :
    ∀ (n j : Nat), j + n = g.length → collectLabels d ((List.range' j n).map (s + ·)) = .ok ((g.drop j).map Prod.fst)
  | 0, j, h => by rw [List.drop_eq_nil_of_le (by omega)]; rfl
  | n + 1, j, h => by
    have hjl : j < g.length := by omega
    have hget : g[j]? = some g[j] := by simp [hjl]
    rw [List.range'_succ, List.map_cons, collectLabels, hd.label_at hs hget]
    simp only [ok_bind, collect_spec hd hs n (j + 1) (by omega), pure_eq_ok]
    rw [List.drop_eq_getElem_cons hjl, List.map_cons]

end Dawg.Dict
