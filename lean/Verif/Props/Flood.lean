import Verif.Proof.Builder.Flood
import Verif.Props.Builder
/-! # C103: how many slots of its hash table the builder looks at -/
namespace Dawg.Props
open Dawg Dawg.Spec Dawg.Client Dawg.Abs
attribute [-simp] List.length_flatten

/-- Every state in the hash table of the builder lies less than `K` slots after the one that its hash gives. -/
def WithinProbes (b : Builder) (K : Nat) : Prop :=
  ∀ j s, b.hashTable[j]? = some s → s ≠ 0 → ∃ h d, b.hashTransition s = .ok h ∧ d < K ∧ (h + d) % b.hashTable.length = j

/-- The full claim C103, for a bound `K`. -/
def C103_statement (K : Nat) : Prop := ∀ (n : Nat) (hist : List (Key × Int)) (b : Builder) (oks : List Bool), 1 ≤ n → n < 2 ^ 32 → Admissible hist →
  insertAll (Builder.newWithSize n) hist = .ok (b, oks) → WithinProbes b K

theorem findUnitLoop_from {db : Builder} {ui : Nat} (hl : db.hashTable.length < 4294967296) : ∀ {k h r j : Nat}, h < db.hashTable.length →
    db.findUnitLoop ui k h = .ok (r, j) → ∃ d, d < k ∧ (h + d) % db.hashTable.length = j
  | 0, h, r, j, _, e => by cases e
  | k + 1, h, r, j, hh, e => by
    have done : (r, h) = (r, j) → ∃ d, d < k + 1 ∧ (h + d) % db.hashTable.length = j := by
      intro e
      cases e
      exact ⟨0, by omega, Nat.mod_eq_of_lt hh⟩
    rw [Builder.findUnitLoop, bind_eq_ok] at e
    obtain ⟨t, e1, e2⟩ := e
    by_cases ht : t = 0
    · rw [if_pos ht] at e2
      simp only [pure_eq_ok, Except.ok.injEq, Prod.mk.injEq] at e2
      obtain ⟨rfl, rfl⟩ := e2
      exact done rfl
    · rw [if_neg ht, bind_eq_ok] at e2
      obtain ⟨q, e3, e4⟩ := e2
      cases q with
      | true =>
        simp only [if_true, pure_eq_ok, Except.ok.injEq, Prod.mk.injEq] at e4
        obtain ⟨rfl, rfl⟩ := e4
        exact done rfl
      | false =>
        simp only [Bool.false_eq_true, if_false, bind_eq_ok] at e4
        obtain ⟨h', e5, e6⟩ := e4
        have hh' : h' = (h + 1) % db.hashTable.length := by
          rw [u32_of_lt (by omega), u32_of_lt hl] at e5
          unfold md at e5
          rw [if_neg (by omega)] at e5
          cases e5
          rfl
        subst hh'
        obtain ⟨d, h1, h2⟩ := findUnitLoop_from hl (Nat.mod_lt _ (by omega)) e6
        refine ⟨d + 1, by omega, ?_⟩
        rw [Nat.mod_add_mod] at h2
        rw [← h2]
        congr 1
        omega

/-- **C103**, what the distance means: a search that is allowed to look at `k` slots only, and returns, ends less than `k` slots after the one that the hash gives.  So to find a state that
lies `d` slots away takes more than `d` looks. -/
theorem C103_search {db : Builder} {ui h k r j : Nat} (hl : db.hashTable.length < 2 ^ 32) (hh : h < db.hashTable.length) (e : db.findUnitLoop ui k h = .ok (r, j)) :
    ∃ d, d < k ∧ (h + d) % db.hashTable.length = j := findUnitLoop_from hl hh e

theorem insertAll_core {n : Nat} {hist : List (Key × Int)} (h1 : 1 ≤ n) (h2 : n < 2 ^ 32) (hadm : Admissible hist) (hne : hist ≠ []) :
    ∃ b, insertAll (Builder.newWithSize n) hist = .ok (b, verdicts [] hist) ∧ CoreRel b (runAbs St.init hist).core ∧ poolLen (runAbs St.init hist).core.groups < 4294967296 := by
  obtain ⟨b, e1, e2, _, _, e5, _⟩ := insertAll_new n h1 h2 hist hadm hne
  refine ⟨b, e1, e2.core, ?_⟩
  have := hadm.small
  unfold St.size at e5
  unfold total at e5
  omega

/-- **C103 is false** for every bound up to 19990, and for every size of the table: there are lexicons such that some state lies that far away.  With `m + 2` blocks of three keys, `m`
states have the same hash. -/
theorem C103_flood (m n : Nat) (hm : m ≤ 19990) (h1 : 1 ≤ n) (h2 : n < 2 ^ 32) :
    Admissible (flood (m + 2)) ∧ (flood (m + 2)).length = 3 * (m + 2) ∧
    ∃ b oks, insertAll (Builder.newWithSize n) (flood (m + 2)) = .ok (b, oks) ∧ ∀ K, WithinProbes b K → m ≤ K := by
  have hadm := flood_admissible (m := m + 2) (by omega)
  have hlen : ∀ m, (flood m).length = 3 * m := by
    intro m
    induction m with
    | zero => rfl
    | succ m ih =>
      rw [flood, List.length_append, ih]
      simp [floodBlock]
      omega
  have hne : flood (m + 2) ≠ [] := fun hc => by
    have := hlen (m + 2)
    rw [hc] at this
    simp at this
  obtain ⟨b, e1, hc, hsz⟩ := insertAll_core h1 h2 hadm hne
  refine ⟨hadm, hlen _, b, _, e1, fun K hK => ?_⟩
  have hgs := (flood_run m (by omega)).groups
  have hst : ∀ i, i < m → ∃ s d, IsStart (runAbs St.init (flood (m + 2))).core.groups s (floodG (i + 1)) ∧ d < K ∧
      slot b.hashTable ((Builder.hashPair 98 8 + d) % b.hashTable.length) = s := by
    intro i hi
    have hmem : floodG (i + 1) ∈ (runAbs St.init (flood (m + 2))).core.groups := by
      rw [hgs]
      exact List.mem_append_left _ (flood_mem hi)
    obtain ⟨pre, post, hsplit⟩ := List.append_of_mem hmem
    have his : IsStart (runAbs St.init (flood (m + 2))).core.groups (poolLen pre) (floodG (i + 1)) := ⟨pre, post, hsplit, rfl⟩
    obtain ⟨j, hj, hs⟩ := hc.table.cov (poolLen pre) (mem_starts.2 ⟨_, his⟩)
    obtain ⟨h, d, d1, d2, d3⟩ := hK j (poolLen pre) (by rw [← hs, slot_lt hj]; exact List.getElem?_eq_getElem hj) (Nat.pos_iff_ne_zero.1 his.pos)
    rw [hashTransition_spec hc hsz his, hashG_flood (by omega)] at d1
    cases d1
    exact ⟨poolLen pre, d, his, d2, by rw [d3, hs]⟩
  let f : Nat → Nat := fun i => if hi : i < m then Classical.choose (Classical.choose_spec (hst i hi)) else 0
  have hf : ∀ i, i < m → ∃ s, IsStart (runAbs St.init (flood (m + 2))).core.groups s (floodG (i + 1)) ∧ f i < K ∧
      slot b.hashTable ((Builder.hashPair 98 8 + f i) % b.hashTable.length) = s := by
    intro i hi
    simp only [f, dif_pos hi]
    exact ⟨_, Classical.choose_spec (Classical.choose_spec (hst i hi))⟩
  have hinj : ((List.range m).map f).Nodup := by
    unfold List.Nodup
    rw [List.pairwise_map]
    refine List.Pairwise.imp_of_mem ?_ (List.nodup_range (n := m))
    intro i j hi hj hij hfe
    obtain ⟨s, s1, _, s3⟩ := hf i (List.mem_range.1 hi)
    obtain ⟨t, t1, _, t3⟩ := hf j (List.mem_range.1 hj)
    rw [hfe, t3] at s3
    subst s3
    have := s1.unique t1 hc.ne
    rw [floodG_eq (by have := List.mem_range.1 hi; omega), floodG_eq (by have := List.mem_range.1 hj; omega)] at this
    simp at this
    omega
  have hsub : (List.range m).map f ⊆ List.range K := by
    intro x hx
    obtain ⟨i, hi, rfl⟩ := List.mem_map.1 hx
    obtain ⟨_, _, h, _⟩ := hf i (List.mem_range.1 hi)
    exact List.mem_range.2 h
  have := hinj.length_le_of_subset hsub
  simpa using this

/-- Different numbers have a sum that is not small. -/
theorem distinct_sum : ∀ (n : Nat) (l : List Nat), l.Nodup → l.length = n → n * (n - 1) ≤ 2 * l.sum
  | 0, _, _, _ => by simp
  | n + 1, l, hn, hl => by
    have hx : ∃ x ∈ l, n ≤ x := by
      refine Classical.byContradiction fun hc => ?_
      have : l ⊆ List.range n := fun x hx => List.mem_range.2 (Nat.lt_of_not_le fun h => hc ⟨x, hx, h⟩)
      have := hn.length_le_of_subset this
      rw [List.length_range] at this
      omega
    obtain ⟨x, hx, hxn⟩ := hx
    have hp := List.perm_cons_erase hx
    have ih := distinct_sum n (l.erase x) (hn.erase x) (by rw [List.length_erase_of_mem hx]; omega)
    have hs := hp.sum_nat
    rw [List.sum_cons] at hs
    rw [hs, Nat.add_sub_cancel]
    have : (n + 1) * n = n * (n - 1) + 2 * n := by
      cases n with
      | zero => rfl
      | succ n => simp only [Nat.add_sub_cancel, Nat.add_mul, Nat.mul_add]; omega
    omega

/-- **C103**, what that means for all of these states together: `m` of them have the same hash, and wherever they lie, the distances add up to at least `m (m - 1) / 2`.  So looking up each of them
once takes at least so many looks, by `C103_search`. -/
theorem C103_quadratic (m n : Nat) (hm : m ≤ 19990) (h1 : 1 ≤ n) (h2 : n < 2 ^ 32) :
    Admissible (flood (m + 2)) ∧ ∃ (b : Builder) (oks : List Bool) (h0 : Nat) (ts : List Nat), insertAll (Builder.newWithSize n) (flood (m + 2)) = .ok (b, oks) ∧ ts.Nodup ∧ ts.length = m ∧
      (∀ t ∈ ts, t ≠ 0 ∧ t ∈ b.hashTable ∧ b.hashTransition t = .ok h0) ∧
      ∀ dist : Nat → Nat, (∀ t ∈ ts, b.hashTable[(h0 + dist t) % b.hashTable.length]? = some t) → m * (m - 1) ≤ 2 * (ts.map dist).sum := by
  have hadm := flood_admissible (m := m + 2) (by omega)
  have hne : flood (m + 2) ≠ [] := by simp [flood, floodBlock]
  obtain ⟨b, e1, hc, hsz⟩ := insertAll_core h1 h2 hadm hne
  have hgs := (flood_run m (by omega)).groups
  have hst : ∀ i, ∃ s, i < m → IsStart (runAbs St.init (flood (m + 2))).core.groups s (floodG (i + 1)) := by
    intro i
    by_cases hi : i < m
    · have hmem : floodG (i + 1) ∈ (runAbs St.init (flood (m + 2))).core.groups := by
        rw [hgs]
        exact List.mem_append_left _ (flood_mem hi)
      obtain ⟨pre, post, hsplit⟩ := List.append_of_mem hmem
      exact ⟨poolLen pre, fun _ => ⟨pre, post, hsplit, rfl⟩⟩
    · exact ⟨0, fun h => absurd h hi⟩
  let f : Nat → Nat := fun i => Classical.choose (hst i)
  have hf : ∀ i, i < m → IsStart (runAbs St.init (flood (m + 2))).core.groups (f i) (floodG (i + 1)) := fun i => Classical.choose_spec (hst i)
  have hnd : ((List.range m).map f).Nodup := by
    unfold List.Nodup
    rw [List.pairwise_map]
    refine List.Pairwise.imp_of_mem ?_ (List.nodup_range (n := m))
    intro i j hi hj hij hfe
    have hi := List.mem_range.1 hi
    have hj := List.mem_range.1 hj
    have := (hf i hi).unique (hfe ▸ hf j hj) hc.ne
    rw [floodG_eq (by omega), floodG_eq (by omega)] at this
    simp at this
    omega
  refine ⟨hadm, b, _, Builder.hashPair 98 8, (List.range m).map f, e1, hnd, by simp, ?_, ?_⟩
  · intro t ht
    obtain ⟨i, hi, rfl⟩ := List.mem_map.1 ht
    have hi := List.mem_range.1 hi
    refine ⟨Nat.pos_iff_ne_zero.1 (hf i hi).pos, ?_, by rw [hashTransition_spec hc hsz (hf i hi), hashG_flood (by omega)]⟩
    obtain ⟨j, hj, hs⟩ := hc.table.cov (f i) (mem_starts.2 ⟨_, hf i hi⟩)
    rw [← hs, slot_lt hj]
    exact List.getElem_mem hj
  · intro dist hdist
    refine distinct_sum m _ ?_ (by simp)
    unfold List.Nodup at hnd ⊢
    rw [List.pairwise_map]
    refine List.Pairwise.imp_of_mem ?_ hnd
    intro s t hs ht hst he
    have e3 := hdist s hs
    rw [he, hdist t ht] at e3
    exact hst (Option.some.inj e3).symm

theorem C103_bounded_false (K : Nat) (hK : K < 19990) : ¬ C103_statement K := by
  intro hst
  obtain ⟨hadm, _, b, oks, e1, e2⟩ := C103_flood (K + 1) 256 (by omega) (by omega) (by decide)
  have := e2 K (hst 256 _ b oks (by omega) (by decide) hadm e1)
  omega

/-- Slots one after the other that are all occupied are no more than there are entries. -/
theorem run_le_entries {t S : List Nat} {h : Nat → Nat} (hi : TableInv t S h) {s d : Nat} (hd : d ≤ t.length) (hfull : ∀ e, e < d → slot t ((s + e) % t.length) ≠ 0) : d ≤ S.length := by
  by_cases hd0 : d = 0
  · omega
  have hinj : ((List.range d).map fun e => slot t ((s + e) % t.length)).Nodup := by
    unfold List.Nodup
    rw [List.pairwise_map]
    refine List.Pairwise.imp_of_mem ?_ (List.nodup_range (n := d))
    intro i j hi' hj' hij he
    have h1 := List.mem_range.1 hi'
    have h2 := List.mem_range.1 hj'
    have := hi.probing.inj _ _ (Nat.mod_lt _ (by omega)) (Nat.mod_lt _ (by omega)) (hfull i h1) he
    exact hij (add_mod_inj (by omega) (by omega) this)
  have hsub : ((List.range d).map fun e => slot t ((s + e) % t.length)) ⊆ S := by
    intro x hx
    obtain ⟨e, he, rfl⟩ := List.mem_map.1 hx
    exact hi.sub _ (Nat.mod_lt _ (by omega)) (hfull e (List.mem_range.1 he))
  simpa using hinj.length_le_of_subset hsub

/-- A search that meets an empty slot after `d` others needs no more than `d + 1` looks. -/
theorem findUnitLoop_limit {db : Builder} {ui : Nat} (hl : db.hashTable.length < 4294967296) : ∀ {d h k k' : Nat}, h < db.hashTable.length →
    slot db.hashTable ((h + d) % db.hashTable.length) = 0 → d < k → d < k' → db.findUnitLoop ui k h = db.findUnitLoop ui k' h
  | d, h, 0, _, _, _, hk, _ => absurd hk (by omega)
  | d, h, _, 0, _, _, _, hk => absurd hk (by omega)
  | d, h, k + 1, k' + 1, hh, hz, hk, hk' => by
    rw [Builder.findUnitLoop, Builder.findUnitLoop, rd_lt hh, ok_bind]
    by_cases ht : db.hashTable[h] = 0
    · simp only [if_pos ht, ok_bind]
    · simp only [if_neg ht]
      cases d with
      | zero =>
        rw [Nat.add_zero, Nat.mod_eq_of_lt hh, slot_lt hh] at hz
        exact absurd hz ht
      | succ d =>
        rw [u32_of_lt (show h + 1 < 4294967296 by omega), u32_of_lt hl, md_pos (by omega)]
        simp only [ok_bind]
        rw [findUnitLoop_limit hl (d := d) (h := (h + 1) % db.hashTable.length) (Nat.mod_lt _ (by omega)) (by
          rw [Nat.mod_add_mod, show h + 1 + d = h + (d + 1) by omega]; exact hz) (show d < k by omega) (show d < k' by omega), if_neg ht]

/-- **C103**, what holds: the number of looks is at most the number of states that the automaton has so far (with its root).  The states lie within that distance, and a search for any
chain of units, from any slot, may be broken off after so many looks without a different result.  Missing to C103: a bound that does not grow with the number of states. -/
theorem C103_worst_partial (n : Nat) (h1 : 1 ≤ n) (h2 : n < 2 ^ 32) (hist : List (Key × Int)) (hadm : Admissible hist) (hne : hist ≠ []) {b : Builder} {oks : List Bool}
    (hi : insertAll (Builder.newWithSize n) hist = .ok (b, oks)) :
    WithinProbes b b.numOfStates ∧ ∀ ui h, h < b.hashTable.length → ∀ k, b.numOfStates ≤ k → b.findUnitLoop ui k h = b.findUnitLoop ui b.numOfStates h := by
  obtain ⟨c, e1, hc, hsz⟩ := insertAll_core h1 h2 hadm hne
  rw [hi] at e1
  simp only [Except.ok.injEq, Prod.mk.injEq] at e1
  obtain ⟨rfl, _⟩ := e1
  have hn := hc.states
  have hroom := hc.room
  constructor
  · intro j s hs hs0
    obtain ⟨hj, hs'⟩ := List.getElem?_eq_some_iff.1 hs
    have hsl : slot b.hashTable j = s := by rw [slot_lt hj, hs']
    have hmem := hc.table.sub j hj (by rw [hsl]; exact hs0)
    rw [hsl] at hmem
    obtain ⟨g, hg⟩ := mem_starts.1 hmem
    obtain ⟨d, d1, d2⟩ := reach (s := hashG g) hj
    have d3 := hc.table.probing.path j hj (by rw [hsl]; exact hs0) d d1
    rw [hsl, hg.groupAt hc.ne] at d3
    replace d3 := d3 d2
    refine ⟨hashG g, d, hashTransition_spec hc hsz hg, ?_, d2⟩
    have := run_le_entries hc.table (Nat.le_of_lt d1) d3
    rw [starts_length] at this
    omega
  · intro ui h hh k hk
    obtain ⟨d, d1, d2, d3⟩ := hc.table.free_slot (by rw [starts_length]; exact hroom) h
    have := run_le_entries hc.table (Nat.le_of_lt d1) d3
    rw [starts_length] at this
    exact findUnitLoop_limit hc.htlen hh d2 (by omega) (by omega)

/-- Four blocks already give two states with the same hash. -/
example : (flood 4).map Prod.fst = [[120], [120, 97], [120, 98], [121, 120], [121, 120, 97], [121, 120, 98], [121, 121, 120], [121, 121, 120, 97], [121, 121, 120, 98],
    [121, 121, 121, 120], [121, 121, 121, 120, 97], [121, 121, 121, 120, 98]] ∧
    hashG (floodG 1) = hashG (floodG 2) ∧ floodG 1 ≠ floodG 2 := by decide +kernel

/-- A thousand blocks make some state lie at least 998 slots away, in the default table. -/
example : ∃ b oks, insertAll Builder.new (flood 1000) = .ok (b, oks) ∧ ¬ WithinProbes b 997 := by
  obtain ⟨_, _, b, oks, e1, e2⟩ := C103_flood 998 256 (by omega) (by omega) (by decide)
  exact ⟨b, oks, e1, fun h => by have := e2 _ h; omega⟩

/-- The same with the sum: looking up 10000 states takes 49995000 steps beyond the first slot. -/
example : ∃ (b : Builder) (oks : List Bool) (h0 : Nat) (ts : List Nat), insertAll Builder.new (flood 10002) = .ok (b, oks) ∧ ts.length = 10000 ∧ (∀ t ∈ ts, b.hashTransition t = .ok h0) ∧
    ∀ dist : Nat → Nat, (∀ t ∈ ts, b.hashTable[(h0 + dist t) % b.hashTable.length]? = some t) → 49995000 ≤ (ts.map dist).sum := by
  obtain ⟨_, b, oks, h0, ts, e1, _, e2, e3, e4⟩ := C103_quadratic 10000 256 (by omega) (by omega) (by decide)
  exact ⟨b, oks, h0, ts, e1, e2, fun t ht => (e3 t ht).2.2, fun dist h => by have := e4 dist h; omega⟩

end Dawg.Props
