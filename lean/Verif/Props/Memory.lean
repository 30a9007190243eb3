import Verif.Proof.Builder.Memory
import Verif.Props.Builder
/-! # C94: how much memory the builder uses -/
namespace Dawg.Props
open Dawg Dawg.Spec Dawg.Client Dawg.Abs
attribute [-simp] List.length_flatten

theorem degree_le {keys : List Key} (p : Key) : degree keys p ≤ 256 := by
  unfold degree
  exact Nat.le_trans (List.length_filter_le _ _) (by simp)

theorem openPath_le {keys : List Key} {L : Nat} (h : ∀ k ∈ keys, k.length ≤ L) : openPath keys ≤ 256 * (L + 1) := by
  unfold openPath
  cases hl : keys.getLast? with
  | none => simp
  | some k =>
    have hk := h k (List.mem_of_getLast? hl)
    have : ∀ n, ((List.range n).map (fun i => degree keys (k.take i))).sum ≤ 256 * n := by
      intro n
      induction n with
      | zero => simp
      | succ n ih =>
        rw [List.range_succ, List.map_append, List.sum_append]
        have := degree_le (keys := keys) (k.take n)
        simp; omega
    exact Nat.le_trans (this _) (by omega)

theorem add_keys {acc : List (Key × Int)} {k : Key} {v : Int} {e : Key × Int} (h : e ∈ add acc k v) : e ∈ acc ∨ e = (k, v) := by
  unfold add at h
  split at h
  · simpa using Or.inr h
  · split at h
    · exact .inl h
    · split at h
      · rcases List.mem_append.1 h with h | h
        · exact .inl ((List.dropLast_subset _) h)
        · exact .inr (by simpa using h)
      · rcases List.mem_append.1 h with h | h
        · exact .inl h
        · exact .inr (by simpa using h)

theorem peakFrom_le {L : Nat} : ∀ {hist acc : List (Key × Int)}, (∀ e ∈ acc, e.1.length ≤ L) → (∀ e ∈ hist, e.1.length ≤ L) → peakFrom acc hist ≤ 256 * (L + 1)
  | [], acc, h1, _ => openPath_le (by
      intro k hk
      obtain ⟨e, he, rfl⟩ := List.mem_map.1 hk
      exact h1 e he)
  | e :: hist, acc, h1, h2 => by
    have a := openPath_le (keys := acc.map Prod.fst) (L := L) (by
      intro k hk
      obtain ⟨e, he, rfl⟩ := List.mem_map.1 hk
      exact h1 e he)
    have b := peakFrom_le (L := L) (hist := hist) (acc := add acc e.1 e.2) (by
      intro x hx
      rcases add_keys hx with hx | rfl
      · exact h1 x hx
      · exact h2 e (by simp)) (fun x hx => h2 x (by simp [hx]))
    simp only [peakFrom]; omega

/-- C94: whatever the keys inserted so far, the builder has as many units as the states on the path of one key have had transitions at some time (and one for the
root), no unit is lost, and the stack has one element for each byte of the last accepted key (and two for the root and the end of the key). -/
theorem C94_units (n : Nat) (h1 : 1 ≤ n) (h2 : n < 2 ^ 32) (hist : List (Key × Int)) (hadm : Admissible hist) (hne : hist ≠ []) {b : Builder} {oks : List Bool}
    (h : insertAll (Builder.newWithSize n) hist = .ok (b, oks)) :
    b.unitPool.length = 1 + peakFrom [] hist ∧
    b.unitPool.length = 1 + openPath ((accepted hist).map Prod.fst) + b.unusedUnits.length ∧
    ∃ k v, (accepted hist).getLast? = some (k, v) ∧ b.unfixedUnits.length = k.length + 2 := by
  obtain ⟨b', e1, e2, e3, e4, e5, e6⟩ := insertAll_new n h1 h2 hist hadm hne
  rw [h] at e1
  simp only [Except.ok.injEq, Prod.mk.injEq] at e1
  obtain ⟨rfl, _⟩ := e1
  refine ⟨(run_memory n h1 h2 hist hadm hne h).2, ?_, ?_⟩
  · have := e2.units_count
    rwa [e3.edges, map_wordE_fst] at this
  · have hs := e2.stack_length
    rcases e3.acc with ⟨_, _, _, h4⟩ | ⟨fs, P, f1, f2, f3, f4⟩
    · exfalso
      have hacc : accepted hist = [] := by simpa using h4
      obtain ⟨e, hist', rfl⟩ := List.exists_cons_of_ne_nil hne
      have hk : ∀ (hist acc : List (Key × Int)), acc ≠ [] → hist.foldl (fun acc e => add acc e.1 e.2) acc ≠ [] := by
        intro hist
        induction hist with
        | nil => exact fun _ h => h
        | cons x hist ih =>
          intro acc ha
          refine ih _ ?_
          show add acc x.1 x.2 ≠ []
          unfold add
          split
          · simp
          · split
            · exact ha
            · split <;> simp
      exact hk hist' (add [] e.1 e.2) (by simp [add]) hacc
    · cases hl : (accepted hist).getLast? with
      | none =>
        rw [List.getLast?_eq_none_iff] at hl
        rw [hl] at f4; simp at f4
      | some kv =>
        obtain ⟨k, v⟩ := kv
        refine ⟨k, v, rfl, ?_⟩
        have hg := congrArg (fun l => l.getLast?.map Prod.fst) f4
        simp only [List.getLast?_map, hl, List.getLast?_append, List.getLast?_singleton, Option.some_or, Option.map_some, Option.some.injEq, wordE] at hg
        rw [hs, f1, hg]
        simp [path]

/-- With keys of at most `L` bytes, the builder has at most 256 (L + 1) units, however many keys there are. -/
theorem C94_bound (n : Nat) (h1 : 1 ≤ n) (h2 : n < 2 ^ 32) (hist : List (Key × Int)) (hadm : Admissible hist) (hne : hist ≠ []) {b : Builder} {oks : List Bool}
    (h : insertAll (Builder.newWithSize n) hist = .ok (b, oks)) {L : Nat} (hL : ∀ e ∈ hist, e.1.length ≤ L) :
    b.unitPool.length ≤ 1 + 256 * (L + 1) ∧ b.unusedUnits.length ≤ 256 * (L + 1) ∧ b.unfixedUnits.length ≤ L + 2 := by
  obtain ⟨r1, r2, k, v, r3, r4⟩ := C94_units n h1 h2 hist hadm hne h
  have hp := peakFrom_le (L := L) (hist := hist) (acc := []) (by simp) hL
  have hacc : ∀ (hist acc : List (Key × Int)), (∀ e ∈ acc, e.1.length ≤ L) → (∀ e ∈ hist, e.1.length ≤ L) →
      ∀ e ∈ hist.foldl (fun acc e => add acc e.1 e.2) acc, e.1.length ≤ L := by
    intro hist
    induction hist with
    | nil => exact fun _ h _ => h
    | cons x hist ih =>
      intro acc ha hh
      refine ih _ ?_ (fun e he => hh e (by simp [he]))
      intro e he
      rcases add_keys he with he | rfl
      · exact ha e he
      · exact hh x (by simp)
  have hk := hacc hist [] (by simp) hL (k, v) (List.mem_of_getLast? r3)
  simp only at hk
  refine ⟨by omega, by omega, by omega⟩

/-- The hash table has its initial length times a power of two; unless it still has its initial length, it is at most 8/3 times as long as the finished automaton
has states; less than three quarters of it are occupied.  This is so after each insertion (`b`), and when `Finish` has closed the last states (`b'`). -/
theorem C94_table (n : Nat) (h1 : 1 ≤ n) (h2 : n < 2 ^ 32) (hist : List (Key × Int)) (hadm : Admissible hist) (hne : hist ≠ []) {b : Builder} {oks : List Bool}
    (h : insertAll (Builder.newWithSize n) hist = .ok (b, oks)) :
    ∃ b' b'' d, b.fixUnits 0 = .ok b' ∧ b.finish = .ok (b'', d) ∧ b'.unitPool.length = b.unitPool.length ∧
      ∀ x, x = b ∨ x = b' → (∃ j, x.hashTable.length = n * 2 ^ j) ∧ (x.hashTable.length = n ∨ 3 * x.hashTable.length ≤ 8 * d.numOfStates) ∧
        4 * x.hashTable.countP (fun i => i != 0) < 3 * x.hashTable.length := by
  obtain ⟨c, e1, e2, e3, e4, e5, e6⟩ := insertAll_new n h1 h2 hist hadm hne
  rw [h] at e1
  simp only [Except.ok.injEq, Prod.mk.injEq] at e1
  obtain ⟨rfl, _⟩ := e1
  have hsz : (runAbs St.init hist).size ≤ 1073741824 := by
    have := hadm.small
    simp only [total] at e5; omega
  obtain ⟨t1, t2⟩ := run_memory n h1 h2 hist hadm hne h
  obtain ⟨hs, used, hseg, hinv, hstack⟩ := e2.units
  have hnd : (0 :: used).Nodup := by
    have := hinv.nodup
    simp only [List.nodup_cons, List.mem_append, not_or, List.nodup_append] at this ⊢
    exact ⟨this.1.1, this.2.1⟩
  obtain ⟨b1, hfix, hcl⟩ := fixLoop_spec _ b _ 0 _ hs used [] (b.unfixedUnits.length + 1) e2.core hseg hnd e2.desc
    hstack hsz (by rw [hstack]; simp [hseg.heads_length]; omega)
  obtain ⟨b2, d, f1, f2, _, _⟩ := finish_spec e2 e4 hsz
  obtain ⟨l1, l2, l3, l4⟩ := fixLoop_len _ _ _ _ t1 e4 hfix
  have hd : d.numOfStates = b1.numOfStates := by
    rw [f2.states, hcl.core.states]; rfl
  refine ⟨b1, b2, d, hfix, f1, l3, ?_⟩
  rintro x (rfl | rfl)
  · refine ⟨t1.1, ?_, ?_⟩
    · rcases t1.2.1 with h | h
      · exact .inl h
      · right; omega
    · have a := e2.core.count
      have c := t1.2.2
      omega
  · refine ⟨l1.1, ?_, ?_⟩
    · rcases l1.2.1 with h | h
      · exact .inl h
      · right; omega
    · have a := hcl.core.count
      have c := l1.2.2
      omega

/-- "abcd" and then "b", twice: five units are needed for "abcd", three for "b" (two transitions at the root). -/
def twoKeys : List (Key × Int) := [([97, 98, 99, 100], 1), ([98], 2), ([98], 3)]

example : peakFrom [] twoKeys = 5 ∧ openPath ((accepted twoKeys).map Prod.fst) = 3 ∧ peakFrom [] sample = 5 := by decide +kernel

/-- Units, units on the free list, stack, length of the hash table, occupied slots. -/
def statsOf (r : Go (Builder × List Bool)) : Option (List Nat) :=
  match r with
  | .ok (b, _) => some [b.unitPool.length, b.unusedUnits.length, b.unfixedUnits.length, b.hashTable.length, b.hashTable.countP (fun i => i != 0)]
  | .error _ => none

example : statsOf (insertAll (Builder.newWithSize 2) twoKeys) = some [6, 2, 3, 8, 4] ∧ statsOf (insertAll (Builder.newWithSize 2) sample) = some [6, 0, 4, 8, 4] := by
  decide +kernel

end Dawg.Props
