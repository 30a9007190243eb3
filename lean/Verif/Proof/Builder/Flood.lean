import Verif.Proof.Builder.Final
/-! # A lexicon whose states have all the same hash

The hash of a state is the exclusive or of the hashes of its transitions, and the hash of a transition is that of the exclusive or of its base word and its label shifted to the left by 24.
If the value of a key is chosen such that the words of the transition with label 0 and of the transition with label 'a' are equal, the two cancel out. -/
namespace Dawg.Abs
attribute [-simp] List.length_flatten
open Dawg.Spec

/-- The value that cancels out the transition with label 'a' to index `4 i + 2`. -/
def floodVal (i : Nat) : Nat := 813694976 + 2 * (4 * i + 2)

/-- y…yx, y…yxa and y…yxb with `i` times y. -/
def floodBlock (i : Nat) : List (Key × Int) :=
  [(List.replicate i 121 ++ [120], (floodVal i : Int)), (List.replicate i 121 ++ [120, 97], (i : Int) + 1), (List.replicate i 121 ++ [120, 98], 0)]

/-- The first `m` blocks. -/
def flood : Nat → List (Key × Int)
  | 0 => []
  | m + 1 => flood m ++ floodBlock m

/-! ## The groups -/

def leafG (w : Nat) : Group := encNode 0 w []
def floodG (i : Nat) : Group := encNode 98 2 [⟨97, 4 * i + 2⟩, ⟨0, floodVal i⟩]
def floodG0 : Group := encNode 98 2 [⟨97, 1⟩, ⟨0, floodVal 0⟩]

def floodGs : Nat → List Group
  | 0 => [leafG 1, leafG 0, floodG0]
  | k + 1 => floodGs k ++ [leafG (k + 2), floodG (k + 1)]

theorem leafG_eq {w : Nat} (h : w < 2147483648) : leafG w = [(0, 2 * w)] := by
  unfold leafG encNode baseOf DawgUnit.base
  simp [encClosed, u32, Nat.shiftLeft_eq]
  omega

theorem floodG_eq {i : Nat} (h : i < 1000000) : floodG i = [(0, 2 * floodVal i + 1), (97, 16 * i + 9), (98, 8)] := by
  have e1 : u32 (floodVal i <<< 1) ||| 1 = 2 * floodVal i + 1 := by
    have : u32 (floodVal i <<< 1) = floodVal i <<< 1 := by
      rw [u32_of_lt]
      rw [Nat.shiftLeft_eq]
      unfold floodVal
      omega
    rw [this, ← Nat.shiftLeft_add_eq_or_of_lt (by decide), Nat.shiftLeft_eq]
    omega
  have e2 : u32 ((4 * i + 2) <<< 2) ||| 1 = 16 * i + 9 := by
    have : u32 ((4 * i + 2) <<< 2) = (4 * i + 2) <<< 2 := by
      rw [u32_of_lt]
      rw [Nat.shiftLeft_eq]
      omega
    rw [this, ← Nat.shiftLeft_add_eq_or_of_lt (by decide), Nat.shiftLeft_eq]
    omega
  unfold floodG encNode baseOf DawgUnit.base
  simp [encClosed, e1, e2, baseOf, DawgUnit.base]
  decide

theorem floodG0_eq : floodG0 = [(0, 2 * floodVal 0 + 1), (97, 5), (98, 8)] := by decide

theorem flood_word {i : Nat} (h : i < 1000000) : u32 ((97 : UInt8).toNat <<< 24) ^^^ (16 * i + 9) = 2 * floodVal i + 1 := by
  have e : u32 ((97 : UInt8).toNat <<< 24) = 97 * 2 ^ 24 := by decide
  rw [e]
  have h1 : (97 * 2 ^ 24 ^^^ (16 * i + 9)) / 2 ^ 24 = 97 := by
    rw [Nat.xor_div_two_pow, Nat.mul_div_cancel _ (by decide), Nat.div_eq_of_lt (by omega)]
    rfl
  have h2 : (97 * 2 ^ 24 ^^^ (16 * i + 9)) % 2 ^ 24 = 16 * i + 9 := by
    rw [Nat.xor_mod_two_pow, Nat.mul_mod_left, Nat.zero_xor, Nat.mod_eq_of_lt (by omega)]
  have := Nat.div_add_mod (97 * 2 ^ 24 ^^^ (16 * i + 9)) (2 ^ 24)
  rw [h1, h2] at this
  unfold floodVal
  omega

/-- They all have the same hash. -/
theorem hashG_flood {i : Nat} (h : i < 1000000) : hashG (floodG i) = Builder.hashPair 98 8 := by
  rw [floodG_eq h]
  have e1 : Builder.hashPair 97 (16 * i + 9) = Builder.hashPair 0 (2 * floodVal i + 1) := by
    have e0 : u32 ((0 : UInt8).toNat <<< 24) ^^^ (2 * floodVal i + 1) = 2 * floodVal i + 1 := by
      rw [show u32 ((0 : UInt8).toNat <<< 24) = 0 from by decide, Nat.zero_xor]
    generalize hw : 2 * floodVal i + 1 = w at e0
    have hf := flood_word h
    rw [hw] at hf
    unfold Builder.hashPair
    rw [hf, e0]
  unfold hashG
  rw [List.foldr_cons, List.foldr_cons, List.foldr_cons, List.foldr_nil]
  generalize Builder.hashPair 97 (16 * i + 9) = a at *
  generalize Builder.hashPair 0 (2 * floodVal i + 1) = b at *
  generalize Builder.hashPair 98 8 = c at *
  subst e1
  rw [← Nat.xor_assoc, Nat.xor_self, Nat.zero_xor, Nat.xor_zero]

theorem floodGs_len : ∀ k, k < 1000000 → poolLen (floodGs k) = 4 * k + 6
  | 0, _ => by decide
  | k + 1, h => by
    rw [floodGs, poolLen_append, floodGs_len k (by omega), leafG_eq (by omega), floodG_eq h]
    simp
    omega

theorem mem_floodGs {g : Group} : ∀ {k}, g ∈ floodGs k → g = leafG 1 ∨ g = leafG 0 ∨ g = floodG0 ∨ ∃ i, i < k ∧ (g = leafG (i + 2) ∨ g = floodG (i + 1))
  | 0, h => by
    simp only [floodGs, List.mem_cons, List.not_mem_nil, or_false] at h
    rcases h with h | h | h <;> simp [h]
  | k + 1, h => by
    rw [floodGs, List.mem_append] at h
    rcases h with h | h
    · rcases mem_floodGs h with h | h | h | ⟨i, hi, h⟩
      · exact .inl h
      · exact .inr (.inl h)
      · exact .inr (.inr (.inl h))
      · exact .inr (.inr (.inr ⟨i, by omega, h⟩))
    · simp only [List.mem_cons, List.not_mem_nil, or_false] at h
      exact .inr (.inr (.inr ⟨k, by omega, h⟩))

theorem flood_mem : ∀ {k i}, i < k → floodG (i + 1) ∈ floodGs k
  | 0, i, h => by omega
  | k + 1, i, h => by
    rw [floodGs, List.mem_append]
    by_cases hi : i = k
    · subst hi
      simp
    · exact .inl (flood_mem (by omega))

theorem leaf_new {k : Nat} (h : k < 1000000) : leafG (k + 2) ∉ floodGs k := by
  intro hm
  rw [leafG_eq (by omega)] at hm
  rcases mem_floodGs hm with h1 | h1 | h1 | ⟨i, hi, h1 | h1⟩
  · rw [leafG_eq (by omega)] at h1
    simp at h1
    omega
  · rw [leafG_eq (by omega)] at h1
    simp at h1
  · rw [floodG0_eq] at h1
    simp at h1
  · rw [leafG_eq (by omega)] at h1
    simp at h1
    omega
  · rw [floodG_eq (by omega)] at h1
    simp at h1

theorem flood_new {k : Nat} (h : k + 1 < 1000000) : floodG (k + 1) ∉ floodGs k ++ [leafG (k + 2)] := by
  intro hm
  rw [floodG_eq h, List.mem_append, List.mem_singleton] at hm
  rcases hm with hm | hm
  · rcases mem_floodGs hm with h1 | h1 | h1 | ⟨i, hi, h1 | h1⟩
    · rw [leafG_eq (by omega)] at h1
      simp at h1
    · rw [leafG_eq (by omega)] at h1
      simp at h1
    · rw [floodG0_eq] at h1
      simp at h1
    · rw [leafG_eq (by omega)] at h1
      simp at h1
    · rw [floodG_eq (by omega)] at h1
      simp at h1
      omega
  · rw [leafG_eq (by omega)] at hm
    simp at hm

theorem findStart_new {g : Group} : ∀ {gs : List Group} {s : Nat}, g ∉ gs → findStart g s gs = none
  | [], _, _ => rfl
  | g' :: gs, s, h => by
    rw [findStart, if_neg (fun e => h (by simp [e])), findStart_new (fun hm => h (by simp [hm]))]

theorem findStart_append {g : Group} {i : Nat} : ∀ {gs hs : List Group} {s : Nat}, findStart g s gs = some i → findStart g s (gs ++ hs) = some i
  | [], _, _, h => by cases h
  | g' :: gs, hs, s, h => by
    rw [findStart] at h
    rw [List.cons_append, findStart]
    by_cases hg : g' = g
    · rw [if_pos hg] at h ⊢
      exact h
    · rw [if_neg hg] at h ⊢
      exact findStart_append h

theorem leaf0_start : ∀ k, findStart (leafG 0) 1 (floodGs k) = some 2
  | 0 => by decide
  | k + 1 => findStart_append (leaf0_start k)

/-! ## The run -/

theorem walk_spine {c : Core} {v : Nat} {ks : List UInt8} {down : List Frame} : ∀ {fs up : List Frame}, (∀ f ∈ fs, f.label = 121) →
    walk c v (List.replicate fs.length 121 ++ ks) (fs ++ down) up = walk c v ks down (fs.reverse ++ up)
  | [], up, _ => rfl
  | f :: fs, up, h => by
    have hf : f.label = 121 := h f (by simp)
    rw [List.length_cons, List.replicate_succ, List.cons_append, List.cons_append, walk, hf, if_neg (by decide), if_neg (by decide), walk_spine (fun g hg => h g (by simp [hg]))]
    simp

/-- The state after block `m + 1`. -/
structure FloodInv (m : Nat) (s : St) : Prop where
  groups : s.core.groups = floodGs m ++ [leafG (m + 2)]
  val : s.val = 0
  frames : ∃ fs : List Frame, s.frames = ⟨[], 0⟩ :: ⟨[⟨97, 4 * (m + 1) + 2⟩, ⟨0, floodVal (m + 1)⟩], 98⟩ :: ⟨[], 120⟩ :: fs ∧ fs.length = m + 1 ∧ ∀ f ∈ fs, f.label = 121

theorem flood_first : FloodInv 0 (runAbs St.init (flood 2)) := by
  refine ⟨by decide +kernel, by decide +kernel, [⟨[⟨120, 3⟩], 121⟩], by decide +kernel, rfl, by simp⟩

theorem value_word {n : Nat} (h : n < 4294967296) : baseOfValue (n : Int) = n := by
  unfold baseOfValue
  omega

theorem flood_step {m : Nat} (hm : m + 2 < 1000000) {s : St} (h : FloodInv m s) : FloodInv (m + 1) (runAbs s (floodBlock (m + 2))) := by
  obtain ⟨⟨gs, mg, mk⟩, frames, val⟩ := s
  obtain ⟨e1, e2, fs, e3, e4, e5⟩ := h
  simp only at e1 e2 e3
  subst e1 e2 e3
  have hr : ∀ (ks : List UInt8) (n : Nat) (down : List Frame) (c : Core) (v : Nat) (up gs : List Frame), gs.length = n → (∀ f ∈ gs, f.label = 121) →
      walk c v (List.replicate n 121 ++ ks) (gs.reverse ++ down) up = walk c v ks down (gs ++ up) := by
    intro ks n down c v up gs hl hg
    have := walk_spine (c := c) (v := v) (ks := ks) (down := down) (fs := gs.reverse) (up := up) (fun f hf => hg f (List.mem_reverse.1 hf))
    rw [List.length_reverse, hl, List.reverse_reverse] at this
    exact this
  have hl0 : findStart (leafG 0) 1 (floodGs m ++ [leafG (m + 2)]) = some 2 := findStart_append (leaf0_start m)
  have hG : findStart (floodG (m + 1)) 1 (floodGs m ++ [leafG (m + 2)]) = none := findStart_new (flood_new (by omega))
  have hL : findStart (leafG (m + 3)) 1 (floodGs (m + 1)) = none := findStart_new (leaf_new (k := m + 1) (by omega))
  have hgs : floodGs m ++ [leafG (m + 2)] ++ [floodG (m + 1)] = floodGs (m + 1) := by rw [floodGs]; simp
  have hv1 : baseOfValue ((floodVal (m + 2) : Nat) : Int) = floodVal (m + 2) := value_word (by unfold floodVal; omega)
  have hv2 : baseOfValue (((m + 2 : Nat) : Int) + 1) = m + 3 := value_word (n := m + 3) (by omega)
  have hv3 : baseOfValue 0 = 0 := by decide
  obtain ⟨mk', h1⟩ : ∃ mk', St.insert ⟨⟨floodGs m ++ [leafG (m + 2)], mg, mk⟩,
      ⟨[], 0⟩ :: ⟨[⟨97, 4 * (m + 1) + 2⟩, ⟨0, floodVal (m + 1)⟩], 98⟩ :: ⟨[], 120⟩ :: fs, 0⟩ (List.replicate (m + 2) 121 ++ [120] ++ [0]) (floodVal (m + 2)) =
      (⟨⟨floodGs (m + 1), mg + 1, mk'⟩,
         ⟨[], 0⟩ :: ⟨[], 120⟩ :: ⟨[⟨120, poolLen (floodGs m ++ [leafG (m + 2)])⟩], 121⟩ :: fs, floodVal (m + 2)⟩, true) := by
    refine ⟨if 2 ∈ mk then mk else 2 :: mk, ?_⟩
    unfold St.insert
    simp only [List.reverse_cons, List.append_assoc, List.cons_append, List.nil_append]
    rw [show List.replicate (m + 2) (121 : UInt8) ++ [120, 0] = List.replicate (m + 1) 121 ++ [121, 120, 0] by rw [List.replicate_succ']; simp, hr _ _ _ _ _ _ _ e4 e5, walk]
    simp only
    rw [if_neg (by decide), if_pos (by decide)]
    simp only [List.reverse_cons, List.reverse_nil, List.nil_append, List.cons_append, closeFrames]
    have p1 : Core.put ⟨floodGs m ++ [leafG (m + 2)], mg, mk⟩ (encNode 0 0 []) =
        (⟨floodGs m ++ [leafG (m + 2)], mg + 1, if 2 ∈ mk then mk else 2 :: mk⟩, 2) := by
      unfold Core.put
      simp only
      rw [show encNode 0 0 [] = leafG 0 from rfl, hl0]
      rfl
    rw [p1]
    have p2 : Core.put ⟨floodGs m ++ [leafG (m + 2)], mg + 1, if 2 ∈ mk then mk else 2 :: mk⟩
        (encNode 98 2 [⟨97, 4 * (m + 1) + 2⟩, ⟨0, floodVal (m + 1)⟩]) =
        (⟨floodGs (m + 1), mg + 1, if 2 ∈ mk then mk else 2 :: mk⟩, poolLen (floodGs m ++ [leafG (m + 2)])) := by
      unfold Core.put
      simp only
      rw [show encNode 98 2 [⟨97, 4 * (m + 1) + 2⟩, ⟨0, floodVal (m + 1)⟩] = floodG (m + 1) from rfl, hG]
      simp only
      rw [hgs]
    simp only
    rw [p2]
    rw [List.append_nil]
    rfl
  generalize poolLen (floodGs m ++ [leafG (m + 2)]) = q at h1
  let fs' : List Frame := ⟨[⟨120, q⟩], 121⟩ :: fs
  have hf' : fs'.length = m + 2 ∧ ∀ f ∈ fs', f.label = 121 := by
    refine ⟨by simp [fs', e4], fun f hf => ?_⟩
    rcases List.mem_cons.1 hf with rfl | hf
    · rfl
    · exact e5 f hf
  have h2 : St.insert ⟨⟨floodGs (m + 1), mg + 1, mk'⟩, ⟨[], 0⟩ :: ⟨[], 120⟩ :: fs', floodVal (m + 2)⟩
      (List.replicate (m + 2) 121 ++ [120, 97] ++ [0]) (m + 3) =
      (⟨⟨floodGs (m + 1), mg + 1, mk'⟩, ⟨[], 0⟩ :: ⟨[⟨0, floodVal (m + 2)⟩], 97⟩ :: ⟨[], 120⟩ :: fs', m + 3⟩, true) := by
    unfold St.insert
    simp only [List.reverse_cons, List.append_assoc, List.cons_append, List.nil_append]
    rw [hr _ _ _ _ _ _ _ hf'.1 hf'.2, walk]
    simp only
    rw [if_neg (by decide), if_neg (by decide), walk]
    simp only
    rw [if_neg (by decide), if_pos (by decide)]
    simp [closeFrames, pushAll]
  have h3 : St.insert ⟨⟨floodGs (m + 1), mg + 1, mk'⟩, ⟨[], 0⟩ :: ⟨[⟨0, floodVal (m + 2)⟩], 97⟩ :: ⟨[], 120⟩ :: fs', m + 3⟩
      (List.replicate (m + 2) 121 ++ [120, 98] ++ [0]) 0 =
      (⟨⟨floodGs (m + 1) ++ [leafG (m + 3)], mg + 1, mk'⟩,
         ⟨[], 0⟩ :: ⟨[⟨97, 4 * (m + 2) + 2⟩, ⟨0, floodVal (m + 2)⟩], 98⟩ :: ⟨[], 120⟩ :: fs', 0⟩, true) := by
    unfold St.insert
    simp only [List.reverse_cons, List.append_assoc, List.cons_append, List.nil_append]
    rw [hr _ _ _ _ _ _ _ hf'.1 hf'.2, walk]
    simp only
    rw [if_neg (by decide), if_neg (by decide), walk]
    simp only
    rw [if_neg (by decide), if_pos (by decide)]
    simp only [List.reverse_cons, List.reverse_nil, List.nil_append, closeFrames]
    have p1 : Core.put ⟨floodGs (m + 1), mg + 1, mk'⟩ (encNode 0 (m + 3) []) =
        (⟨floodGs (m + 1) ++ [leafG (m + 3)], mg + 1, mk'⟩, 4 * (m + 2) + 2) := by
      unfold Core.put
      simp only
      rw [show encNode 0 (m + 3) [] = leafG (m + 3) from rfl, hL]
      simp only
      rw [floodGs_len (m + 1) (by omega)]
      congr 1
    rw [p1]
    simp [pushAll]
  unfold floodBlock runAbs
  simp only [List.foldl_cons, List.foldl_nil, hv1, hv2, hv3]
  rw [h1, h2, h3]
  exact ⟨rfl, rfl, fs', rfl, hf'.1, hf'.2⟩

theorem runAbs_append (s : St) (a b : List (Key × Int)) : runAbs s (a ++ b) = runAbs (runAbs s a) b := by
  unfold runAbs
  rw [List.foldl_append]

theorem flood_run : ∀ m, m < 999990 → FloodInv m (runAbs St.init (flood (m + 2)))
  | 0, _ => flood_first
  | m + 1, h => by
    rw [flood, runAbs_append]
    exact flood_step (by omega) (flood_run m (by omega))

theorem flood_admissible {m : Nat} (h : m ≤ 20000) : Admissible (flood m) := by
  constructor
  · induction m with
    | zero => simp [flood]
    | succ m ih =>
      intro e he
      rw [flood, List.mem_append] at he
      rcases he with he | he
      · exact ih (by omega) e he
      · simp only [floodBlock, List.mem_cons, List.not_mem_nil, or_false] at he
        rcases he with rfl | rfl | rfl <;> simp
  · have : ∀ m, 2 * ((flood m).map (fun e => e.1.length + 1)).sum = 3 * m * m + 13 * m := by
      intro m
      induction m with
      | zero => rfl
      | succ m ih =>
        rw [flood, List.map_append, List.sum_append, Nat.mul_add, ih]
        simp only [floodBlock, List.map_cons, List.map_nil, List.sum_cons, List.sum_nil, List.length_append, List.length_replicate, List.length_cons, List.length_nil]
        simp only [Nat.mul_add, Nat.add_mul]
        omega
    have hm := this m
    have : 3 * m * m ≤ 3 * 20000 * 20000 := Nat.mul_le_mul (Nat.mul_le_mul_left 3 h) h
    omega

end Dawg.Abs
