import Verif.Proof.Pools
/-! # C43, C44: LinkTable and BitPool -/
namespace Dawg.Props
open Dawg

/-! ## C43 -/

/-- An operation on a `LinkTable`. -/
inductive LinkOp where
  | insert (index offset : Nat)
  | find (index : Nat)

/-- The index an operation is about. -/
def LinkOp.index : LinkOp → Nat
  | .insert i _ => i
  | .find i => i

/-- Specification: the answers of the `Find`s of a sequence of operations on a map with default 0. -/
def mapAnswers (m : Nat → Nat) : List LinkOp → List Nat
  | [] => []
  | .insert i o :: ops => mapAnswers (fun x => if x = i then o else m x) ops
  | .find i :: ops => m i :: mapAnswers m ops

/-- The answers of the `Find`s of a sequence of operations on a `LinkTable`. -/
def tableAnswers (t : LinkTable) : List LinkOp → Go (List Nat)
  | [] => .ok []
  | .insert i o :: ops => do
    let t ← t.insert i o
    tableAnswers t ops
  | .find i :: ops => do
    let a ← t.find i
    let as ← tableAnswers t ops
    return a :: as

theorem tableAnswers_of_inv {used : List Nat} (hz : 0 ∉ used) : ∀ (ops : List LinkOp) {t m keys},
    LinkInv t m keys → (∀ op ∈ ops, op.index ∈ used) → keys ⊆ used → used.length ≤ t.length →
    tableAnswers ⟨t⟩ ops = .ok (mapAnswers m ops)
  | [], _, _, _, _, _, _, _ => rfl
  | .insert i o :: ops, t, m, keys, hi, hops, hsub, hlen => by
    have hin : i ∈ used := hops (.insert i o) (by simp)
    have hi0 : i ≠ 0 := fun h => hz (h ▸ hin)
    have hroom : i ∈ keys ∨ keys.length < t.length := by
      by_cases h : i ∈ keys
      · exact .inl h
      · right
        have : (i :: keys).length ≤ used.length :=
          (List.nodup_cons.2 ⟨h, hi.nodup⟩).length_le_of_subset (by
            intro x hx; rcases List.mem_cons.1 hx with rfl | h'
            · exact hin
            · exact hsub h')
        simp at this; omega
    obtain ⟨t', ht, hl, hinv⟩ := hi.insert (o := o) hi0 hroom
    simp only [tableAnswers, ht, ok_bind, mapAnswers]
    refine tableAnswers_of_inv hz ops hinv (fun op h => hops op (by simp [h])) ?_ (by omega)
    split
    · exact hsub
    · intro x hx; rcases List.mem_cons.1 hx with rfl | h'
      · exact hin
      · exact hsub h'
  | .find i :: ops, t, m, keys, hi, hops, hsub, hlen => by
    have hin : i ∈ used := hops (.find i) (by simp)
    have hi0 : i ≠ 0 := fun h => hz (h ▸ hin)
    have hroom : i ∈ keys ∨ keys.length < t.length := by
      by_cases h : i ∈ keys
      · exact .inl h
      · right
        have : (i :: keys).length ≤ used.length :=
          (List.nodup_cons.2 ⟨h, hi.nodup⟩).length_le_of_subset (by
            intro x hx; rcases List.mem_cons.1 hx with rfl | h'
            · exact hin
            · exact hsub h')
        simp at this; omega
    simp only [tableAnswers, hi.find hi0 hroom, ok_bind, mapAnswers,
      tableAnswers_of_inv hz ops hi (fun op h => hops op (by simp [h])) hsub hlen, pure_eq_ok]

/-- **C43.** A `LinkTable` with `size` slots on which at most `size` distinct non-zero indices are used (by `Insert` or `Find`)
answers every `Find` of every sequence of operations as a map with default 0 would; no operation panics or hangs. -/
theorem C43_linkTable_is_map (size : Nat) (hsize : size < 2 ^ 32) (used : List Nat) (hz : 0 ∉ used)
    (hlen : used.length ≤ size) (ops : List LinkOp) (hops : ∀ op ∈ ops, op.index ∈ used) :
    tableAnswers (LinkTable.new size) ops = .ok (mapAnswers (fun _ => 0) ops) :=
  tableAnswers_of_inv hz ops (LinkInv.new hsize) hops (by simp) (by simpa [LinkTable.new] using hlen)

/-- C43 on a full table: two slots, two indices, an overwrite, a miss before the first insertion. -/
example : tableAnswers (LinkTable.new 2)
    [.find 7, .insert 7 10, .insert 9 20, .find 7, .insert 7 30, .find 9, .find 7] = .ok [0, 10, 20, 30] :=
  (C43_linkTable_is_map 2 (by decide) [7, 9] (by decide) (by decide) _
    (by intro op h; simp at h; rcases h with rfl | rfl | rfl | rfl | rfl | rfl | rfl <;> simp [LinkOp.index])).trans rfl

/-- The bound in C43 is needed: with one slot, looking for a second index never ends. -/
example : tableAnswers (LinkTable.new 1) [.insert 7 10, .find 9] = .error .hang := by decide

/-! ## C44 -/

/-- An operation on a `BitPool`. -/
inductive BitOp where
  | allocate
  | set (index : Nat) (bit : Bool)

/-- Specification: the state of a growing array of bits as a list. -/
def bitsAfter : List BitOp → List Bool
  | ops => ops.foldl (fun l op => match op with
      | .allocate => l ++ [false]
      | .set i b => l.set i b) []

/-- Every write is inside the array as it is at that time. -/
def WritesInside : Nat → List BitOp → Prop
  | _, [] => True
  | n, .allocate :: ops => WritesInside (n + 1) ops
  | n, .set i _ :: ops => i < n ∧ WritesInside n ops

/-- Running operations on a `BitPool`. -/
def poolAfter : BitPool → List BitOp → Go BitPool
  | p, [] => .ok p
  | p, .allocate :: ops => poolAfter p.allocate ops
  | p, .set i b :: ops => do
    let p ← p.set i b
    poolAfter p ops

theorem poolAfter_inv : ∀ (ops : List BitOp) (p : BitPool) (l : List Bool),
    BitInv p (fun i => (l[i]?).getD false) → p.size = l.length → WritesInside l.length ops →
    ∃ p', poolAfter p ops = .ok p' ∧
      BitInv p' (fun i => ((ops.foldl (fun l op => match op with
        | .allocate => l ++ [false]
        | .set i b => l.set i b) l)[i]?).getD false) ∧
      p'.size = (ops.foldl (fun l op => match op with
        | .allocate => l ++ [false]
        | .set i b => l.set i b) l).length
  | [], p, l, hi, hs, _ => ⟨p, rfl, hi, hs⟩
  | .allocate :: ops, p, l, hi, hs, hw => by
    have hf : (fun i : Nat => (l[i]?).getD false) = (fun i : Nat => ((l ++ [false])[i]?).getD false) := by
      funext i; simp only [List.getElem?_append]; split
      · rfl
      · rename_i h
        rw [List.getElem?_eq_none (by omega : l.length ≤ i)]
        by_cases h' : i - l.length = 0 <;> simp [h']
    have := hi.allocate
    rw [hf] at this
    exact poolAfter_inv ops p.allocate (l ++ [false]) this (by simp [BitPool.allocate, hs]) (by simpa [WritesInside] using hw)
  | .set i b :: ops, p, l, hi, hs, hw => by
    obtain ⟨hlt, hw⟩ := hw
    obtain ⟨p', hp, hsz, hinv⟩ := hi.set b (by omega : i < p.size)
    have hf : (fun j : Nat => if j = i then b else (l[j]?).getD false) = (fun j : Nat => ((l.set i b)[j]?).getD false) := by
      funext j; simp only [List.getElem?_set]
      by_cases h : j = i
      · subst h; simp [hlt]
      · have : ¬ i = j := fun e => h e.symm
        simp [h, this]
    rw [hf] at hinv
    obtain ⟨q, hq, h1, h2⟩ := poolAfter_inv ops p' (l.set i b) hinv (by simp [hsz, hs]) (by simpa using hw)
    exact ⟨q, by simp only [poolAfter, hp, ok_bind, hq], h1, h2⟩

/-- **C44.** After any sequence of allocations and in-range writes — none of which fails — the pool has as many bits as were allocated and
`get i` is the bit that the same operations leave at position `i` of a list of bits. -/
theorem C44_bitPool_is_bit_array (ops : List BitOp) (h : WritesInside 0 ops) :
    ∃ p, poolAfter BitPool.new ops = .ok p ∧ p.size = (bitsAfter ops).length ∧
      ∀ i b, (bitsAfter ops)[i]? = some b → p.get i = .ok b := by
  have h0 : BitInv BitPool.new (fun i => (([] : List Bool)[i]?).getD false) := by simpa using BitInv.new
  obtain ⟨p, hp, hinv, hs⟩ := poolAfter_inv ops BitPool.new [] h0 rfl h
  refine ⟨p, hp, hs, fun i b hb => ?_⟩
  have hlt : i < p.size := by rw [hs]; exact (List.getElem?_eq_some_iff.1 hb).1
  rw [hinv.get hlt]
  have : (bitsAfter ops)[i]? = _ := hb
  simp only [bitsAfter] at this
  rw [this]; rfl

/-- C44 across a word boundary. -/
example : WritesInside 0 (List.replicate 70 .allocate ++ [.set 65 true, .set 1 true, .set 65 false, .set 64 true]) := by
  simp [WritesInside]

example : (bitsAfter (List.replicate 70 .allocate ++ [.set 65 true, .set 1 true, .set 65 false, .set 64 true]))[64]? = some true := by
  decide

end Dawg.Props
