/-! # Specification

Plain statements about lists of keys, independent of the model.  `<` on keys is the lexicographic
order of Lean's core library; `UInt8` values are compared as numbers. -/
namespace Dawg.Spec

abbrev Key := List UInt8

/-- What an accepted insertion does to the list of accepted (key, value) pairs: a repetition of the
last key replaces its value, a greater key is appended; a smaller key changes nothing. -/
def add (acc : List (Key × Int)) (k : Key) (v : Int) : List (Key × Int) :=
  match acc.getLast? with
  | none => [(k, v)]
  | some (l, _) => if k < l then acc else if k = l then acc.dropLast ++ [(k, v)] else acc ++ [(k, v)]

/-- Is `k` accepted after the accepted keys `acc`? -/
def accepts (acc : List (Key × Int)) (k : Key) : Bool :=
  match acc.getLast? with
  | none => true
  | some (l, _) => decide (¬ k < l)

/-- The accepted pairs of a history of insertions. -/
def accepted (hist : List (Key × Int)) : List (Key × Int) :=
  hist.foldl (fun acc e => add acc e.1 e.2) []

/-- The verdicts of a history of insertions. -/
def verdicts : List (Key × Int) → List (Key × Int) → List Bool
  | _, [] => []
  | acc, e :: rest => accepts acc e.1 :: verdicts (add acc e.1 e.2) rest

/-- The value word a Dawg can hold: 31 bits. -/
def stored (v : Int) : Nat := (v % 2147483648).toNat

/-- A non-negative `int32` is stored as it is. -/
theorem stored_of_nonneg {v : Int} (h0 : 0 ≤ v) (h1 : v < 2147483648) : (stored v : Int) = v := by
  unfold stored; omega

/-- Accepted pairs with the words stored for them. -/
def words (acc : List (Key × Int)) : List (Key × Nat) := acc.map (fun e => (e.1, stored e.2))

/-- The edges of the trie of the keys, named by the strings they complete; the terminal edge of a key
has label 0. -/
def TrieEdge {α : Type} (acc : List (Key × α)) (x : Key) : Prop := x ≠ [] ∧ ∃ e ∈ acc, x <+: e.1 ++ [0]

/-- The nodes of that trie, including the root. -/
def TrieNode {α : Type} (acc : List (Key × α)) (x : Key) : Prop := x = [] ∨ ∃ e ∈ acc, x <+: e.1 ++ [0]

/-- The number `n` of elements with property `S`. -/
def HasCard {α : Type} (S : α → Prop) (n : Nat) : Prop :=
  ∃ l : List α, l.Nodup ∧ (∀ x, x ∈ l ↔ S x) ∧ l.length = n

/-- The number determined by `HasCard` is unique. -/
theorem HasCard.unique {α : Type} {S : α → Prop} {m n : Nat} (h : HasCard S m) (h' : HasCard S n) : m = n := by
  obtain ⟨l, h1, h2, h3⟩ := h
  obtain ⟨l', h1', h2', h3'⟩ := h'
  have hp : l.Perm l' := (List.perm_ext_iff_of_nodup h1 h1').2 (fun x => (h2 x).trans (h2' x).symm)
  rw [← h3, ← h3', hp.length_eq]

/-- What is left of the keys that start with `p`, in order: the suffix map of the prefix `p`. -/
def residual {α : Type} (acc : List (Key × α)) (p : Key) : List (Key × α) :=
  (acc.filter (fun e => p.isPrefixOf e.1)).map (fun e => (e.1.drop p.length, e.2))

/-- The bytes that keys start with, in increasing order. -/
def heads {α : Type} (acc : List (Key × α)) : List UInt8 :=
  ((List.range 256).map UInt8.ofNat).filter (fun l => acc.any (fun e => e.1.head? == some l))

/-- In the trie of the keys, each with a 0 at its end: the number of transitions of the state of `p`. -/
def degree (keys : List Key) (p : Key) : Nat :=
  (((List.range 256).map UInt8.ofNat).filter (fun l => keys.any (fun k => (p ++ [l]).isPrefixOf (k ++ [0])))).length

/-- The number of transitions of all states on the path of the last key. -/
def openPath (keys : List Key) : Nat :=
  match keys.getLast? with
  | none => 0
  | some k => ((List.range (k.length + 1)).map (fun i => degree keys (k.take i))).sum

/-- The greatest number of such transitions during a history of insertions after the accepted keys `acc`. -/
def peakFrom : List (Key × Int) → List (Key × Int) → Nat
  | acc, [] => openPath (acc.map Prod.fst)
  | acc, e :: rest => max (openPath (acc.map Prod.fst)) (peakFrom (add acc e.1 e.2) rest)

/-- Insertion histories the theorems speak about: NUL-free keys, total size (with one byte per key
for the terminator) below 2^30. -/
structure Admissible (hist : List (Key × Int)) : Prop where
  nulFree : ∀ e ∈ hist, (0 : UInt8) ∉ e.1
  small : (hist.map (fun e => e.1.length + 1)).sum < 1073741824

end Dawg.Spec

namespace Dawg.Spec

/-- A comparator that sorting routines accept: a strict weak order. -/
structure StrictWeak {α : Type} (less : α → α → Bool) : Prop where
  asymm : ∀ a b, less a b = true → less b a = false
  negTrans : ∀ a b c, less a b = false → less b c = false → less a c = false

/-- The documented contract of Go's `sort.SliceStable`: it permutes the slice; for a strict weak order the result is sorted, and elements that are
equal for the comparator keep their order. -/
structure StableSort {α : Type} (sorter : (α → α → Bool) → List α → List α) : Prop where
  perm : ∀ less l, (sorter less l).Perm l
  sorted : ∀ less l, StrictWeak less → (sorter less l).Pairwise (fun a b => less b a = false)
  stable : ∀ less l, StrictWeak less → ∀ a, (sorter less l).filter (fun b => !less a b && !less b a) = l.filter (fun b => !less a b && !less b a)

/-- There is such a routine. -/
theorem exists_stableSort (α : Type) : StableSort (fun (less : α → α → Bool) l => l.mergeSort (fun a b => !less b a)) where
  perm less l := List.mergeSort_perm l _
  sorted less l h := by
    have := List.pairwise_mergeSort (le := fun a b => !less b a) (fun a b c h1 h2 => by
      simp only [Bool.not_eq_true'] at *; exact h.negTrans _ _ _ h2 h1) (fun a b => by
      cases hb : less b a
      · rfl
      · simp [h.asymm _ _ hb]) l
    exact this.imp (fun h => by simpa using h)
  stable less l h a := by
    symm
    have hs : (l.filter (fun b => !less a b && !less b a)).Sublist (l.mergeSort (fun a b => !less b a)) := by
      refine List.sublist_mergeSort (le := fun a b => !less b a) (fun a b c h1 h2 => by
        simp only [Bool.not_eq_true'] at *; exact h.negTrans _ _ _ h2 h1) (fun a b => by
        cases hb : less b a
        · rfl
        · simp [h.asymm _ _ hb]) ?_ List.filter_sublist
      refine List.Pairwise.imp_of_mem (R := fun _ _ => True) ?_ (List.pairwise_of_forall (by simp))
      intro x y hx hy _
      simp only [List.mem_filter, Bool.and_eq_true, Bool.not_eq_true'] at hx hy
      simp [h.negTrans _ _ _ hy.2.2 hx.2.1]
    have h2 := hs.filter (fun b => !less a b && !less b a)
    rw [List.filter_filter] at h2
    simp only [Bool.and_self] at h2
    exact h2.eq_of_length ((List.mergeSort_perm l _).filter _).length_eq.symm

end Dawg.Spec
