import Verif.Proof.Basic
/-! # Linear probing, abstractly

`f` is the table of `n` slots (0 = empty slot), `h` gives the slot where the search for an entry
starts. -/
namespace Dawg

/-- The linear-probing invariant. -/
structure Probing (n : Nat) (f h : Nat → Nat) : Prop where
  path : ∀ j, j < n → f j ≠ 0 → ∀ d, d < n → (h (f j) + d) % n = j → ∀ e, e < d → f ((h (f j) + e) % n) ≠ 0
  inj : ∀ j j', j < n → j' < n → f j ≠ 0 → f j = f j' → j = j'

/-- Every slot is reached from every start. -/
theorem reach {n s j : Nat} (hj : j < n) : ∃ d, d < n ∧ (s + d) % n = j := by
  have hn : 0 < n := by omega
  have hs : s % n < n := Nat.mod_lt _ hn
  by_cases h : s % n ≤ j
  · refine ⟨j - s % n, by omega, ?_⟩
    rw [Nat.add_mod, Nat.mod_eq_of_lt (a := j - s % n) (by omega)]
    rw [show s % n + (j - s % n) = j by omega]
    exact Nat.mod_eq_of_lt hj
  · refine ⟨j + n - s % n, by omega, ?_⟩
    rw [Nat.add_mod, Nat.mod_eq_of_lt (a := j + n - s % n) (by omega)]
    rw [show s % n + (j + n - s % n) = j + n by omega, Nat.add_mod_right]
    exact Nat.mod_eq_of_lt hj

theorem add_mod_inj {n a d d' : Nat} (hd : d < n) (hd' : d' < n) (h : (a + d) % n = (a + d') % n) :
    d = d' := by
  have hn : 0 < n := by omega
  have hb : a % n < n := Nat.mod_lt _ hn
  have key : ∀ x, x < n → (a + x) % n = if a % n + x < n then a % n + x else a % n + x - n := by
    intro x hx
    rw [Nat.add_mod, Nat.mod_eq_of_lt hx]
    split
    · exact Nat.mod_eq_of_lt (by assumption)
    · rw [Nat.mod_eq_sub_mod (by omega), Nat.mod_eq_of_lt (by omega)]
  rw [key d hd, key d' hd'] at h
  split at h <;> split at h <;> omega

/-- A first position with a property. -/
theorem first {P : Nat → Prop} {d : Nat} (h : P d) : ∃ d', d' ≤ d ∧ P d' ∧ ∀ e, e < d' → ¬ P e := by
  induction d using Nat.strongRecOn with
  | ind d ih =>
    by_cases hd : ∃ e, e < d ∧ P e
    · obtain ⟨e, he, hp⟩ := hd
      obtain ⟨d', h1, h2, h3⟩ := ih e he hp
      exact ⟨d', by omega, h2, h3⟩
    · exact ⟨d, Nat.le_refl _, h, fun e he hp => hd ⟨e, he, hp⟩⟩

namespace Probing

theorem congr {n : Nat} {f f' h h' : Nat → Nat} (hp : Probing n f h) (hf : ∀ j, j < n → f j = f' j)
    (hh : ∀ j, j < n → f j ≠ 0 → h (f j) % n = h' (f j) % n) : Probing n f' h' := by
  constructor
  · intro j hj hne d hd heq e he
    have hn : 0 < n := by omega
    have e1 := hf j hj
    rw [← e1] at hne heq ⊢
    have hm : ∀ x, (h' (f j) + x) % n = (h (f j) + x) % n := fun x => by
      rw [Nat.add_mod, ← hh j hj hne, ← Nat.add_mod]
    rw [hm] at heq ⊢
    rw [← hf _ (Nat.mod_lt _ hn)]
    exact hp.path j hj hne d hd heq e he
  · intro j j' hj hj' hne heq
    rw [← hf j hj] at hne heq
    rw [← hf j' hj'] at heq
    exact hp.inj j j' hj hj' hne heq

theorem empty (n : Nat) (h : Nat → Nat) : Probing n (fun _ => 0) h :=
  ⟨fun _ _ hne => absurd rfl hne, fun _ _ _ _ hne => absurd rfl hne⟩

/-- Inserting a new entry at the first empty slot of its probe sequence. -/
theorem insert {n : Nat} {f h : Nat → Nat} (hp : Probing n f h) {k d : Nat} (hk : k ≠ 0)
    (hnew : ∀ j, j < n → f j ≠ k) (hd : d < n)
    (hfull : ∀ e, e < d → f ((h k + e) % n) ≠ 0) :
    Probing n (fun j => if j = (h k + d) % n then k else f j) h := by
  have hn : 0 < n := by omega
  constructor
  · intro j hj hne d' hd' heq e he
    by_cases hjs : j = (h k + d) % n
    · simp only [hjs, if_true] at heq ⊢
      have : d' = d := add_mod_inj hd' hd heq
      subst this
      split
      · exact hk
      · exact hfull e he
    · simp only [if_neg hjs] at hne heq ⊢
      split
      · exact hk
      · exact hp.path j hj hne d' hd' heq e he
  · intro j j' hj hj' hne heq
    split at heq <;> split at heq
    · omega
    · exact absurd heq.symm (hnew j' hj')
    · exact absurd heq (hnew j hj)
    · rename_i a b; rw [if_neg a] at hne; exact hp.inj j j' hj hj' hne heq

/-- Searching an entry that is present: the first slot of its probe sequence that is empty or holds it
is its slot. -/
theorem find {n : Nat} {f h : Nat → Nat} (hp : Probing n f h) {j : Nat} (hj : j < n) (hne : f j ≠ 0) :
    ∃ d, d < n ∧ (h (f j) + d) % n = j ∧
      ∀ e, e < d → f ((h (f j) + e) % n) ≠ 0 ∧ f ((h (f j) + e) % n) ≠ f j := by
  obtain ⟨d, hd, heq⟩ := reach (s := h (f j)) hj
  obtain ⟨d', hle, h1, h2⟩ := first (P := fun d => (h (f j) + d) % n = j) heq
  refine ⟨d', by omega, h1, fun e he => ⟨hp.path j hj hne d' (by omega) h1 e he, fun hc => ?_⟩⟩
  have := hp.inj _ j (Nat.mod_lt _ (by omega)) hj (by rw [hc]; exact hne) hc
  exact h2 e he this

end Probing
end Dawg
