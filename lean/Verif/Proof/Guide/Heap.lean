import Verif.Proof.Basic
import Verif.Model.Ranked
/-! # The candidate heap (container/heap) -/
namespace Dawg.Heap
attribute [-simp] List.length_flatten

/-- The element at `i`. -/
def at' (q : List Candidate) (i : Nat) : Candidate := q.getD i ⟨0, 0⟩

theorem rd_at {q : List Candidate} {i : Nat} (h : i < q.length) : rd q i = .ok (at' q i) := by
  rw [rd_lt h]; simp [at', h]

theorem at_mem {q : List Candidate} {i : Nat} (h : i < q.length) : at' q i ∈ q := by
  simp [at', h]

theorem less_irrefl (a : Candidate) : less a a = false := by simp [less]

/-- `less` is a strict weak order. -/
theorem less_trans {a b c : Candidate} (h1 : less a b = false) (h2 : less b c = false) : less a c = false := by
  unfold less at *
  grind

theorem less_asymm {a b : Candidate} (h : less a b = true) : less b a = false := by
  unfold less at *
  grind

/-- No element among the first `n` goes before its parent. -/
def IsHeap (q : List Candidate) (n : Nat) : Prop := ∀ i, 0 < i → i < n → less (at' q i) (at' q ((i - 1) / 2)) = false

theorem IsHeap.top {q : List Candidate} {n : Nat} (h : IsHeap q n) : ∀ i, i < n → less (at' q i) (at' q 0) = false := by
  intro i
  induction i using Nat.strongRecOn with
  | ind i ih =>
    intro hi
    by_cases h0 : i = 0
    · subst h0; exact less_irrefl _
    · exact less_trans (h i (by omega) hi) (ih ((i - 1) / 2) (by omega) (by omega))

theorem swap_spec {q : List Candidate} {i j : Nat} (hi : i < q.length) (hj : j < q.length) :
    ∃ q', swap q i j = .ok q' ∧ q'.Perm q ∧ q'.length = q.length ∧
      ∀ x, at' q' x = if x = j then at' q i else if x = i then at' q j else at' q x := by
  refine ⟨(q.set i (at' q j)).set j (at' q i), ?_, ?_, by simp, ?_⟩
  · unfold swap
    rw [rd_at hi, rd_at hj]
    simp only [ok_bind, wr_lt hi]
    rw [wr_lt (by simpa using hj)]
  · have h1 : at' q i = q[i] := by simp [at', hi]
    have h2 : at' q j = q[j] := by simp [at', hj]
    have := Array.swap_perm (xs := q.toArray) (i := i) (j := j) (by simpa using hi) (by simpa using hj)
    rw [Array.perm_iff_toList_perm, Array.toList_swap] at this
    rw [h1, h2]
    simpa using this
  · intro x
    unfold at'
    simp only [List.getD_eq_getElem?_getD, List.getElem?_set, List.length_set]
    by_cases hxj : x = j
    · subst hxj; simp [hj]
    · rw [if_neg (Ne.symm hxj), if_neg hxj]
      by_cases hxi : x = i
      · subst hxi; simp [hi]
      · rw [if_neg (Ne.symm hxi), if_neg hxi]

theorem lessAt_ok {q : List Candidate} {i j : Nat} (hi : i < q.length) (hj : j < q.length) : lessAt q i j = .ok (less (at' q i) (at' q j)) := by
  unfold lessAt
  rw [rd_at hi, rd_at hj]; rfl

/-! ## `up` -/

theorem up_spec : ∀ (fuel : Nat) {q : List Candidate} {j : Nat}, j < q.length → j < fuel →
    (∀ i, 0 < i → i < q.length → i ≠ j → less (at' q i) (at' q ((i - 1) / 2)) = false) →
    (∀ i, 0 < i → i < q.length → (i - 1) / 2 = j → 0 < j → less (at' q i) (at' q ((j - 1) / 2)) = false) →
    ∃ q', up fuel q j = .ok q' ∧ q'.Perm q ∧ IsHeap q' q'.length
  | 0, _, _, _, h, _, _ => absurd h (by omega)
  | fuel + 1, q, j, hj, hf, h1, h2 => by
    rw [up]
    by_cases h0 : (j - 1) / 2 = j
    · have hj0 : j = 0 := by omega
      subst hj0
      refine ⟨q, by rw [if_pos h0]; rfl, List.Perm.refl _, ?_⟩
      intro i hi hl
      exact h1 i hi hl (by omega)
    · have hi : (j - 1) / 2 < q.length := by omega
      rw [if_neg h0, lessAt_ok hj hi]
      simp only [ok_bind]
      cases hless : less (at' q j) (at' q ((j - 1) / 2)) with
      | false =>
        refine ⟨q, rfl, List.Perm.refl _, ?_⟩
        intro i hi hl
        by_cases hij : i = j
        · subst hij; exact hless
        · exact h1 i hi hl hij
      | true =>
        obtain ⟨q1, e1, e2, e3, e4⟩ := swap_spec hi hj
        simp only [Bool.not_true, Bool.false_eq_true, if_false, e1, ok_bind]
        have hj0 : 0 < j := by omega
        obtain ⟨q2, f1, f2, f3⟩ := up_spec fuel (q := q1) (j := (j - 1) / 2) (by omega) (by omega)
          (by
            intro i hi0 hil hij
            rw [e3] at hil
            rw [e4, e4]
            by_cases hiej : i = j
            · subst hiej
              rw [if_pos rfl, if_neg (Ne.symm (by omega)), if_pos rfl]
              exact less_asymm hless
            · rw [if_neg hiej, if_neg hij]
              by_cases hpj : (i - 1) / 2 = j
              · rw [if_pos hpj]
                exact h2 i hi0 hil hpj hj0
              · rw [if_neg hpj]
                by_cases hpp : (i - 1) / 2 = (j - 1) / 2
                · rw [if_pos hpp]
                  have h3 := h1 i hi0 hil hiej
                  rw [hpp] at h3
                  exact less_trans h3 (less_asymm hless)
                · rw [if_neg hpp]
                  exact h1 i hi0 hil hiej)
          (by
            intro i hi0 hil hpi hpos
            rw [e3] at hil
            rw [e4, e4]
            have hgj : ((j - 1) / 2 - 1) / 2 ≠ j := by omega
            have hgp : ((j - 1) / 2 - 1) / 2 ≠ (j - 1) / 2 := by omega
            rw [if_neg hgj, if_neg hgp]
            have hpar := h1 ((j - 1) / 2) hpos hi (by omega)
            by_cases hiej : i = j
            · rw [if_pos hiej]; exact hpar
            · rw [if_neg hiej, if_neg (by omega)]
              have h3 := h1 i hi0 hil hiej
              rw [hpi] at h3
              exact less_trans h3 hpar)
        exact ⟨q2, f1, f2.trans e2, f3⟩

theorem push_spec {q : List Candidate} (h : IsHeap q q.length) (x : Candidate) : ∃ q', push q x = .ok q' ∧ q'.Perm (x :: q) ∧ IsHeap q' q'.length := by
  unfold push
  have hlt : ∀ i, i < q.length → at' (q ++ [x]) i = at' q i := by
    intro i hi
    simp [at', List.getElem?_append_left hi]
  obtain ⟨q', h1, h2, h3⟩ := up_spec (q.length + 2) (q := q ++ [x]) (j := q.length) (by simp) (by omega)
    (by
      intro i hi hl hne
      simp only [List.length_append, List.length_singleton] at hl
      rw [hlt i (by omega), hlt _ (by omega)]
      exact h i hi (by omega))
    (by
      intro i hi hl hp h0
      simp only [List.length_append, List.length_singleton] at hl
      omega)
  refine ⟨q', h1, h2.trans ?_, h3⟩
  exact List.perm_append_comm

/-! ## `down` -/

theorem down_spec : ∀ (fuel : Nat) {q : List Candidate} {i n : Nat}, n ≤ q.length → i < q.length → i ≤ n → n < fuel + i →
    (∀ c, 0 < c → c < n → (c - 1) / 2 ≠ i → less (at' q c) (at' q ((c - 1) / 2)) = false) →
    (∀ c, 0 < c → c < n → (c - 1) / 2 = i → 0 < i → less (at' q c) (at' q ((i - 1) / 2)) = false) →
    ∃ q', down fuel q i n = .ok q' ∧ q'.Perm q ∧ q'.length = q.length ∧ IsHeap q' n ∧ ∀ x, n ≤ x → i < n → at' q' x = at' q x
  | 0, q, i, n, hn, hi, hin, hf, h1, _ => by omega
  | fuel + 1, q, i, n, hn, hi, hin, hf, h1, h2 => by
    rw [down]
    simp only
    by_cases hj1 : 2 * i + 1 ≥ n
    · rw [if_pos hj1]
      refine ⟨q, rfl, List.Perm.refl _, rfl, ?_, fun _ _ _ => rfl⟩
      intro c hc hcn
      exact h1 c hc hcn (by omega)
    · rw [if_neg hj1]
      -- the smaller child
      obtain ⟨j, ej, hjn, hj0, hjp, hjle⟩ : ∃ j, (if 2 * i + 1 + 1 < n then do (if ← lessAt q (2 * i + 1 + 1) (2 * i + 1) then pure (2 * i + 1 + 1) else pure (2 * i + 1))
          else pure (2 * i + 1) : Go Nat) = .ok j ∧ j < n ∧ 0 < j ∧ (j - 1) / 2 = i ∧ ∀ c, 0 < c → c < n → (c - 1) / 2 = i → less (at' q c) (at' q j) = false := by
        by_cases hj2 : 2 * i + 1 + 1 < n
        · rw [if_pos hj2, lessAt_ok (by omega) (by omega)]
          simp only [ok_bind]
          cases hless : less (at' q (2 * i + 1 + 1)) (at' q (2 * i + 1)) with
          | true =>
            refine ⟨_, rfl, by omega, by omega, by omega, ?_⟩
            intro c hc hcn hcp
            have : c = 2 * i + 1 ∨ c = 2 * i + 1 + 1 := by omega
            rcases this with rfl | rfl
            · exact less_asymm hless
            · exact less_irrefl _
          | false =>
            refine ⟨_, rfl, by omega, by omega, by omega, ?_⟩
            intro c hc hcn hcp
            have : c = 2 * i + 1 ∨ c = 2 * i + 1 + 1 := by omega
            rcases this with rfl | rfl
            · exact less_irrefl _
            · exact hless
        · rw [if_neg hj2]
          refine ⟨_, rfl, by omega, by omega, by omega, ?_⟩
          intro c hc hcn hcp
          have : c = 2 * i + 1 := by omega
          subst this
          exact less_irrefl _
      -- what happens after the choice
      have htail : ∃ q', (do
          let b ← lessAt q j i
          if !b then return q
          let q ← swap q i j
          down fuel q j n) = .ok q' ∧ q'.Perm q ∧ q'.length = q.length ∧ IsHeap q' n ∧ ∀ x, n ≤ x → i < n → at' q' x = at' q x := by
        rw [lessAt_ok (by omega) hi]
        simp only [ok_bind]
        cases hless : less (at' q j) (at' q i) with
        | false =>
          refine ⟨q, rfl, List.Perm.refl _, rfl, ?_, fun _ _ _ => rfl⟩
          intro c hc hcn
          by_cases hcp : (c - 1) / 2 = i
          · rw [hcp]; exact less_trans (hjle c hc hcn hcp) hless
          · exact h1 c hc hcn hcp
        | true =>
          obtain ⟨q1, e1, e2, e3, e4⟩ := swap_spec (q := q) (i := i) (j := j) hi (by omega)
          simp only [Bool.not_true, Bool.false_eq_true, if_false, e1, ok_bind]
          obtain ⟨q2, f1, f2, f3, f4, f5⟩ := down_spec fuel (q := q1) (i := j) (n := n) (by omega) (by omega) (by omega) (by omega)
            (by
              intro c hc hcn hcp
              rw [e4, e4]
              have hpj : (c - 1) / 2 ≠ j := hcp
              rw [if_neg hpj]
              by_cases hcj : c = j
              · subst hcj
                rw [if_pos rfl, hjp, if_pos rfl]
                exact less_asymm hless
              · rw [if_neg hcj]
                by_cases hci : c = i
                · subst hci
                  rw [if_pos rfl, if_neg (by omega)]
                  exact h2 j (by omega) hjn hjp hc
                · rw [if_neg hci]
                  by_cases hpi : (c - 1) / 2 = i
                  · rw [if_pos hpi]
                    exact hjle c hc hcn hpi
                  · rw [if_neg hpi]
                    exact h1 c hc hcn hpi)
            (by
              intro c hc hcn hcp _
              rw [e4, e4, hjp]
              rw [if_neg (show c ≠ j by omega), if_neg (show c ≠ i by omega), if_neg (show i ≠ j by omega), if_pos rfl]
              have := h1 c hc hcn (by omega)
              rw [hcp] at this
              exact this)
          refine ⟨q2, f1, f2.trans e2, f3.trans e3, f4, ?_⟩
          intro x hx hin
          rw [f5 x hx hjn, e4, if_neg (by omega), if_neg (by omega)]
      obtain ⟨q', g1, g2⟩ := htail
      refine ⟨q', ?_, g2⟩
      rw [← g1]
      by_cases hj2 : 2 * i + 1 + 1 < n
      · rw [if_pos hj2] at ej ⊢
        rw [lessAt_ok (by omega) (by omega)] at ej ⊢
        simp only [ok_bind] at ej ⊢
        cases hl : less (at' q (2 * i + 1 + 1)) (at' q (2 * i + 1)) with
        | true => rw [hl] at ej; simp only [if_true, pure_eq_ok, Except.ok.injEq] at ej; subst ej; rfl
        | false => rw [hl] at ej; simp only [Bool.false_eq_true, if_false, pure_eq_ok, Except.ok.injEq] at ej; subst ej; rfl
      · rw [if_neg hj2] at ej ⊢
        simp only [pure_eq_ok, Except.ok.injEq] at ej
        subst ej; rfl

theorem pop_spec {x : Candidate} {q : List Candidate} (h : IsHeap (x :: q) (x :: q).length) : ∃ q', pop (x :: q) = .ok q' ∧ q'.Perm q ∧ IsHeap q' q'.length := by
  unfold pop
  rw [if_neg (by simp)]
  simp only [List.length_cons, Nat.add_sub_cancel]
  obtain ⟨q1, e1, e2, e3, e4⟩ := swap_spec (q := x :: q) (i := 0) (j := q.length) (by simp) (by simp)
  rw [e1]
  simp only [ok_bind]
  rw [List.length_cons] at e3
  obtain ⟨q2, f1, f2, f3, f4, f5⟩ := down_spec (q1.length + 1) (q := q1) (i := 0) (n := q.length) (by omega) (by omega) (by omega) (by omega)
    (by
      intro c hc hcn hcp
      rw [e4, e4, if_neg (by omega), if_neg (by omega), if_neg (by omega), if_neg hcp]
      exact h c hc (by simp only [List.length_cons]; omega))
    (by intro c hc hcn hcp h0; omega)
  rw [f1]
  simp only [ok_bind, pure_eq_ok]
  have hlen : q2.length = q.length + 1 := f3.trans e3
  have hlast : at' q2 q.length = x := by
    by_cases hq : 0 < q.length
    · rw [f5 _ (Nat.le_refl _) hq, e4, if_pos rfl]; rfl
    · have hq0 : q = [] := by
        cases q with
        | nil => rfl
        | cons a q => simp at hq
      subst hq0
      have h2 : q2 = [x] := List.perm_singleton.1 (f2.trans e2)
      subst h2; rfl
  refine ⟨_, rfl, ?_, ?_⟩
  · have hsp : q2 = q2.take q.length ++ [x] := by
      have h1 : q2.drop q.length = [x] := by
        rw [List.drop_eq_getElem_cons (by omega), List.drop_eq_nil_of_le (by omega)]
        congr 1
        rw [← hlast]
        simp [at', hlen]
      rw [← h1, List.take_append_drop]
    have hp : (q2.take q.length ++ [x]).Perm (x :: q) := by rw [← hsp]; exact f2.trans e2
    exact List.perm_cons x |>.1 (List.perm_append_comm.symm.trans hp |> fun h => by simpa using h)
  · intro i hi hil
    rw [List.length_take, hlen, Nat.min_eq_left (by omega)] at hil
    have hat : ∀ y, y < q.length → at' (q2.take q.length) y = at' q2 y := by
      intro y hy
      simp [at', hy]
    rw [hat i hil, hat _ (by omega)]
    exact f4 i hi hil

end Dawg.Heap
