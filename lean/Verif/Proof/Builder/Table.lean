import Verif.Proof.Probing
/-! # The hash table of the builder as a set of entries -/
namespace Dawg

def slot (t : List Nat) (j : Nat) : Nat := (t[j]?).getD 0

theorem slot_lt {t : List Nat} {j : Nat} (h : j < t.length) : slot t j = t[j] := by simp [slot, h]

/-- The table holds exactly the entries `S`, each found by probing from `h`. -/
structure TableInv (t : List Nat) (S : List Nat) (h : Nat → Nat) : Prop where
  probing : Probing t.length (slot t) h
  nodup : S.Nodup
  nz : 0 ∉ S
  sub : ∀ j, j < t.length → slot t j ≠ 0 → slot t j ∈ S
  cov : ∀ s ∈ S, ∃ j, j < t.length ∧ slot t j = s

namespace TableInv

theorem empty (n : Nat) (h : Nat → Nat) : TableInv (List.replicate n 0) [] h := by
  have hs : ∀ j, j < (List.replicate n 0).length → slot (List.replicate n 0) j = 0 := by
    intro j hj; rw [slot_lt hj]; simp
  refine ⟨?_, by simp, by simp, fun j hj hne => absurd (hs j hj) hne, by simp⟩
  exact (Probing.empty (List.replicate n 0).length h).congr (fun j hj => (hs j hj).symm) (fun j hj hne => absurd rfl hne)

theorem empty_slot {t S h} (hi : TableInv t S h) (hl : S.length < t.length) :
    ∃ j, j < t.length ∧ slot t j = 0 := by
  refine Classical.byContradiction fun hc => ?_
  have hall : ∀ j, j < t.length → slot t j ≠ 0 := fun j hj h0 => hc ⟨j, hj, h0⟩
  have hnd : t.Nodup := by
    rw [List.nodup_iff_pairwise_ne, List.pairwise_iff_getElem]
    intro i j hi' hj' hij heq
    have := hi.probing.inj i j hi' hj' (hall i hi') (by rw [slot_lt hi', slot_lt hj']; exact heq)
    omega
  have hsub : t ⊆ S := by
    intro x hx
    obtain ⟨j, hj, rfl⟩ := List.getElem_of_mem hx
    rw [← slot_lt hj]; exact hi.sub j hj (hall j hj)
  have := hnd.length_le_of_subset hsub
  omega

/-- The first empty slot of a probe sequence. -/
theorem free_slot {t S h} (hi : TableInv t S h) (hl : S.length < t.length) (s : Nat) :
    ∃ d, d < t.length ∧ slot t ((s + d) % t.length) = 0 ∧
      ∀ e, e < d → slot t ((s + e) % t.length) ≠ 0 := by
  obtain ⟨j, hj, h0⟩ := hi.empty_slot hl
  obtain ⟨d0, hd0, heq0⟩ := reach (s := s) hj
  obtain ⟨d, hle, hz, hmin⟩ := first (P := fun d => slot t ((s + d) % t.length) = 0) (d := d0)
    (by simp only [heq0, h0])
  exact ⟨d, by omega, hz, hmin⟩

theorem insert {t S h} (hi : TableInv t S h) {k d : Nat} (hk : k ≠ 0) (hnew : k ∉ S) (hd : d < t.length)
    (hz : slot t ((h k + d) % t.length) = 0)
    (hfull : ∀ e, e < d → slot t ((h k + e) % t.length) ≠ 0) :
    TableInv (t.set ((h k + d) % t.length) k) (k :: S) h := by
  have hlt : (h k + d) % t.length < t.length := Nat.mod_lt _ (by omega)
  have hslot : ∀ j, j < t.length → slot (t.set ((h k + d) % t.length) k) j =
      if j = (h k + d) % t.length then k else slot t j := by
    intro j hj
    rw [slot_lt (by simpa using hj), List.getElem_set]
    by_cases hc : j = (h k + d) % t.length
    · subst hc; simp
    · rw [if_neg (Ne.symm hc), if_neg hc, slot_lt hj]
  refine ⟨?_, by simp [hnew, hi.nodup], ?_, ?_, ?_⟩
  · have := (hi.probing.insert hk (fun j hj he => hnew (he ▸ hi.sub j hj (by rw [he]; exact hk))) hd hfull).congr
      (f' := slot (t.set ((h k + d) % t.length) k)) (h' := h) (fun j hj => (hslot j hj).symm) (fun j hj _ => rfl)
    simpa using this
  · simp [Ne.symm hk, hi.nz]
  · intro j hj
    simp only [List.length_set] at hj
    rw [hslot j hj]; split
    · intro _; simp
    · intro hne; exact List.mem_cons_of_mem _ (hi.sub j hj hne)
  · intro s hs
    rcases List.mem_cons.1 hs with rfl | hs
    · exact ⟨_, by simpa using hlt, by rw [hslot _ hlt]; simp⟩
    · obtain ⟨j, hj, he⟩ := hi.cov s hs
      refine ⟨j, by simpa using hj, ?_⟩
      rw [hslot j hj, if_neg, he]
      intro hc; rw [hc] at he; rw [hz] at he; exact hi.nz (he ▸ hs)

/-- The hashes may be changed outside the entries. -/
theorem congr {t S h h'} (hi : TableInv t S h) (hh : ∀ s ∈ S, h s = h' s) : TableInv t S h' :=
  ⟨hi.probing.congr (fun _ _ => rfl) (fun j hj hne => by rw [hh _ (hi.sub j hj hne)]), hi.nodup, hi.nz, hi.sub, hi.cov⟩

/-- The order of the entries is irrelevant. -/
theorem perm {t S S' h} (hi : TableInv t S h) (hp : S.Perm S') : TableInv t S' h :=
  ⟨hi.probing, hp.nodup_iff.1 hi.nodup, fun h0 => hi.nz (hp.mem_iff.2 h0),
    fun j hj hne => hp.mem_iff.1 (hi.sub j hj hne), fun s hs => hi.cov s (hp.mem_iff.2 hs)⟩

end TableInv
end Dawg
