import Verif.Proof.Probing
import Verif.Model.Pools
/-! # LinkTable is a map, BitPool is a bit array -/
namespace Dawg

/-! ## LinkTable -/

/-- The index stored in slot `j`. -/
def slotIndex (t : List LinkPair) (j : Nat) : Nat := ((t[j]?).getD ⟨0, 0⟩).index

theorem slotIndex_lt {t : List LinkPair} {j : Nat} (h : j < t.length) : slotIndex t j = t[j].index := by
  simp [slotIndex, h]

/-- The table `t` represents the map `m` on the keys `keys`. -/
structure LinkInv (t : List LinkPair) (m : Nat → Nat) (keys : List Nat) : Prop where
  len : t.length < 4294967296
  probing : Probing t.length (slotIndex t) intHash
  nodup : keys.Nodup
  nz : ∀ k ∈ keys, k ≠ 0
  sub : ∀ j, (h : j < t.length) → t[j].index ≠ 0 → t[j].index ∈ keys
  cov : ∀ k ∈ keys, ∃ j, ∃ h : j < t.length, t[j].index = k
  val : ∀ j, (h : j < t.length) → t[j].offset = m t[j].index
  dflt : ∀ k, k ∉ keys → m k = 0

theorem LinkInv.new {n : Nat} (h : n < 4294967296) : LinkInv (LinkTable.new n).hashTable (fun _ => 0) [] := by
  constructor
  · simpa [LinkTable.new] using h
  · have := Probing.empty (List.replicate n (⟨0, 0⟩ : LinkPair)).length intHash
    refine this.congr (fun j hj => ?_) (fun j hj hne => absurd rfl hne)
    have hj' : j < (LinkTable.new n).hashTable.length := hj
    rw [slotIndex_lt hj']; simp [LinkTable.new]
  · simp
  · simp
  · intro j hj; simp [LinkTable.new]
  · simp
  · intro j hj; simp [LinkTable.new]
  · simp

theorem findIdLoop_spec {t : List LinkPair} {k s d fuel : Nat} (hlen : t.length < 4294967296)
    (hs : s < t.length) (hd : d < fuel)
    (hstop : slotIndex t ((s + d) % t.length) = 0 ∨ k = slotIndex t ((s + d) % t.length))
    (hgo : ∀ e, e < d → slotIndex t ((s + e) % t.length) ≠ 0 ∧ k ≠ slotIndex t ((s + e) % t.length)) :
    LinkTable.findIdLoop t k fuel s = .ok ((s + d) % t.length) := by
  induction d generalizing s fuel with
  | zero =>
    obtain ⟨fuel, rfl⟩ : ∃ f, fuel = f + 1 := ⟨fuel - 1, by omega⟩
    simp only [Nat.add_zero, Nat.mod_eq_of_lt hs, slotIndex_lt hs] at hstop ⊢
    simp only [LinkTable.findIdLoop, rd_lt hs, ok_bind]
    rcases hstop with h | h
    · simp [h]
    · simp [h]
  | succ d ih =>
    obtain ⟨fuel, rfl⟩ : ∃ f, fuel = f + 1 := ⟨fuel - 1, by omega⟩
    have h0 := hgo 0 (by omega)
    simp only [Nat.add_zero, Nat.mod_eq_of_lt hs, slotIndex_lt hs] at h0
    have hpos : 0 < t.length := by omega
    have hu : u32 (s + 1) = s + 1 := u32_of_lt (by omega)
    have hshift : ∀ e, ((s + 1) % t.length + e) % t.length = (s + (e + 1)) % t.length := by
      intro e; rw [Nat.mod_add_mod]; congr 1; omega
    simp only [LinkTable.findIdLoop, rd_lt hs, ok_bind, h0.1, h0.2, if_false, u32_of_lt hlen,
      md_pos hpos, hu]
    rw [ih (Nat.mod_lt _ hpos) (by omega)]
    · rw [hshift]
    · rw [hshift]; exact hstop
    · intro e he; rw [hshift]; exact hgo (e + 1) (by omega)

/-- There is an empty slot as long as there are fewer keys than slots. -/
theorem LinkInv.empty_slot {t m keys} (hi : LinkInv t m keys) (h : keys.length < t.length) :
    ∃ j, ∃ h : j < t.length, t[j].index = 0 := by
  refine Classical.byContradiction fun hc => ?_
  have hall : ∀ j, (h : j < t.length) → t[j].index ≠ 0 := fun j hj h0 => hc ⟨j, hj, h0⟩
  have hnd : (t.map LinkPair.index).Nodup := by
    rw [List.nodup_iff_pairwise_ne, List.pairwise_iff_getElem]
    intro i j hi' hj' hij heq
    simp at hi' hj' heq
    have := hi.probing.inj i j hi' hj' (by rw [slotIndex_lt hi']; exact hall i hi')
      (by rw [slotIndex_lt hi', slotIndex_lt hj']; exact heq)
    omega
  have hsub : t.map LinkPair.index ⊆ keys := by
    intro x hx
    obtain ⟨j, hj, rfl⟩ := List.getElem_of_mem hx
    simp at hj ⊢
    exact hi.sub j hj (hall j hj)
  have := hnd.length_le_of_subset hsub
  simp at this; omega

/-- `findId`: the slot of a present key, or an empty slot where an absent one can be inserted. -/
theorem LinkInv.findId {t m keys} (hi : LinkInv t m keys) {k : Nat} (hk : k ≠ 0)
    (hroom : k ∈ keys ∨ keys.length < t.length) :
    ∃ d, d < t.length ∧ ∃ h : (intHash k + d) % t.length < t.length,
      LinkTable.findId ⟨t⟩ k = .ok ((intHash k + d) % t.length) ∧
      (∀ e, e < d → slotIndex t ((intHash k + e) % t.length) ≠ 0) ∧
      ((k ∈ keys ∧ t[(intHash k + d) % t.length].index = k) ∨
       (k ∉ keys ∧ t[(intHash k + d) % t.length].index = 0)) := by
  have hpos : 0 < t.length := by
    rcases hroom with h | h
    · obtain ⟨j, hj, _⟩ := hi.cov k h; omega
    · omega
  have run : ∀ d, d < t.length →
      (slotIndex t ((intHash k + d) % t.length) = 0 ∨ k = slotIndex t ((intHash k + d) % t.length)) →
      (∀ e, e < d → slotIndex t ((intHash k + e) % t.length) ≠ 0 ∧
        k ≠ slotIndex t ((intHash k + e) % t.length)) →
      LinkTable.findId ⟨t⟩ k = .ok ((intHash k + d) % t.length) := by
    intro d hd h1 h2
    have hs : ∀ e, (intHash k % t.length + e) % t.length = (intHash k + e) % t.length := fun e => Nat.mod_add_mod ..
    simp only [LinkTable.findId, u32_of_lt hi.len, md_pos hpos, ok_bind]
    rw [findIdLoop_spec hi.len (Nat.mod_lt _ hpos) (d := d) (by omega)]
    · rw [hs]
    · rw [hs]; exact h1
    · intro e he; rw [hs]; exact h2 e he
  by_cases hmem : k ∈ keys
  · obtain ⟨j, hj, hjk⟩ := hi.cov k hmem
    have hne : slotIndex t j ≠ 0 := by rw [slotIndex_lt hj, hjk]; exact hk
    obtain ⟨d, hd, heq, hgo⟩ := hi.probing.find hj hne
    rw [slotIndex_lt hj, hjk] at heq hgo
    refine ⟨d, hd, by omega, run d hd ?_ ?_, fun e he => (hgo e he).1, .inl ⟨hmem, ?_⟩⟩
    · right; rw [heq, slotIndex_lt hj, hjk]
    · intro e he; exact ⟨(hgo e he).1, fun h => (hgo e he).2 h.symm⟩
    · simp only [heq]; exact hjk
  · obtain ⟨j, hj, h0⟩ := hi.empty_slot (hroom.resolve_left hmem)
    obtain ⟨d0, hd0, heq0⟩ := reach (s := intHash k) hj
    obtain ⟨d, hle, hz, hmin⟩ := first (P := fun d => slotIndex t ((intHash k + d) % t.length) = 0) (d := d0)
      (by simp only [heq0, slotIndex_lt hj, h0])
    have hlt : (intHash k + d) % t.length < t.length := Nat.mod_lt _ hpos
    refine ⟨d, by omega, hlt, run d (by omega) (.inl hz) ?_, hmin, .inr ⟨hmem, ?_⟩⟩
    · intro e he
      refine ⟨hmin e he, fun h => hmem ?_⟩
      have hlt' : (intHash k + e) % t.length < t.length := Nat.mod_lt _ hpos
      have := hi.sub _ hlt' (by rw [← slotIndex_lt hlt']; exact hmin e he)
      rw [← slotIndex_lt hlt', ← h] at this; exact this
    · rw [← slotIndex_lt hlt]; exact hz

theorem LinkInv.find {t m keys} (hi : LinkInv t m keys) {k : Nat} (hk : k ≠ 0)
    (hroom : k ∈ keys ∨ keys.length < t.length) :
    LinkTable.find ⟨t⟩ k = .ok (m k) := by
  obtain ⟨d, hd, hlt, hf, _, hcase⟩ := hi.findId hk hroom
  simp only [LinkTable.find, hf, ok_bind, rd_lt hlt, pure_eq_ok]
  rw [hi.val _ hlt]
  rcases hcase with ⟨_, h⟩ | ⟨hn, h⟩
  · rw [h]
  · rw [h, hi.dflt k hn]
    have : (0 : Nat) ∉ keys := fun h0 => hi.nz 0 h0 rfl
    rw [hi.dflt 0 this]

theorem LinkInv.insert {t m keys} (hi : LinkInv t m keys) {k o : Nat} (hk : k ≠ 0)
    (hroom : k ∈ keys ∨ keys.length < t.length) :
    ∃ t', LinkTable.insert ⟨t⟩ k o = .ok ⟨t'⟩ ∧ t'.length = t.length ∧
      LinkInv t' (fun x => if x = k then o else m x) (if k ∈ keys then keys else k :: keys) := by
  obtain ⟨d, hd, hlt, hf, hfull, hcase⟩ := hi.findId hk hroom
  refine ⟨t.set ((intHash k + d) % t.length) ⟨k, o⟩, ?_, by simp, ?_⟩
  · simp [LinkTable.insert, hf, wr_lt hlt]
  · have hslot : ∀ j, j < t.length → slotIndex (t.set ((intHash k + d) % t.length) ⟨k, o⟩) j =
        if j = (intHash k + d) % t.length then k else slotIndex t j := by
      intro j hj
      rw [slotIndex_lt (by simpa using hj), List.getElem_set]
      by_cases hc : j = (intHash k + d) % t.length
      · subst hc; simp
      · rw [if_neg (Ne.symm hc), if_neg hc, slotIndex_lt hj]
    rcases hcase with ⟨hmem, hidx⟩ | ⟨hmem, hidx⟩
    · -- overwriting
      have hsame : ∀ j, j < t.length → slotIndex t j =
          slotIndex (t.set ((intHash k + d) % t.length) ⟨k, o⟩) j := by
        intro j hj; rw [hslot j hj]; split
        · rename_i h; subst h; rw [slotIndex_lt hlt, hidx]
        · rfl
      have hget : ∀ j (h : j < t.length), (t.set ((intHash k + d) % t.length) ⟨k, o⟩)[j]'(by simpa using h) =
          if (intHash k + d) % t.length = j then ⟨k, o⟩ else t[j] := by
        intro j h; rw [List.getElem_set]
      simp only [if_pos hmem]
      constructor
      · simpa using hi.len
      · have := hi.probing.congr hsame (fun j hj hne => rfl)
        simpa using this
      · exact hi.nodup
      · exact hi.nz
      · intro j hj; simp at hj; rw [hget j hj]; split
        · intro _; exact hmem
        · exact hi.sub j hj
      · intro k' hk'
        obtain ⟨j, hj, h⟩ := hi.cov k' hk'
        refine ⟨j, by simpa using hj, ?_⟩
        rw [← slotIndex_lt, ← hsame j hj, slotIndex_lt hj, h]
      · intro j hj; simp at hj; rw [hget j hj]; split
        · simp
        · rename_i hc
          have : t[j].index ≠ k := fun h => hc (hi.probing.inj _ j hlt hj
            (by rw [slotIndex_lt hlt, hidx]; exact hk) (by rw [slotIndex_lt hlt, slotIndex_lt hj, hidx, h]))
          rw [if_neg this, hi.val j hj]
      · intro x hx
        have : x ≠ k := fun h => hx (h ▸ hmem)
        simp [this, hi.dflt x hx]
    · simp only [if_neg hmem]
      have hnew : ∀ j, j < t.length → slotIndex t j ≠ k := by
        intro j hj h
        rw [slotIndex_lt hj] at h
        exact hmem (h ▸ hi.sub j hj (by rw [h]; exact hk))
      have hget : ∀ j (h : j < t.length), (t.set ((intHash k + d) % t.length) ⟨k, o⟩)[j]'(by simpa using h) =
          if (intHash k + d) % t.length = j then ⟨k, o⟩ else t[j] := by
        intro j h; rw [List.getElem_set]
      constructor
      · simpa using hi.len
      · have := hi.probing.insert hk hnew hd hfull
        have := this.congr (f' := slotIndex (t.set ((intHash k + d) % t.length) ⟨k, o⟩)) (h' := intHash)
          (fun j hj => (hslot j hj).symm) (fun j hj hne => rfl)
        simpa using this
      · simp [hmem, hi.nodup]
      · intro x hx; simp at hx; rcases hx with rfl | h
        · exact hk
        · exact hi.nz x h
      · intro j hj; simp at hj; rw [hget j hj]; split
        · simp
        · intro h; exact List.mem_cons_of_mem _ (hi.sub j hj h)
      · intro k' hk'; simp at hk'; rcases hk' with rfl | h
        · exact ⟨_, by simpa using hlt, by simp⟩
        · obtain ⟨j, hj, he⟩ := hi.cov k' h
          refine ⟨j, by simpa using hj, ?_⟩
          rw [hget j hj, if_neg, he]
          intro hc; simp only [hc] at hidx; rw [hidx] at he; exact hi.nz k' h he.symm
      · intro j hj; simp at hj; rw [hget j hj]; split
        · simp
        · have := hnew j hj; rw [slotIndex_lt hj] at this
          rw [if_neg this, hi.val j hj]
      · intro x hx; simp at hx; simp [hx.1, hi.dflt x hx.2]

/-! ## BitPool -/

theorem and_shift_ne_zero (w k : Nat) : ((w &&& (1 <<< k)) != 0) = w.testBit k := by
  rw [Nat.one_shiftLeft]
  by_cases h : w.testBit k
  · have : (w &&& 2 ^ k).testBit k = true := by simp [Nat.testBit_and, h, Nat.testBit_two_pow_self]
    have hne : (w &&& 2 ^ k) ≠ 0 := by intro h0; rw [h0] at this; simp at this
    simp [h, hne]
  · have : w &&& 2 ^ k = 0 := by
      apply Nat.eq_of_testBit_eq
      intro i
      simp only [Nat.testBit_and, Nat.zero_testBit, Nat.testBit_two_pow]
      by_cases hi : k = i
      · subst hi; simp [h]
      · simp [hi]
    simp [this, h]

/-- The pool `p` represents the bit function `f`. -/
structure BitInv (p : BitPool) (f : Nat → Bool) : Prop where
  len : p.words.length = (p.size + 63) / 64
  bits : ∀ i w, p.words[i / 64]? = some w → w.testBit (i % 64) = f i
  zero : ∀ i, p.size ≤ i → f i = false
  word : ∀ w ∈ p.words, w < 2 ^ 64

theorem BitInv.new : BitInv BitPool.new (fun _ => false) :=
  ⟨rfl, by simp [BitPool.new], by simp, by simp [BitPool.new]⟩

theorem BitInv.allocate {p f} (h : BitInv p f) : BitInv p.allocate f := by
  refine ⟨?_, ?_, ?_, ?_⟩
  · unfold BitPool.allocate; split
    · simp [h.len]; omega
    · simp [h.len]; omega
  · intro i w hw
    unfold BitPool.allocate at hw
    split at hw
    · simp only [List.getElem?_append] at hw
      split at hw
      · exact h.bits i w hw
      · rename_i hlt hge
        have : w = 0 := by
          have := List.getElem?_eq_some_iff.1 hw
          obtain ⟨hl, he⟩ := this
          simp at hl
          simp [hl] at he; exact he.symm
        subst this
        have := h.len
        rw [h.zero i (by omega)]; simp
    · exact h.bits i w hw
  · intro i hi; simp [BitPool.allocate] at hi; exact h.zero i (by omega)
  · intro w hw
    unfold BitPool.allocate at hw
    simp only at hw
    split at hw
    · rcases List.mem_append.1 hw with hw | hw
      · exact h.word w hw
      · simp at hw; subst hw; decide
    · exact h.word w hw

theorem BitInv.get {p f} (h : BitInv p f) {i : Nat} (hi : i < p.size) : p.get i = .ok (f i) := by
  have hl := h.len
  have hlt : i / 64 < p.words.length := by omega
  have h1 : i >>> 6 = i / 64 := by simp [Nat.shiftRight_eq_div_pow]
  have h2 : i &&& 63 = i % 64 := Nat.and_two_pow_sub_one_eq_mod i 6
  unfold BitPool.get
  rw [h1, h2, rd_lt hlt]
  simp only [ok_bind, pure_eq_ok, and_shift_ne_zero]
  rw [h.bits i _ (by simp [hlt])]

theorem BitInv.set {p f} (h : BitInv p f) {i : Nat} (b : Bool) (hi : i < p.size) :
    ∃ p', p.set i b = .ok p' ∧ p'.size = p.size ∧ BitInv p' (fun j => if j = i then b else f j) := by
  have hl := h.len
  have hlt : i / 64 < p.words.length := by omega
  have h1 : i >>> 6 = i / 64 := by simp [Nat.shiftRight_eq_div_pow]
  have h2 : i &&& 63 = i % 64 := Nat.and_two_pow_sub_one_eq_mod i 6
  unfold BitPool.set
  rw [h1, h2, rd_lt hlt]
  refine ⟨_, rfl, rfl, ?_, ?_, ?_, ?_⟩
  · simpa using h.len
  · intro j w hw
    simp only [List.getElem?_set, hlt, if_true] at hw
    by_cases hc : i / 64 = j / 64
    · simp only [hc, if_true] at hw
      have hb := h.bits j _ (List.getElem?_eq_getElem (hc ▸ hlt))
      simp only [Option.some.injEq] at hw
      subst hw
      simp only [hc] at *
      have hj64 : j % 64 < 64 := Nat.mod_lt _ (by decide)
      have hones : (18446744073709551615 : Nat).testBit (j % 64) = true := by
        have := Nat.testBit_two_pow_sub_one 64 (j % 64)
        simpa [hj64] using this
      by_cases hij : j = i
      · subst hij
        cases b
        · simp [Nat.testBit_and, Nat.testBit_xor, Nat.one_shiftLeft, Nat.testBit_two_pow_self, hones]
        · simp [Nat.testBit_or, Nat.one_shiftLeft, Nat.testBit_two_pow_self]
      · have hne : ¬ (i % 64 = j % 64) := by omega
        cases b
        · simp [Nat.testBit_and, Nat.testBit_xor, Nat.one_shiftLeft, hne, hones, hb, hij]
        · simp [Nat.testBit_or, Nat.one_shiftLeft, hne, hb, hij]
    · rw [if_neg hc] at hw
      have : j ≠ i := fun e => hc (by rw [e])
      simp [this, h.bits j w hw]
  · intro j hj
    simp at hj
    have : j ≠ i := by omega
    simp [this, h.zero j hj]
  · intro w hw
    rcases List.mem_or_eq_of_mem_set hw with hw | hw
    · exact h.word w hw
    · have h1 : p.words[i / 64] < 2 ^ 64 := h.word _ (List.getElem_mem hlt)
      have h2 : 1 <<< (i % 64) < 2 ^ 64 := by
        rw [Nat.one_shiftLeft]
        exact Nat.pow_lt_pow_right (by decide) (Nat.mod_lt _ (by decide))
      rw [hw]; cases b
      · simp only [Bool.false_eq_true, if_false]; exact Nat.and_lt_two_pow _ (Nat.xor_lt_two_pow h2 (by decide))
      · simp only [if_true]; exact Nat.or_lt_two_pow h1 h2

/-- A pool is determined by its size and bits. -/
theorem BitInv.ext {p q f} (hp : BitInv p f) (hq : BitInv q f) (hs : p.size = q.size) : p = q := by
  obtain ⟨pw, ps⟩ := p
  obtain ⟨qw, qs⟩ := q
  simp only at hs
  subst hs
  have hlen : pw.length = qw.length := hp.len.trans hq.len.symm
  congr 1
  apply List.ext_getElem hlen
  intro i h1 h2
  apply Nat.eq_of_testBit_eq
  intro b
  by_cases hb : b < 64
  · have e1 : (64 * i + b) / 64 = i := by omega
    have e2 : (64 * i + b) % 64 = b := by omega
    have a1 := hp.bits (64 * i + b) pw[i] (by rw [e1]; simp [h1])
    have a2 := hq.bits (64 * i + b) qw[i] (by rw [e1]; simp [h2])
    rw [e2] at a1 a2
    rw [a1, a2]
  · have b1 : pw[i] < 2 ^ b := Nat.lt_of_lt_of_le (hp.word _ (List.getElem_mem h1)) (Nat.pow_le_pow_right (by decide) (by omega))
    have b2 : qw[i] < 2 ^ b := Nat.lt_of_lt_of_le (hq.word _ (List.getElem_mem h2)) (Nat.pow_le_pow_right (by decide) (by omega))
    rw [Nat.testBit_lt_two_pow b1, Nat.testBit_lt_two_pow b2]

end Dawg
