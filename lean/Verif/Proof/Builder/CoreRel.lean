import Verif.Proof.Builder.Groups
import Verif.Proof.Builder.Table
/-! # The pools and the hash table of the concrete builder -/
namespace Dawg.Abs
attribute [-simp] List.length_flatten

/-! ## Hashes -/

def hashG (ps : List Pair) : Nat := ps.foldr (fun p h => Builder.hashPair p.1 p.2 ^^^ h) 0

theorem hashG_append (a b : List Pair) : hashG (a ++ b) = hashG a ^^^ hashG b := by
  induction a with
  | nil => simp [hashG]
  | cons p a ih => simp only [List.cons_append, hashG, List.foldr_cons] at ih ⊢; rw [ih, Nat.xor_assoc]

theorem hashG_reverse (a : List Pair) : hashG a.reverse = hashG a := by
  induction a with
  | nil => rfl
  | cons p a ih =>
    rw [List.reverse_cons, hashG_append, ih]
    simp only [hashG, List.foldr_cons, List.foldr_nil, Nat.xor_zero]
    exact Nat.xor_comm _ _

/-! ## The relation -/

/-- The pools, counters and hash table of `db` represent `c`. -/
structure CoreRel (db : Builder) (c : Core) : Prop where
  base : db.basePool = 0 :: c.groups.flatten.map Prod.snd
  label : db.labelPool = 0 :: c.groups.flatten.map Prod.fst
  flagSize : db.flagPool.size = poolLen c.groups
  flags : BitInv db.flagPool (fun i => decide (i ∈ c.marked))
  states : db.numOfStates = c.groups.length + 1
  merged : db.numOfMergedTransitions = c.merged
  merging : db.numOfMergingStates = c.marked.length
  wf : ∀ g ∈ c.groups, GroupWf g
  nodup : c.groups.Nodup
  table : TableInv db.hashTable (starts 1 c.groups) (fun s => hashG (groupAt 1 c.groups s))
  room : c.groups.length < db.hashTable.length
  htlen : db.hashTable.length < 4294967296
  markedNodup : c.marked.Nodup
  markedSub : ∀ s ∈ c.marked, s ∈ starts 1 c.groups

theorem CoreRel.ne {db c} (h : CoreRel db c) : ∀ g ∈ c.groups, g ≠ [] := fun g hg => (h.wf g hg).ne

theorem CoreRel.rd_base {db c} (h : CoreRel db c) {s g} (hs : IsStart c.groups s g) {i : Nat} (hi : i < g.length) :
    rd db.basePool (s + i) = .ok g[i].2 := by
  apply rd_some
  rw [h.base]
  have := hs.get hi ((0 : UInt8), (0 : Nat))
  have h2 : (List.map Prod.snd (((0 : UInt8), (0 : Nat)) :: c.groups.flatten))[s + i]? = some g[i].2 := by
    rw [List.getElem?_map, this]; simp [hi]
  simpa using h2

theorem CoreRel.rd_label {db c} (h : CoreRel db c) {s g} (hs : IsStart c.groups s g) {i : Nat} (hi : i < g.length) :
    rd db.labelPool (s + i) = .ok g[i].1 := by
  apply rd_some
  rw [h.label]
  have := hs.get hi ((0 : UInt8), (0 : Nat))
  have h2 : (List.map Prod.fst (((0 : UInt8), (0 : Nat)) :: c.groups.flatten))[s + i]? = some g[i].1 := by
    rw [List.getElem?_map, this]; simp [hi]
  simpa using h2

/-- Only the pools matter for reading. -/
theorem CoreRel.base_length {db c} (h : CoreRel db c) : db.basePool.length = poolLen c.groups := by
  rw [h.base, List.length_cons, List.length_map, poolLen]; omega

/-! ## hashTransition -/

theorem hashTransitionLoop_spec {db c} (hr : CoreRel db c) (hsz : poolLen c.groups < 4294967296) {s g}
    (hs : IsStart c.groups s g) : ∀ (n i fuel h : Nat), g.length - i = n + 1 → n < fuel →
    Builder.hashTransitionLoop db fuel (s + i) h = .ok (h ^^^ hashG (g.drop i)) := by
  have hwf := hr.wf g hs.mem
  have hpos := hs.pos
  have hb := hs.bound
  intro n
  induction n with
  | zero =>
    intro i fuel h hn hf
    obtain ⟨fuel, rfl⟩ : ∃ f, fuel = f + 1 := ⟨fuel - 1, by omega⟩
    have hi : i < g.length := by omega
    have hsib := hwf.sib i g[i] (by simp [hi])
    rw [decide_eq_false (by omega)] at hsib
    simp only [Builder.hashTransitionLoop, hr.rd_base hs hi, hr.rd_label hs hi, ok_bind, hsib]
    rw [if_neg (by omega)]
    rw [List.drop_eq_getElem_cons hi, List.drop_eq_nil_of_le (by omega)]
    simp [hashG]
  | succ n ih =>
    intro i fuel h hn hf
    obtain ⟨fuel, rfl⟩ : ∃ f, fuel = f + 1 := ⟨fuel - 1, by omega⟩
    have hi : i < g.length := by omega
    have hsib := hwf.sib i g[i] (by simp [hi])
    rw [decide_eq_true (by omega)] at hsib
    simp only [Builder.hashTransitionLoop, hr.rd_base hs hi, hr.rd_label hs hi, ok_bind, hsib]
    rw [if_neg (by omega), if_pos trivial, u32_of_lt (by omega), Nat.add_assoc, ih (i + 1) fuel _ (by omega) (by omega)]
    rw [List.drop_eq_getElem_cons hi]
    simp only [hashG, List.foldr_cons, Nat.xor_assoc]

theorem hashTransition_spec {db c} (hr : CoreRel db c) (hsz : poolLen c.groups < 4294967296) {s g}
    (hs : IsStart c.groups s g) : Builder.hashTransition db s = .ok (hashG g) := by
  have hne := List.length_pos_iff.2 (hr.ne g hs.mem)
  have hb := hs.bound
  have := hashTransitionLoop_spec hr hsz hs (g.length - 1) 0 (db.basePool.length + 1) 0 (by omega)
    (by rw [hr.base_length]; omega)
  simpa [Builder.hashTransition] using this

/-! ## Probe loops -/

theorem findTransitionLoop_spec {db : Builder} {s d fuel : Nat} (hlen : db.hashTable.length < 4294967296)
    (hs : s < db.hashTable.length) (hd : d < fuel)
    (hstop : slot db.hashTable ((s + d) % db.hashTable.length) = 0)
    (hgo : ∀ e, e < d → slot db.hashTable ((s + e) % db.hashTable.length) ≠ 0) :
    Builder.findTransitionLoop db fuel s = .ok ((s + d) % db.hashTable.length) := by
  induction d generalizing s fuel with
  | zero =>
    obtain ⟨fuel, rfl⟩ : ∃ f, fuel = f + 1 := ⟨fuel - 1, by omega⟩
    simp only [Nat.add_zero, Nat.mod_eq_of_lt hs, slot_lt hs] at hstop ⊢
    simp only [Builder.findTransitionLoop, rd_lt hs, ok_bind, hstop]
    simp
  | succ d ih =>
    obtain ⟨fuel, rfl⟩ : ∃ f, fuel = f + 1 := ⟨fuel - 1, by omega⟩
    have h0 := hgo 0 (by omega)
    simp only [Nat.add_zero, Nat.mod_eq_of_lt hs, slot_lt hs] at h0
    have hpos : 0 < db.hashTable.length := by omega
    have hshift : ∀ e, ((s + 1) % db.hashTable.length + e) % db.hashTable.length = (s + (e + 1)) % db.hashTable.length := by
      intro e; rw [Nat.mod_add_mod]; congr 1; omega
    simp only [Builder.findTransitionLoop, rd_lt hs, ok_bind, h0, if_false, u32_of_lt hlen,
      md_pos hpos, u32_of_lt (show s + 1 < 4294967296 by omega)]
    rw [ih (Nat.mod_lt _ hpos) (by omega)]
    · rw [hshift]
    · rw [hshift]; exact hstop
    · intro e he; rw [hshift]; exact hgo (e + 1) (by omega)

theorem findUnitLoop_spec {db : Builder} {h s d fuel : Nat} {eq : Nat → Bool} {r : Nat}
    (hlen : db.hashTable.length < 4294967296)
    (heq : ∀ j, j < db.hashTable.length → slot db.hashTable j ≠ 0 →
      db.areEqual h (slot db.hashTable j) = .ok (eq (slot db.hashTable j)))
    (hs : s < db.hashTable.length) (hd : d < fuel)
    (hr : slot db.hashTable ((s + d) % db.hashTable.length) = r)
    (hstop : r = 0 ∨ eq r = true)
    (hgo : ∀ e, e < d → slot db.hashTable ((s + e) % db.hashTable.length) ≠ 0 ∧
      eq (slot db.hashTable ((s + e) % db.hashTable.length)) = false) :
    Builder.findUnitLoop db h fuel s = .ok (r, (s + d) % db.hashTable.length) := by
  induction d generalizing s fuel with
  | zero =>
    obtain ⟨fuel, rfl⟩ : ∃ f, fuel = f + 1 := ⟨fuel - 1, by omega⟩
    have he := heq s hs
    simp only [Nat.add_zero, Nat.mod_eq_of_lt hs, slot_lt hs] at hr he ⊢
    subst hr
    simp only [Builder.findUnitLoop, rd_lt hs, ok_bind]
    by_cases h0 : db.hashTable[s] = 0
    · simp [h0]
    · simp only [if_neg h0, he h0, ok_bind, hstop.resolve_left h0, if_true, pure_eq_ok]
  | succ d ih =>
    obtain ⟨fuel, rfl⟩ : ∃ f, fuel = f + 1 := ⟨fuel - 1, by omega⟩
    have h0 := hgo 0 (by omega)
    have he := heq s hs
    simp only [Nat.add_zero, Nat.mod_eq_of_lt hs, slot_lt hs] at h0 he
    have hpos : 0 < db.hashTable.length := by omega
    have hshift : ∀ e, ((s + 1) % db.hashTable.length + e) % db.hashTable.length = (s + (e + 1)) % db.hashTable.length := by
      intro e; rw [Nat.mod_add_mod]; congr 1; omega
    simp only [Builder.findUnitLoop, rd_lt hs, ok_bind, h0.1, if_false, he h0.1, h0.2, u32_of_lt hlen,
      md_pos hpos, u32_of_lt (show s + 1 < 4294967296 by omega), Bool.false_eq_true]
    rw [ih (Nat.mod_lt _ hpos) (by omega)]
    · rw [hshift]
    · rw [hshift]; exact hr
    · intro e he; rw [hshift]; exact hgo (e + 1) (by omega)

/-! ## expandHashTable -/

/-- `findTransition` on a table that holds only the entries `S`. -/
theorem findTransition_spec {db c} (hr : CoreRel db c) (hsz : poolLen c.groups < 4294967296) {ht S : List Nat}
    (hti : TableInv ht S (fun s => hashG (groupAt 1 c.groups s))) (hl : S.length < ht.length)
    (hlen : ht.length < 4294967296) {s g} (hs : IsStart c.groups s g) :
    ∃ d, d < ht.length ∧
      Builder.findTransition { db with hashTable := ht } s = .ok ((hashG g + d) % ht.length) ∧
      slot ht ((hashG g + d) % ht.length) = 0 ∧
      ∀ e, e < d → slot ht ((hashG g + e) % ht.length) ≠ 0 := by
  obtain ⟨d, hd, hz, hfull⟩ := hti.free_slot hl (hashG g)
  refine ⟨d, hd, ?_, hz, hfull⟩
  have hh : Builder.hashTransition { db with hashTable := ht } s = .ok (hashG g) := by
    have : ∀ fuel i h, Builder.hashTransitionLoop { db with hashTable := ht } fuel i h =
        Builder.hashTransitionLoop db fuel i h := by
      intro fuel
      induction fuel with
      | zero => intros; rfl
      | succ n ih => intro i h; simp only [Builder.hashTransitionLoop, ih]
    unfold Builder.hashTransition
    rw [this]
    exact hashTransition_spec hr hsz hs
  have hpos : 0 < ht.length := by omega
  unfold Builder.findTransition
  simp only [hh, ok_bind, u32_of_lt hlen, md_pos hpos]
  have hm : ∀ e, (hashG g % ht.length + e) % ht.length = (hashG g + e) % ht.length := fun e => Nat.mod_add_mod ..
  rw [findTransitionLoop_spec (d := d) (db := { db with hashTable := ht }) hlen (Nat.mod_lt _ hpos)
    (show d < ht.length + 1 by omega)]
  · simp [hm]
  · simpa [hm] using hz
  · intro e he; simpa [hm] using hfull e he

theorem expandLoop_spec {db c} (hr : CoreRel db c) (hsz : poolLen c.groups < 4294967296) :
    ∀ (post pre : List Group) (ht : List Nat), c.groups = pre ++ post →
    TableInv ht (starts 1 pre) (fun s => hashG (groupAt 1 c.groups s)) →
    c.groups.length ≤ ht.length → ht.length < 4294967296 →
    ∃ ht', Builder.expandLoop post.flatten.length { db with hashTable := ht } = .ok { db with hashTable := ht' } ∧
      ht'.length = ht.length ∧ TableInv ht' (starts 1 c.groups) (fun s => hashG (groupAt 1 c.groups s)) := by
  intro post
  induction post with
  | nil =>
    intro pre ht hg hti _ _
    simp at hg
    exact ⟨ht, by simp [Builder.expandLoop], rfl, hg ▸ hti⟩
  | cons g post ih =>
    intro pre ht hg hti hroom hlen
    have hs : IsStart c.groups (poolLen pre) g := ⟨pre, post, hg, rfl⟩
    have hwf := hr.wf g hs.mem
    have hgpos : 0 < g.length := List.length_pos_iff.2 hwf.ne
    have hb := hs.bound
    have hpl : poolLen c.groups = poolLen pre + g.length + post.flatten.length := by
      rw [hg, poolLen_append]; simp; omega
    have hStart : (starts 1 pre).length < ht.length := by
      rw [starts_length]; rw [hg] at hroom; simp at hroom; omega
    obtain ⟨d, hd, hfind, hz, hfull⟩ := findTransition_spec hr hsz hti hStart hlen hs
    -- skipping the rest of the group
    have hskip : ∀ (n i : Nat) (ht' : List Nat), g.length - i = n → 0 < i →
        Builder.expandLoop (n + post.flatten.length) { db with hashTable := ht' } =
        Builder.expandLoop post.flatten.length { db with hashTable := ht' } := by
      intro n
      induction n with
      | zero => intro i ht' hn hi; simp
      | succ n ihn =>
        intro i ht' hn hi
        have hilt : i < g.length := by omega
        have hfirst := hwf.first i g[i] (by simp [hilt])
        rw [decide_eq_false (by omega)] at hfirst
        rw [show n + 1 + post.flatten.length = (n + post.flatten.length) + 1 by omega]
        simp only [Builder.expandLoop]
        rw [hr.base_length, show poolLen c.groups - (n + post.flatten.length + 1) = poolLen pre + i by omega]
        rw [hr.rd_label hs hilt, hr.rd_base hs hilt]
        simp only [ok_bind]
        have : ¬ ((decide (g[i].1 = 0) || baseIsState g[i].2) = true) := by
          intro hc
          have : (g[i].1 == 0 || baseIsState g[i].2) = true := by simpa using hc
          rw [this] at hfirst; exact absurd hfirst (by simp)
        rw [if_neg this]
        exact ihn (i + 1) ht' (by omega) (by omega)
    have hstep : Builder.expandLoop (g :: post).flatten.length { db with hashTable := ht } =
        Builder.expandLoop post.flatten.length
          { db with hashTable := ht.set ((hashG g + d) % ht.length) (poolLen pre) } := by
      have hfirst := hwf.first 0 g[0] (by simp [hgpos])
      rw [show (g :: post).flatten.length = (g.length - 1 + post.flatten.length) + 1 by simp; omega]
      simp only [Builder.expandLoop]
      rw [hr.base_length, show poolLen c.groups - (g.length - 1 + post.flatten.length + 1) = poolLen pre by omega]
      have h1 := hr.rd_label hs hgpos
      have h2 := hr.rd_base hs hgpos
      rw [Nat.add_zero] at h1 h2
      rw [h1, h2]
      simp only [ok_bind]
      have : (decide (g[0].1 = 0) || baseIsState g[0].2) = true := by simpa using hfirst
      rw [if_pos this]
      have hlt : (hashG g + d) % ht.length < ht.length := Nat.mod_lt _ (by omega)
      rw [hfind]
      simp only [ok_bind, wr_lt hlt, u32_of_lt (show poolLen pre < 4294967296 by omega)]
      exact hskip (g.length - 1) 1 _ (by omega) (by omega)
    have hpnew : poolLen pre ∉ starts 1 pre := by
      intro hmem
      have := starts_lt (fun g' hg' => hr.ne g' (by rw [hg]; simp [hg'])) hmem
      simp [poolLen] at this
    have hga : hashG (groupAt 1 c.groups (poolLen pre)) = hashG g := by rw [hs.groupAt hr.ne]
    have hti' := hti.insert (k := poolLen pre) (d := d) (by simp only [poolLen]; omega) hpnew hd
      (by simp only [hga]; exact hz) (by simp only [hga]; exact hfull)
    simp only [hga] at hti'
    have hti'' := hti'.perm (S' := starts 1 (pre ++ [g])) (by
      rw [starts_snoc]; exact (List.perm_append_singleton _ _).symm)
    obtain ⟨ht', h1, h2, h3⟩ := ih (pre ++ [g]) _ (by simp [hg]) hti'' (by simpa using hroom) (by simpa using hlen)
    exact ⟨ht', by rw [hstep, h1], by simpa using h2, h3⟩

theorem CoreRel.setTable {db c} (hr : CoreRel db c) {ht : List Nat}
    (hti : TableInv ht (starts 1 c.groups) (fun s => hashG (groupAt 1 c.groups s)))
    (hroom : c.groups.length < ht.length) (hlen : ht.length < 4294967296) :
    CoreRel { db with hashTable := ht } c :=
  ⟨hr.base, hr.label, hr.flagSize, hr.flags, hr.states, hr.merged, hr.merging, hr.wf, hr.nodup, hti, hroom, hlen,
    hr.markedNodup, hr.markedSub⟩

theorem maybeExpand_spec {db c} (hr : CoreRel db c) (hsz : poolLen c.groups ≤ 1073741824) :
    ∃ ht, db.maybeExpand = .ok { db with hashTable := ht } ∧ CoreRel { db with hashTable := ht } c ∧
      c.groups.length + 1 < ht.length := by
  unfold Builder.maybeExpand
  have hst := hr.states
  have hroom := hr.room
  have hshift : db.hashTable.length >>> 2 = db.hashTable.length / 4 := by simp [Nat.shiftRight_eq_div_pow]
  have hgl : c.groups.length ≤ c.groups.flatten.length := by
    have := hr.ne
    generalize c.groups = gs at this
    induction gs with
    | nil => simp
    | cons g gs ih =>
      have h1 := List.length_pos_iff.2 (this g (by simp))
      have h2 := ih (fun g' hg' => this g' (by simp [hg']))
      simp; omega
  rw [hshift]
  by_cases hc : db.numOfStates ≥ db.hashTable.length - db.hashTable.length / 4
  · rw [if_pos hc]
    unfold Builder.expandHashTable
    have h2 : db.hashTable.length <<< 1 = db.hashTable.length * 2 := by simp [Nat.shiftLeft_eq]
    rw [h2]
    simp only [poolLen] at hsz
    obtain ⟨ht', h1, hl, hti⟩ := expandLoop_spec hr (by simp only [poolLen]; omega) c.groups []
      (List.replicate (db.hashTable.length * 2) 0) (by simp) (by simpa [starts] using TableInv.empty _ _)
      (by simp; omega) (by simp; omega)
    simp at hl
    refine ⟨ht', ?_, hr.setTable hti (by omega) (by omega), by omega⟩
    rw [← h1, hr.base_length]
    simp [poolLen]
  · rw [if_neg hc]
    exact ⟨db.hashTable, rfl, hr, by omega⟩

end Dawg.Abs
