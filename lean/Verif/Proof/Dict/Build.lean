import Verif.Proof.Dict.Arrange
/-! # `buildDictionaryIndices` -/
namespace Dawg.Dict
attribute [-simp] List.length_flatten
open Dawg.Abs DictBuilder Dawg.Spec

/-- The link table holds offsets of arranged merging states. -/
def TInv (c : Core) (lt : LinkTable) (G : List (Nat × Nat)) : Prop :=
  ∃ m keys, LinkInv lt.hashTable m keys ∧ (∀ s, m s ≠ 0 → (m s, s) ∈ G) ∧ (∀ k ∈ keys, k ∈ c.marked) ∧ c.marked.length ≤ lt.hashTable.length

theorem TInv.mono {c lt G} (h : TInv c lt G) {H : List (Nat × Nat)} (hs : ∀ x ∈ G, x ∈ H) : TInv c lt H := by
  obtain ⟨m, keys, h1, h2, h3, h4⟩ := h
  exact ⟨m, keys, h1, fun s hs' => hs _ (h2 s hs'), h3, h4⟩

theorem room {c : Core} {t : List LinkPair} {m keys} (hi : LinkInv t m keys) (hk : ∀ k ∈ keys, k ∈ c.marked) (hl : c.marked.length ≤ t.length)
    {s : Nat} (hs : s ∈ c.marked) : s ∈ keys ∨ keys.length < t.length := by
  by_cases hm : s ∈ keys
  · exact .inl hm
  · right
    have := List.Nodup.length_le_of_subset (List.nodup_cons.2 ⟨hm, hi.nodup⟩) (l₂ := c.marked) (by
      intro k hk'
      rcases List.mem_cons.1 hk' with rfl | h
      · exact hs
      · exact hk k h)
    simp only [List.length_cons] at this; omega

theorem TInv.find {c lt G} (h : TInv c lt G) {s : Nat} (hs : s ∈ c.marked) (h0 : s ≠ 0) :
    ∃ o, lt.find s = .ok o ∧ (o ≠ 0 → (o, s) ∈ G) := by
  obtain ⟨m, keys, h1, h2, h3, h4⟩ := h
  exact ⟨m s, h1.find h0 (room h1 h3 h4 hs), h2 s⟩

theorem TInv.insert {c lt G} (h : TInv c lt G) {s o : Nat} (hs : s ∈ c.marked) (h0 : s ≠ 0) (ho : (o, s) ∈ G) :
    ∃ lt', lt.insert s o = .ok lt' ∧ TInv c lt' G ∧ lt'.find s = .ok o ∧ ∀ s' ∈ c.marked, s' ≠ 0 → s' ≠ s → lt'.find s' = lt.find s' := by
  obtain ⟨m, keys, h1, h2, h3, h4⟩ := h
  obtain ⟨t', e1, e2, e3⟩ := h1.insert (o := o) h0 (room h1 h3 h4 hs)
  have hkeys : ∀ k ∈ (if s ∈ keys then keys else s :: keys), k ∈ c.marked := by
    intro k hk
    split at hk
    · exact h3 k hk
    · rcases List.mem_cons.1 hk with rfl | h
      · exact hs
      · exact h3 k h
  refine ⟨⟨t'⟩, e1, ⟨_, _, e3, ?_, hkeys, by simp only []; rw [e2]; exact h4⟩, ?_, ?_⟩
  · intro x hx
    by_cases hxs : x = s
    · subst hxs; simpa using ho
    · simp only [if_neg hxs] at hx ⊢; exact h2 x hx
  · rw [e3.find h0 (room e3 hkeys (by rw [e2]; exact h4) hs), if_pos rfl]
  · intro s' hs' h0' hss
    rw [e3.find h0' (room e3 hkeys (by rw [e2]; exact h4) hs'), if_neg hss]
    exact (h1.find h0' (room h1 h3 h4 hs')).symm

theorem hasEmpty_first {c r acc s g} (hf : FinalCore c r acc) (hs : IsStart c.groups s g) (h0 : 0 < g.length) :
    (g[0].1 == 0) = hasEmpty c s := by
  have hgrp : grp c s = g := hs.groupAt hf.cinv.ne
  unfold hasEmpty
  rw [hgrp]
  have hasc := hf.cinv.asc _ hs.mem
  cases g with
  | nil => simp at h0
  | cons q rest =>
    simp only [List.getElem_cons_zero, List.any_cons]
    have : rest.any (fun q => q.1 == 0) = false := by
      rw [List.any_eq_false]
      intro q' hq' he
      have := (List.pairwise_cons.1 hasc).1 q' hq'
      rw [beq_iff_eq] at he
      rw [he] at this
      exact UInt8.not_lt_zero this
    rw [this, Bool.or_false]

theorem PendAt.word {c r db B ex G pend u l s w} (hp : PendAt c r G u l s) (h : DInv c r db B ex G pend) (hpw : pend u = some w) :
    db.units[u]? = some w := by
  rcases hp with ⟨rfl, _⟩ | ⟨x, q, hk, h1, h2, _⟩
  · rcases h.u.root with ⟨w', h1, h2⟩ | ⟨h1, _⟩
    · rw [hpw] at h1; cases h1; exact h2
    · rw [hpw] at h1; cases h1
  · rcases h.u.node hk (by rw [h1]; exact h2) with ⟨w', h3, h4⟩ | ⟨h3, _⟩
    · rw [hpw] at h3; cases h3; exact h4
    · rw [hpw] at h3; cases h3

theorem PendAt.mono {c r G u l s} (hp : PendAt c r G u l s) {H : List (Nat × Nat)} (hs : ∀ x ∈ G, x ∈ H) : PendAt c r H u l s := by
  rcases hp with h | ⟨x, q, h1, h2⟩
  · exact .inl h
  · exact .inr ⟨x, q, h1.mono hs, h2⟩

theorem start_lt {c : Core} {s g} (hs : IsStart c.groups s g) (hne : ∀ g ∈ c.groups, g ≠ []) : s < poolLen c.groups := by
  have := hs.bound
  have := List.length_pos_iff.2 (hne g hs.mem)
  omega

/-- Reusing an arrangement. -/
theorem tryLink_spec {d : Dawg} {c r acc s g} (hd : DawgIs d c r) (hf : FinalCore c r acc) (hs : IsStart c.groups s g)
    {db B ex G pend u l w} (h : DInv c r db B ex G pend) (ht : TInv c db.linkTable G) (hp : PendAt c r G u l s) (hpw : pend u = some w) (hw : PW l w) :
    tryLink d db s u = .ok none ∨
      ∃ db', tryLink d db s u = .ok (some db') ∧ DInv c r db' B ex G (fun i => if i = u then none else pend i) ∧ db'.linkTable = db.linkTable := by
  have hne := hf.cinv.ne
  have hs0 : s ≠ 0 := Nat.pos_iff_ne_zero.1 hs.pos
  have hm := hd.isMerging_iff hf (start_lt hs hne)
  have hgl := List.length_pos_iff.2 (hne g hs.mem)
  unfold tryLink
  rw [hm]
  simp only [ok_bind]
  by_cases hmk : s ∈ c.marked
  · simp only [hmk, decide_true, Bool.not_true, Bool.false_eq_true, if_false]
    obtain ⟨o, e1, e2⟩ := ht.find hmk hs0
    rw [e1]
    simp only [ok_bind]
    by_cases ho : o = 0
    · rw [if_pos ho]; exact .inl rfl
    · rw [if_neg ho]
      have hoG := e2 ho
      have huw := hp.word h hpw
      have hul' : u < db.units.length := (List.getElem?_eq_some_iff.1 huw).1
      have hul : u < 256 * B := by rw [← h.ext.units]; exact hul'
      have hoB := (h.u.offs _ hoG).2.1
      have hle := h.le
      have hlt : o ^^^ u < 536870912 := Nat.xor_lt_two_pow (n := 29) (by simp only [] at hoB; omega) (by omega)
      by_cases henc : Enc (u ^^^ o)
      · have hc := (enc_iff _ hlt).2 (by rw [Nat.xor_comm]; exact henc)
        rw [if_pos hc]
        -- the has-leaf bit
        have hleaf := hd.isLeaf_at hs (j := 0) (p := g[0]) (by simp)
        rw [Nat.add_zero, hasEmpty_first hf hs hgl] at hleaf
        have hmark : markLeaf d db s u = .ok { db with units := db.units.set u (if hasEmpty c s then dictSetHasLeaf w else w) } := by
          unfold markLeaf
          rw [hleaf]
          simp only [ok_bind]
          cases hasEmpty c s with
          | true => rw [if_pos rfl, if_pos rfl, modUnit_ok huw]
          | false =>
            rw [if_neg (by simp), if_neg (by simp)]
            have : db.units.set u w = db.units := by
              apply List.ext_getElem?
              intro i
              rw [List.getElem?_set]
              by_cases hi : u = i
              · subst hi; rw [if_pos rfl, if_pos hul', huw]
              · rw [if_neg hi]
            rw [this]
        rw [hmark]
        have hrd : rd (db.units.set u (if hasEmpty c s then dictSetHasLeaf w else w)) u = .ok (if hasEmpty c s then dictSetHasLeaf w else w) :=
          rd_some (by simp [hul'])
        have hset : dictSetOffset (if hasEmpty c s then dictSetHasLeaf w else w) (o ^^^ u) = some (nodeWord l (hasEmpty c s) (u ^^^ o)) := by
          rw [Nat.xor_comm o u]
          cases hasEmpty c s with
          | true => exact setOffset_eq l true hw.maskLeaf henc
          | false => exact setOffset_eq l false hw.mask henc
        have hwr : wr (db.units.set u (if hasEmpty c s then dictSetHasLeaf w else w)) u (nodeWord l (hasEmpty c s) (u ^^^ o)) =
            .ok (db.units.set u (nodeWord l (hasEmpty c s) (u ^^^ o))) := by
          rw [wr_lt (by simpa using hul'), List.set_set]
        simp only [ok_bind, hrd, hset, hwr]
        refine .inr ⟨_, rfl, ⟨⟨by simpa using h.ext.units, h.ext.len, h.ext.get⟩, h.fl, ?_, h.w, h.pos, h.le⟩, rfl⟩
        refine h.u.set (w' := nodeWord l (hasEmpty c s) (u ^^^ o)) hpw (by simp [hul']) (by intro j hj; simp [List.getElem?_set, Ne.symm hj]) (by simp)
          (by intro j hj; simp [hj]) (.inr ⟨by simp, l, s, o, hp, hoG, henc, rfl⟩)
      · have hc : ¬ ((decide ((o ^^^ u) &&& upperMask = 0) || decide ((o ^^^ u) &&& lowerMask = 0)) = true) := by
          intro hc; exact henc (by rw [Nat.xor_comm]; exact (enc_iff _ hlt).1 hc)
        rw [if_neg hc]; exact .inl rfl
  · simp only [hmk, decide_false, Bool.not_false, if_true]
    exact .inl rfl

theorem recordLink_spec {d : Dawg} {c r acc s g} (hd : DawgIs d c r) (hf : FinalCore c r acc) (hs : IsStart c.groups s g)
    {db B ex G pend o} (h : DInv c r db B ex G pend) (ht : TInv c db.linkTable G) (ho : (o, s) ∈ G) :
    ∃ db', recordLink d db s o = .ok db' ∧ DInv c r db' B ex G pend ∧ TInv c db'.linkTable G ∧
      (s ∈ c.marked → db'.linkTable.find s = .ok o) ∧ ∀ s' ∈ c.marked, s' ≠ 0 → s' ≠ s → db'.linkTable.find s' = db.linkTable.find s' := by
  have hne := hf.cinv.ne
  have hm := hd.isMerging_iff hf (start_lt hs hne)
  unfold recordLink
  rw [hm]
  simp only [ok_bind]
  by_cases hmk : s ∈ c.marked
  · obtain ⟨lt', e1, e2, e3, e4⟩ := ht.insert hmk (Nat.pos_iff_ne_zero.1 hs.pos) ho
    simp only [hmk, decide_true, if_true, e1, ok_bind]
    exact ⟨_, rfl, ⟨h.ext, h.fl, h.u, h.w, h.pos, h.le⟩, e2, fun _ => e3, e4⟩
  · simp only [hmk, decide_false, Bool.false_eq_true, if_false]
    exact ⟨db, rfl, h, ht, fun h => h.elim, fun _ _ _ _ => rfl⟩

/-- A recorded arrangement is reused when everything lies below 2^21. -/
theorem tryLink_reuse {d : Dawg} {c r acc s g} (hd : DawgIs d c r) (hf : FinalCore c r acc) (hs : IsStart c.groups s g) {db u o} (hm : s ∈ c.marked)
    (hfd : db.linkTable.find s = .ok o) (ho : o ≠ 0) (h1 : o < 2097152) (h2 : u < 2097152) : tryLink d db s u ≠ .ok none := by
  have hlt : o ^^^ u < 2097152 := Nat.xor_lt_two_pow (n := 21) h1 h2
  have hc := (enc_iff (o ^^^ u) (by omega)).2 ⟨by omega, .inl hlt⟩
  unfold tryLink
  rw [hd.isMerging_iff hf (start_lt hs hf.cinv.ne), hfd]
  simp only [ok_bind, hm, decide_true, Bool.not_true, Bool.false_eq_true, if_false]
  rw [if_neg ho, if_pos hc]
  intro h
  obtain ⟨db1, _, h⟩ := bind_eq_ok.1 h
  obtain ⟨w, _, h⟩ := bind_eq_ok.1 h
  split at h
  · cases h
  · obtain ⟨us, _, h⟩ := bind_eq_ok.1 h
    cases h

/-- Every state has one arrangement: the merging states are found in the link table, and the other states were reached along one of the paths that were visited. -/
structure Once (c : Core) (acc : Lang) (V : Key → Prop) (G : List (Nat × Nat)) (lt : LinkTable) : Prop where
  link : ∀ {o s}, (o, s) ∈ G → s ∈ c.marked → lt.find s = .ok o
  path : ∀ {o s}, (o, s) ∈ G → s ∉ c.marked → ∃ p g, V p ∧ IsStart c.groups s g ∧ DenG c.groups g (residual acc p)
  one : ∀ {o o' s}, (o, s) ∈ G → (o', s) ∈ G → o = o'

theorem Once.mono {c acc V G lt} (h : Once c acc V G lt) {W : Key → Prop} (hw : ∀ k, V k → W k) : Once c acc W G lt :=
  ⟨h.link, fun h1 h2 => by obtain ⟨p, g, h3, h4⟩ := h.path h1 h2; exact ⟨p, g, hw p h3, h4⟩, h.one⟩

/-- A state that is arranged when it cannot be linked was not arranged before. -/
theorem Once.fresh {d : Dawg} {c r acc s g} (hd : DawgIs d c r) (hf : FinalCore c r acc) (hs : IsStart c.groups s g)
    {V : Key → Prop} {db B ex G pend u l} (h : DInv c r db B ex G pend) (hp : PendAt c r G u l s) (ho : Once c acc V G db.linkTable)
    {p : Key} (hden : DenG c.groups g (residual acc p)) (hV : ¬ V p) (hsm : ∀ x ∈ G, x.1 < 2097152) (hl : tryLink d db s u = .ok none) :
    ∀ o, (o, s) ∉ G := by
  intro o hG
  by_cases hm : s ∈ c.marked
  · refine tryLink_reuse hd hf hs hm (ho.link hG hm) (h.u.offs _ hG).1 (hsm _ hG) ?_ hl
    rcases hp with ⟨rfl, _⟩ | ⟨x, q, hk, _⟩
    · omega
    · rw [hk.2.2]
      have := label_lt q.1
      exact Nat.xor_lt_two_pow (n := 21) (hsm _ hk.1) (by omega)
  · obtain ⟨p', g', h1, h2, h3⟩ := ho.path hG hm
    have hg : g' = g := (h2.groupAt hf.cinv.ne).symm.trans (hs.groupAt hf.cinv.ne)
    subst hg
    exact hm ((hf.marked_iff hs hden).2 ⟨p', p, fun he => hV (he ▸ h1), h3.det hf.cinv.ne hden, rfl⟩)

theorem Once.cons {c acc V G lt lt' s g o} (ho : Once c acc V G lt) (hs : IsStart c.groups s g) (hpos : ∀ x ∈ G, x.2 ≠ 0) {p : Key}
    (hden : DenG c.groups g (residual acc p)) (hfr : ∀ o, (o, s) ∉ G) (h1 : s ∈ c.marked → lt'.find s = .ok o)
    (h2 : ∀ s' ∈ c.marked, s' ≠ 0 → s' ≠ s → lt'.find s' = lt.find s') : Once c acc (fun k => V k ∨ k = p) ((o, s) :: G) lt' := by
  refine ⟨?_, ?_, ?_⟩
  · intro o' s' h3 h4
    rcases List.mem_cons.1 h3 with h3 | h3
    · cases h3; exact h1 h4
    · rw [h2 s' h4 (hpos _ h3) (fun he => hfr o' (he ▸ h3))]
      exact ho.link h3 h4
  · intro o' s' h3 h4
    rcases List.mem_cons.1 h3 with h3 | h3
    · cases h3; exact ⟨p, g, .inr rfl, hs, hden⟩
    · obtain ⟨p', g', h5, h6⟩ := ho.path h3 h4
      exact ⟨p', g', .inl h5, h6⟩
  · intro o' o'' s' h3 h4
    rcases List.mem_cons.1 h3 with h3 | h3 <;> rcases List.mem_cons.1 h4 with h4 | h4
    · cases h3; cases h4; rfl
    · cases h3; exact absurd h4 (hfr _)
    · cases h4; exact absurd h3 (hfr _)
    · exact ho.one h3 h4

/-- The total size of a language. -/
def msize (L : Lang) : Nat := (L.map (fun e => e.1.length + 1)).sum

theorem msize_append (A B : Lang) : msize (A ++ B) = msize A + msize B := by simp [msize]

theorem msize_pre (l : UInt8) (L : Lang) : msize (L.map (pre [l])) = msize L + L.length := by
  unfold msize
  induction L with
  | nil => rfl
  | cons e L ih => simp only [List.map_cons, List.sum_cons, ih, pre, List.length_append, List.length_cons, List.length_nil]; omega

theorem msize_pos {L : Lang} (h : L ≠ []) : 1 ≤ msize L := by
  cases L with
  | nil => exact absurd rfl h
  | cons e L => simp only [msize, List.map_cons, List.sum_cons]; omega

/-- Every transition contributes at least one word. -/
theorem length_le_msize {groups : List Group} (hne : ∀ g ∈ groups, g ≠ []) {g : Group} {L : Lang} (h : DenG groups g L) : g.length ≤ msize L := by
  induction h with
  | nil => simp [msize]
  | leaf _ ih => simp only [msize, List.map_cons, List.sum_cons, List.length_nil, List.length_cons] at ih ⊢; omega
  | node _ hst hc _ _ ih =>
    have := List.length_pos_iff.2 (hc.ne_nil hne (hne _ hst.mem))
    rw [msize_append, msize_pre, List.length_cons]; omega

/-- What a call of `buildDictionaryIndices` does. -/
def CallSpec (d : Dawg) (c : Core) (r : Nat) (acc : Lang) (fuel : Nat) : Prop :=
  ∀ {db B ex G pend dawgIndex u l s g L w}, DInv c r db B ex G pend → TInv c db.linkTable G → PendAt c r G u l s → pend u = some w → PW l w →
    d.isLeaf dawgIndex = .ok false → d.child dawgIndex = .ok s → IsStart c.groups s g → DenG c.groups g L →
    (∀ e ∈ L, e.1.length + 2 ≤ fuel) → (∀ e ∈ L, e.2 < 2147483648) →
    ∃ db' ok n, (buildIndices d fuel db dawgIndex u = .ok (db', ok) ∧ buildIndicesN d fuel db dawgIndex u = .ok ((db', ok), n) ∧ n ≤ 4096 * msize L) ∧
      ((ok = false ∧ db'.units.length = 536870912 ∧ 2097153 ≤ B + msize L) ∨
       (ok = true ∧ ∃ B' ex' G', DInv c r db' B' ex' G' (fun i => if i = u then none else pend i) ∧ TInv c db'.linkTable G' ∧
         (∃ pre, G' = pre ++ G ∧ n ≤ 4096 * pre.length ∧ B' ≤ B + pre.length) ∧ B' ≤ B + msize L ∧
         ∀ (V : Key → Prop) (p : Key), residual acc p = L → (∀ k, ¬ V (p ++ k)) → Once c acc V G db.linkTable → (∀ x ∈ G', x.1 < 2097152) →
           Once c acc (fun k => V k ∨ p <+: k) G' db'.linkTable))

theorem foldl_false {d : Dawg} {fuel offset : Nat} {db : DictBuilder} : ∀ (ks : List Nat),
    ks.foldlM (init := (db, false)) (fun (p : DictBuilder × Bool) c => (do
        let (db, ok) := p
        if !ok then return (db, false)
        let l ← d.label c
        buildIndices d fuel db c (offset ^^^ l.toNat) : Go (DictBuilder × Bool))) = .ok (db, false)
  | [] => rfl
  | k :: ks => by
    rw [List.foldlM_cons]
    exact foldl_false ks

theorem foldl_stay {α β : Type} {f : α → β → Go α} {a : α} (h : ∀ b, f a b = .ok a) : ∀ (ks : List β), ks.foldlM f a = .ok a
  | [] => rfl
  | k :: ks => by
    rw [List.foldlM_cons, h k]
    exact foldl_stay h ks

/-- The calls for the children. -/
theorem children_spec {d : Dawg} {c r acc s g} (hd : DawgIs d c r) (hf : FinalCore c r acc) (hs : IsStart c.groups s g) {fuel o : Nat}
    (hf1 : 1 ≤ fuel) (IH : CallSpec d c r acc fuel) :
    ∀ (n j : Nat) (n0 : Nat) {db B ex G pend L}, j + n = g.length → DInv c r db B ex G pend → TInv c db.linkTable G → (o, s) ∈ G →
      (∀ q ∈ g.drop j, q.1 ≠ 0 → pend (o ^^^ q.1.toNat) = some q.1.toNat) → DenG c.groups (g.drop j) L →
      (∀ e ∈ L, e.1.length + 2 ≤ fuel + 1) → (∀ e ∈ L, e.2 < 2147483648) →
      ∃ db' ok m, (((List.range' j n).map (s + ·)).foldlM (init := (db, true)) (fun (p : DictBuilder × Bool) c => (do
          let (db, ok) := p
          if !ok then return (db, false)
          let l ← d.label c
          buildIndices d fuel db c (o ^^^ l.toNat) : Go (DictBuilder × Bool))) = .ok (db', ok) ∧
        ((List.range' j n).map (s + ·)).foldlM (init := ((db, true), n0)) (fun (p : (DictBuilder × Bool) × Nat) c => (do
          let ((db, ok), n) := p
          if !ok then return ((db, false), n)
          let l ← d.label c
          let (x, m) ← buildIndicesN d fuel db c (o ^^^ l.toNat)
          return (x, n + m) : Go ((DictBuilder × Bool) × Nat))) = .ok ((db', ok), n0 + m) ∧ m + 4096 * (g.drop j).length ≤ 4096 * msize L) ∧
        ((ok = false ∧ db'.units.length = 536870912 ∧ 2097154 ≤ B + msize L) ∨
         (ok = true ∧ ∃ B' ex' G' pend', DInv c r db' B' ex' G' pend' ∧ TInv c db'.linkTable G' ∧ (∃ pre, G' = pre ++ G ∧ m ≤ 4096 * pre.length ∧ B' ≤ B + pre.length) ∧
           B' + (g.drop j).length ≤ B + msize L ∧
           (∀ q ∈ g.drop j, q.1 ≠ 0 → pend' (o ^^^ q.1.toNat) = none) ∧
           (∀ i, (∀ q ∈ g.drop j, q.1 ≠ 0 → i ≠ o ^^^ q.1.toNat) → pend' i = pend i) ∧
           ∀ (V : Key → Prop) (p : Key), DenG c.groups g (residual acc p) → (∀ q ∈ g.drop j, q.1 ≠ 0 → ∀ k, ¬ V (p ++ q.1 :: k)) →
             Once c acc V G db.linkTable → (∀ x ∈ G', x.1 < 2097152) → Once c acc (fun k => V k ∨ p <+: k) G' db'.linkTable))
  | 0, j, n0, db, B, ex, G, pend, L, hj, h, ht, _, _, hden, _, _ => by
    have h0 : g.drop j = [] := List.drop_eq_nil_of_le (by omega)
    rw [h0] at hden ⊢
    cases hden
    exact ⟨db, true, 0, ⟨rfl, rfl, by simp [msize]⟩, .inr ⟨rfl, B, ex, G, pend, h, ht, ⟨[], rfl, by omega, by omega⟩, by simp [msize], by simp, fun _ _ => rfl,
      fun V p _ _ ho _ => ho.mono (fun _ => .inl)⟩⟩
  | n + 1, j, n0, db, B, ex, G, pend, L, hj, h, ht, hos, hpend, hden, hfu, hv => by
    have hne := hf.cinv.ne
    have hjl : j < g.length := by omega
    have hget : g[j]? = some g[j] := by simp [hjl]
    have hdrop : g.drop j = g[j] :: g.drop (j + 1) := List.drop_eq_getElem_cons hjl
    rw [hdrop] at hden hpend ⊢
    rw [List.range'_succ, List.map_cons, List.foldlM_cons, List.foldlM_cons]
    simp only [Bool.not_true, Bool.false_eq_true, if_false, hd.label_at hs hget, ok_bind]
    have hasc : Asc (g.drop j) := (hf.cinv.asc _ hs.mem).drop
    rw [hdrop] at hasc
    generalize hq : g[j] = q at *
    have hqg : q ∈ g := by rw [← hq]; exact List.getElem_mem hjl
    cases hden with
    | @leaf b rest L hr =>
      -- a leaf: nothing to do
      obtain ⟨fuel, rfl⟩ : ∃ k, fuel = k + 1 := ⟨fuel - 1, by omega⟩
      have hleaf : buildIndices d (fuel + 1) db (s + j) (o ^^^ (0 : UInt8).toNat) = .ok (db, true) := by
        rw [buildIndices, hd.isLeaf_at hs hget]; rfl
      have hleafN : buildIndicesN d (fuel + 1) db (s + j) (o ^^^ (0 : UInt8).toNat) = .ok ((db, true), 0) := by
        rw [buildIndicesN, hd.isLeaf_at hs hget]; rfl
      rw [hleaf, hleafN]
      simp only [ok_bind, pure_bind]
      obtain ⟨db', ok, m, ⟨e1, e1', e1''⟩, e2⟩ := children_spec hd hf hs hf1 IH n (j + 1) (n0 + 0) (by omega) h ht hos (fun q hq => hpend q (List.mem_cons_of_mem _ hq)) hr
        (fun e he => hfu e (List.mem_cons_of_mem _ he)) (fun e he => hv e (List.mem_cons_of_mem _ he))
      refine ⟨db', ok, m, ⟨e1, e1', ?_⟩, ?_⟩
      · simp only [msize, List.map_cons, List.sum_cons, List.length_nil, List.length_cons] at e1'' ⊢; omega
      rcases e2 with ⟨e2, e3, e4⟩ | ⟨e2, B', ex', G', pend', a1, a2, a3, a4, a5, a6, a7⟩
      · refine .inl ⟨e2, e3, ?_⟩
        simp only [msize, List.map_cons, List.sum_cons, List.length_nil] at e4 ⊢; omega
      · refine .inr ⟨e2, B', ex', G', pend', a1, a2, a3, ?_, ?_, ?_,
          fun V p hp hV ho hsm => a7 V p hp (fun q hq => hV q (List.mem_cons_of_mem _ hq)) ho hsm⟩
        · simp only [msize, List.map_cons, List.sum_cons, List.length_nil, List.length_cons] at a4 ⊢; omega
        · intro q hq h0
          rcases List.mem_cons.1 hq with rfl | hq
          · exact absurd rfl h0
          · exact a5 q hq h0
        · intro i hi
          exact a6 i (fun q hq h0 => hi q (List.mem_cons_of_mem _ hq) h0)
    | @node l b g' L' rest L hl hst hc hr =>
      have hp : PendAt c r G (o ^^^ l.toNat) l (baseChild b) :=
        .inr ⟨(o, s), (l, b), ⟨hos, by rw [show grp c (o, s).2 = g from hs.groupAt hne]; exact hqg, rfl⟩, rfl, hl, rfl⟩
      obtain ⟨db1, ok1, m1, ⟨e1, e1', e1''⟩, e2⟩ := IH h ht hp (hpend (l, b) List.mem_cons_self hl) (.inl rfl)
        (by rw [hd.isLeaf_at hs hget]; simp [hl]) (hd.child_at hs hget) hst hc
        (by
          intro e he
          have := hfu (pre [l] e) (List.mem_append_left _ (List.mem_map_of_mem he))
          simp [pre] at this; omega)
        (by
          intro e he
          exact hv (pre [l] e) (List.mem_append_left _ (List.mem_map_of_mem he)))
      rw [e1, e1']
      simp only [ok_bind, pure_bind]
      have hL : L' ≠ [] := hc.ne_nil hne (hne _ hst.mem)
      have hLl := List.length_pos_iff.2 hL
      rcases e2 with ⟨rfl, e2, e3⟩ | ⟨rfl, B1, ex1, G1, a1, a2, ⟨pre1, rfl, a3, a3'⟩, a4, a5⟩
      · have hrest := length_le_msize hne hr
        refine ⟨db1, false, m1, ⟨foldl_false _, foldl_stay (fun _ => rfl) _, ?_⟩, .inl ⟨rfl, e2, by rw [msize_append, msize_pre]; omega⟩⟩
        rw [msize_append, msize_pre, List.length_cons]
        clear e2 e3 hv hj
        omega
      · -- the units of the other children are different
        have hdiff : ∀ q' ∈ g.drop (j + 1), o ^^^ q'.1.toNat ≠ o ^^^ l.toNat := by
          intro q' hq' he
          have hlt := (List.pairwise_cons.1 hasc).1 q' hq'
          have : q'.1 = l := UInt8.toNat_inj.1 (xor_left_cancel he)
          rw [this] at hlt
          exact absurd hlt (UInt8.lt_irrefl _)
        obtain ⟨db', ok, m2, ⟨f1, f1', f1''⟩, f2⟩ := children_spec hd hf hs hf1 IH n (j + 1) (n0 + m1) (by omega) a1 a2 (List.mem_append_right _ hos)
          (by
            intro q' hq' h0
            rw [if_neg (hdiff q' hq')]
            exact hpend q' (List.mem_cons_of_mem _ hq') h0) hr
          (fun e he => hfu e (List.mem_append_right _ he)) (fun e he => hv e (List.mem_append_right _ he))
        refine ⟨db', ok, m1 + m2, ⟨f1, by rw [← Nat.add_assoc]; exact f1', ?_⟩, ?_⟩
        · rw [msize_append, msize_pre, List.length_cons]; omega
        rcases f2 with ⟨f2, f3, f4⟩ | ⟨f2, B', ex', G', pend', b1, b2, ⟨pre2, rfl, b3, b3'⟩, b4, b5, b6, b7⟩
        · exact .inl ⟨f2, f3, by rw [msize_append, msize_pre]; omega⟩
        · refine .inr ⟨f2, B', ex', _, pend', b1, b2, ⟨pre2 ++ pre1, by simp, by rw [List.length_append]; omega, by rw [List.length_append]; omega⟩, ?_, ?_, ?_, ?_⟩
          · rw [msize_append, msize_pre, List.length_cons]; omega
          · intro q' hq' h0
            rcases List.mem_cons.1 hq' with rfl | hq'
            · rw [b6 _ (fun q'' h'' _ he => hdiff q'' h'' he.symm)]; simp
            · exact b5 q' hq' h0
          · intro i hi
            rw [b6 i (fun q'' h'' h0 => hi q'' (List.mem_cons_of_mem _ h'') h0), if_neg (hi (l, b) List.mem_cons_self hl)]
          · intro V p hpd hV ho hsm
            obtain ⟨g'', hst', hc'⟩ := hpd.child (hf.cinv.asc _ hs.mem) hqg hl
            have hg : g'' = g' := (hst'.groupAt hne).symm.trans (hst.groupAt hne)
            subst hg
            have hL' : residual acc (p ++ [l]) = L' := by rw [residual_residual]; exact hc'.det hne hc
            have o1 := a5 V (p ++ [l]) hL' (fun k hk => hV (l, b) List.mem_cons_self hl k (by simpa using hk)) ho
              (fun x hx => hsm x (List.mem_append_right _ hx))
            refine (b7 _ p hpd ?_ o1 hsm).mono ?_
            · rintro q' hq' h0 k (hk | hk)
              · exact hV q' (List.mem_cons_of_mem _ hq') h0 k hk
              · have h3 := (List.prefix_append_right_inj p).1 hk
                rw [List.cons_prefix_cons] at h3
                exact hdiff q' hq' (by rw [← h3.1])
            · rintro k ((hk | hk) | hk)
              · exact .inl hk
              · exact .inr ((List.prefix_append _ _).trans hk)
              · exact .inr hk

theorem callSpec {d : Dawg} {c r acc} (hd : DawgIs d c r) (hf : FinalCore c r acc) : ∀ fuel, CallSpec d c r acc fuel := by
  intro fuel
  induction fuel with
  | zero =>
    intro db B ex G pend dawgIndex u l s g L w _ _ _ _ _ _ _ hs hden hfu _
    obtain ⟨e, he⟩ := List.exists_mem_of_ne_nil _ (hden.ne_nil hf.cinv.ne (hf.cinv.ne _ hs.mem))
    have := hfu e he; omega
  | succ fuel ih =>
    intro db B ex G pend dawgIndex u l s g L w h ht hp hpw hw hleaf hch hs hden hfu hv
    have hne := hf.cinv.ne
    have hgrp : grp c s = g := hs.groupAt hne
    have hfuel : 1 ≤ fuel := by
      obtain ⟨e, he⟩ := List.exists_mem_of_ne_nil _ (hden.ne_nil hne (hne _ hs.mem))
      have := hfu e he; omega
    have hval : ∀ q ∈ g, q.1 = 0 → baseValue q.2 < 2147483648 := by
      clear hfu hgrp hs
      intro q hq h0
      induction hden with
      | nil => simp at hq
      | leaf _ ih =>
        rcases List.mem_cons.1 hq with rfl | hq
        · exact hv _ List.mem_cons_self
        · exact ih (fun e he => hv e (List.mem_cons_of_mem _ he)) hq
      | node hl _ _ _ _ ih =>
        rcases List.mem_cons.1 hq with rfl | hq
        · exact absurd h0 hl
        · exact ih (fun e he => hv e (List.mem_append_right _ he)) hq
    rw [buildIndices, buildIndicesN, hleaf]
    simp only [ok_bind, Bool.false_eq_true, if_false, hch]
    have hL := msize_pos (hden.ne_nil hne (hne _ hs.mem))
    obtain ⟨nA, hnA, hA⟩ := arrangeN_spec hd hf hs h hp hpw hch
    rcases tryLink_spec hd hf hs h ht hp hpw hw with e1 | ⟨db', e1, e2, e3⟩
    · rw [e1]
      simp only [ok_bind]
      rcases arrange_spec hd hf hs hval h hp hpw hw hch with ⟨hB, db', e2, e3⟩ | ⟨db1, B1, ex1, o, e2, e3, e4, _, e5, e6⟩
      · rw [hA, e2]
        refine ⟨db', false, nA, ⟨rfl, rfl, by omega⟩, .inl ⟨rfl, ?_, ?_⟩⟩
        · rw [e3, h.ext.units, hB]
        · have := msize_pos (hden.ne_nil hne (hne _ hs.mem))
          omega
      · rw [hA, e2]
        simp only [ok_bind]
        rw [if_neg e3, if_neg e3]
        obtain ⟨db2, k1, k2, k3, k4, k5⟩ := recordLink_spec hd hf hs (o := o) e4 (by rw [e6]; exact ht.mono (fun x hx => List.mem_cons_of_mem _ hx)) List.mem_cons_self
        rw [k1]
        simp only [ok_bind, chain_full hd hf hs]
        -- kids of the new arrangement are not pending before
        have hkid : ∀ q ∈ g, Kid c ((o, s) :: G) (o ^^^ q.1.toNat) (o, s) q := fun q hq => ⟨List.mem_cons_self, by rw [hgrp]; exact hq, rfl⟩
        have hnk : ∀ q ∈ g, ¬ IsKid c G (o ^^^ q.1.toNat) := by
          rintro q hq ⟨x, q', hx⟩
          have := (e4.u.disj (hkid q hq) (hx.mono (fun y hy => List.mem_cons_of_mem _ hy))).1
          have hnd := e4.u.nodup
          rw [List.map_cons, List.nodup_cons] at hnd
          exact hnd.1 (List.mem_map.2 ⟨x, hx.1, by rw [← this]⟩)
        have hpn : ∀ q ∈ g, pend (o ^^^ q.1.toNat) = none := by
          intro q hq
          cases hpq : pend (o ^^^ q.1.toNat) with
          | none => rfl
          | some w =>
            rcases h.u.pendDom (u := o ^^^ q.1.toNat) (by rw [hpq]; simp) with h1 | h1
            · exact absurd h1 (e4.u.nz (hkid q hq))
            · exact absurd h1 (hnk q hq)
        have hku : ∀ q ∈ g, o ^^^ q.1.toNat ≠ u := by
          rintro q hq rfl
          rw [hpn q hq] at hpw; cases hpw
        obtain ⟨db3, ok, m, ⟨f1, f1', f1''⟩, f2⟩ := children_spec hd hf hs hfuel ih g.length 0 nA (by omega) k2 k3 List.mem_cons_self
          (by
            intro q hq h0
            rw [List.drop_zero] at hq
            rw [pendNew_kid pend hq (hku q hq), if_neg h0]) (by rw [List.drop_zero]; exact hden) hfu hv
        rw [f1, f1']
        have hgl := List.length_pos_iff.2 (hne g hs.mem)
        refine ⟨db3, ok, nA + m, ⟨rfl, rfl, ?_⟩, ?_⟩
        · rw [List.drop_zero] at f1''; omega
        rcases f2 with ⟨f2, f3, f4⟩ | ⟨f2, B', ex', G', pend', b1, b2, ⟨pre2, rfl, b3, b3'⟩, b4, b5, b6, b7⟩
        · exact .inl ⟨f2, f3, by omega⟩
        · rw [List.drop_zero] at b4 b5 b6
          refine .inr ⟨f2, B', ex', _, ?_, b2, ⟨pre2 ++ [(o, s)], by simp, by rw [List.length_append, List.length_singleton]; omega, by rw [List.length_append, List.length_singleton]; omega⟩, ?_, ?_⟩
          · have : pend' = fun i => if i = u then none else pend i := by
              funext i
              by_cases hik : ∃ q ∈ g, q.1 ≠ 0 ∧ i = o ^^^ q.1.toNat
              · obtain ⟨q, hq, h0, rfl⟩ := hik
                rw [b5 q hq h0, if_neg (hku q hq), hpn q hq]
              · rw [b6 i (fun q hq h0 he => hik ⟨q, hq, h0, he⟩)]
                by_cases hiu : i = u
                · rw [if_pos hiu, hiu, pendNew_self]
                · rw [if_neg hiu]
                  by_cases hil : ∃ q ∈ g, i = o ^^^ q.1.toNat
                  · obtain ⟨q, hq, rfl⟩ := hil
                    have h0 : q.1 = 0 := Classical.byContradiction fun h0 => hik ⟨q, hq, h0, rfl⟩
                    rw [pendNew_kid pend hq hiu, if_pos h0, hpn q hq]
                  · exact pendNew_other pend hiu (fun q hq he => hil ⟨q, hq, he⟩)
            rw [← this]; exact b1
          · have := List.length_pos_iff.2 (hne g hs.mem); omega
          · intro V p hpL hV ho hsm
            subst hpL
            have hsmG : ∀ x ∈ G, x.1 < 2097152 := fun x hx => hsm x (List.mem_append_right _ (List.mem_cons_of_mem _ hx))
            have hfr := ho.fresh hd hf hs h hp hden (by have := hV []; rwa [List.append_nil] at this) hsmG e1
            have hpos : ∀ x ∈ G, x.2 ≠ 0 := fun x hx => by
              obtain ⟨_, _, g', hg'⟩ := h.u.offs x hx
              exact Nat.pos_iff_ne_zero.1 hg'.pos
            have o1 := ho.cons hs hpos hden hfr k4 (by rw [← e6]; exact k5)
            refine (b7 _ p hden ?_ o1 hsm).mono ?_
            · rintro q hq h0 k (hk | hk)
              · exact hV _ hk
              · simp at hk
            · rintro k ((hk | rfl) | hk)
              · exact .inl hk
              · exact .inr (List.prefix_refl _)
              · exact .inr hk
    · rw [e1]
      simp only [ok_bind]
      refine ⟨db', true, 0, ⟨rfl, rfl, by omega⟩, .inr ⟨rfl, B, ex, G, e2, by rw [e3]; exact ht, ⟨[], rfl, by omega, by omega⟩, by omega,
        fun V p _ _ ho _ => by rw [e3]; exact ho.mono (fun _ => .inl)⟩⟩

end Dawg.Dict
