import Verif.Proof.Builder.CoreRel
/-! # Finding or storing one state -/
namespace Dawg.Abs
attribute [-simp] List.length_flatten

/-- The sibling chain of unit `i` consists of the units `us`, with labels and base words `ps`. -/
def UChain (up : List DawgUnit) : Nat → List Pair → List Nat → Prop
  | i, [], us => i = 0 ∧ us = []
  | i, p :: ps, us => ∃ u us', i ≠ 0 ∧ us = i :: us' ∧ up[i]? = some u ∧ u.label = p.1 ∧ u.base = p.2 ∧
      UChain up u.sibling ps us'

theorem UChain.length {up} : ∀ {ps : List Pair} {i us}, UChain up i ps us → us.length = ps.length
  | [], _, _, ⟨_, rfl⟩ => rfl
  | _ :: _, _, _, ⟨_, _, _, rfl, _, _, _, h⟩ => by simp [h.length]

theorem UChain.unitChain {up} : ∀ {ps : List Pair} {i us}, UChain up i ps us → ∀ {fuel}, us.length < fuel →
    Builder.unitChain up fuel i = .ok us
  | [], _, _, ⟨rfl, rfl⟩, fuel, hf => by
    obtain ⟨fuel, rfl⟩ : ∃ f, fuel = f + 1 := ⟨fuel - 1, by omega⟩
    simp [Builder.unitChain]
  | p :: ps, i, _, ⟨u, us', hi, rfl, hu, _, _, h⟩, fuel, hf => by
    obtain ⟨fuel, rfl⟩ : ∃ f, fuel = f + 1 := ⟨fuel - 1, by omega⟩
    simp only [Builder.unitChain, if_neg hi, rd_some hu, ok_bind]
    rw [h.unitChain (by simp at hf; omega)]
    rfl

theorem UChain.hashUnits {db : Builder} : ∀ {ps : List Pair} {i us}, UChain db.unitPool i ps us → ∀ h,
    Builder.hashUnits db us h = .ok (h ^^^ hashG ps)
  | [], _, _, ⟨_, rfl⟩, h => by simp [Builder.hashUnits, hashG]
  | p :: ps, i, _, ⟨u, us', hi, rfl, hu, hl, hb, hc⟩, h => by
    simp only [Builder.hashUnits, rd_some hu, ok_bind, hc.hashUnits, hl, hb]
    simp [hashG, Nat.xor_assoc]

theorem areEqualCount_spec {db c} (hr : CoreRel db c) (hsz : poolLen c.groups < 4294967296) {s g}
    (hs : IsStart c.groups s g) : ∀ (us : List Nat) (i : Nat), i < g.length →
    Builder.areEqualCount db us (s + i) = .ok (if i + us.length < g.length then some (s + i + us.length) else none)
  | [], i, hi => by simp [Builder.areEqualCount, hi]
  | _ :: us, i, hi => by
    have hsib := (hr.wf g hs.mem).sib i g[i] (by simp [hi])
    have hb := hs.bound
    simp only [Builder.areEqualCount, hr.rd_base hs hi, ok_bind, hsib]
    by_cases h : i + 1 < g.length
    · simp only [h, decide_true, if_true]
      rw [u32_of_lt (by omega), Nat.add_assoc s i 1, areEqualCount_spec hr hsz hs us (i + 1) h]
      simp only [List.length_cons]
      rw [show i + 1 + us.length = i + (us.length + 1) by omega,
        show s + (i + 1) + us.length = s + i + (us.length + 1) by omega]
    · simp only [h, decide_false, Bool.false_eq_true, if_false, pure_eq_ok]
      rw [if_neg (by simp; omega)]

theorem areEqualLoop_spec {db c} (hr : CoreRel db c) {s g} (hs : IsStart c.groups s g) :
    ∀ {ps : List Pair} {i us}, UChain db.unitPool i ps us → ps.length ≤ g.length →
    Builder.areEqualLoop db us (s + ps.length - 1) = .ok (decide (ps = (g.take ps.length).reverse))
  | [], _, _, ⟨_, rfl⟩, _ => by simp [Builder.areEqualLoop]
  | p :: ps, i, _, ⟨u, us', hi, rfl, hu, hl, hb, hc⟩, hle => by
    simp only [List.length_cons] at hle
    have hlt : ps.length < g.length := by omega
    have ht : (g.take (p :: ps).length).reverse = g[ps.length] :: (g.take ps.length).reverse := by
      rw [List.length_cons, List.take_succ_eq_append_getElem hlt, List.reverse_append]; rfl
    simp only [Builder.areEqualLoop, rd_some hu, ok_bind, List.length_cons]
    rw [show s + (ps.length + 1) - 1 = s + ps.length by omega, hr.rd_base hs hlt, hr.rd_label hs hlt]
    simp only [ok_bind]
    have ih := areEqualLoop_spec hr hs hc (by omega)
    have hpos := hs.pos
    rw [List.length_cons] at ht
    simp only [ht]
    rw [hb, hl]
    obtain ⟨p1, p2⟩ := p
    by_cases h1 : p2 = g[ps.length].2
    · by_cases h2 : p1 = g[ps.length].1
      · rw [if_neg (by simp [h1]), if_neg (by simp [h2]), ih]
        have : (p1, p2) = g[ps.length] := Prod.ext h2 h1
        rw [this]; simp
      · rw [if_neg (by simp [h1]), if_pos (by simp [h2])]
        have : ¬ (p1, p2) = g[ps.length] := fun e => h2 (by rw [← e])
        simp [this]
    · rw [if_pos (by simp [h1])]
      have : ¬ (p1, p2) = g[ps.length] := fun e => h1 (by rw [← e])
      simp [this]

theorem areEqual_spec {db c} (hr : CoreRel db c) (hsz : poolLen c.groups < 4294967296) {s g}
    (hs : IsStart c.groups s g) {ps : List Pair} {h us} (hc : UChain db.unitPool h ps us) (hne : ps ≠ [])
    (hlen : us.length ≤ db.unitPool.length) :
    db.areEqual h s = .ok (decide (ps.reverse = g)) := by
  have hgpos := List.length_pos_iff.2 (hr.ne g hs.mem)
  have hb := hs.bound
  obtain ⟨p, ps', rfl⟩ := List.exists_cons_of_ne_nil hne
  have hfull := hc
  obtain ⟨u, us', hi, rfl, hu, hl, hbs, hc'⟩ := hc
  have hl' := hc'.length
  unfold Builder.areEqual Builder.unitsFrom
  simp only [rd_some hu, ok_bind]
  rw [hc'.unitChain (by simp at hlen; omega), hfull.unitChain (by omega)]
  simp only [ok_bind]
  have := areEqualCount_spec hr hsz hs us' 0 hgpos
  simp only [Nat.add_zero, Nat.zero_add] at this
  rw [this, hl']
  by_cases h1 : ps'.length < g.length
  · simp only [h1, if_true, ok_bind]
    have hsib := (hr.wf g hs.mem).sib ps'.length g[ps'.length] (by simp [h1])
    rw [hr.rd_base hs h1]
    simp only [ok_bind, hsib]
    by_cases h2 : ps'.length + 1 < g.length
    · simp only [h2, decide_true, if_true, pure_eq_ok]
      congr 1
      symm; rw [decide_eq_false_iff_not]
      intro e; rw [← e] at h2; simp at h2
    · simp only [h2, decide_false, Bool.false_eq_true, if_false]
      have := areEqualLoop_spec hr hs hfull (by simp; omega)
      simp only [List.length_cons, show s + (ps'.length + 1) - 1 = s + ps'.length by omega] at this
      rw [this]
      simp only [List.length_cons, List.take_of_length_le (show g.length ≤ ps'.length + 1 by omega)]
      congr 1
      rw [decide_eq_decide]
      constructor
      · intro e; rw [e]; simp
      · intro e; rw [← e]; simp
  · simp only [h1, if_false, ok_bind, pure_eq_ok]
    congr 1
    symm; rw [decide_eq_false_iff_not]
    intro e; rw [← e] at h1; simp at h1

theorem findUnit_spec {db c} (hr : CoreRel db c) (hsz : poolLen c.groups < 4294967296)
    {ps : List Pair} {h us} (hc : UChain db.unitPool h ps us) (hne : ps ≠ [])
    (hlen : us.length ≤ db.unitPool.length) :
    (∀ s, findStart ps.reverse 1 c.groups = some s → ∃ j, db.findUnit h = .ok (s, j)) ∧
    (findStart ps.reverse 1 c.groups = none → ∃ d, d < db.hashTable.length ∧
      db.findUnit h = .ok (0, (hashG ps + d) % db.hashTable.length) ∧
      slot db.hashTable ((hashG ps + d) % db.hashTable.length) = 0 ∧
      ∀ e, e < d → slot db.hashTable ((hashG ps + e) % db.hashTable.length) ≠ 0) := by
  have hpos : 0 < db.hashTable.length := by have := hr.room; omega
  have hh : db.hashUnit h = .ok (hashG ps) := by
    unfold Builder.hashUnit Builder.unitsFrom
    rw [hc.unitChain (by omega)]
    simp only [ok_bind, hc.hashUnits, Nat.zero_xor]
  have heq : ∀ j, j < db.hashTable.length → slot db.hashTable j ≠ 0 →
      db.areEqual h (slot db.hashTable j) = .ok (decide (ps.reverse = groupAt 1 c.groups (slot db.hashTable j))) := by
    intro j hj hne0
    obtain ⟨g, hg⟩ := mem_starts.1 (hr.table.sub j hj hne0)
    rw [areEqual_spec hr hsz hg hc hne hlen, hg.groupAt hr.ne]
  have hm : ∀ e, (hashG ps % db.hashTable.length + e) % db.hashTable.length = (hashG ps + e) % db.hashTable.length :=
    fun e => Nat.mod_add_mod ..
  have hfu : ∀ {d r}, d < db.hashTable.length → slot db.hashTable ((hashG ps + d) % db.hashTable.length) = r →
      (r = 0 ∨ decide (ps.reverse = groupAt 1 c.groups r) = true) →
      (∀ e, e < d → slot db.hashTable ((hashG ps + e) % db.hashTable.length) ≠ 0 ∧
        decide (ps.reverse = groupAt 1 c.groups (slot db.hashTable ((hashG ps + e) % db.hashTable.length))) = false) →
      db.findUnit h = .ok (r, (hashG ps + d) % db.hashTable.length) := by
    intro d r hd hr1 hstop hgo
    unfold Builder.findUnit
    simp only [hh, ok_bind, u32_of_lt hr.htlen, md_pos hpos]
    rw [findUnitLoop_spec (eq := fun x => decide (ps.reverse = groupAt 1 c.groups x)) hr.htlen heq (Nat.mod_lt _ hpos) (d := d) (r := r) (by omega)]
    · rw [hm]
    · rw [hm]; exact hr1
    · exact hstop
    · intro e he; rw [hm]; exact hgo e he
  constructor
  · intro s hs
    have hst := findStart_some hs
    obtain ⟨j, hj, hjs⟩ := hr.table.cov s (mem_starts.2 ⟨_, hst⟩)
    have hne0 : slot db.hashTable j ≠ 0 := by rw [hjs]; have := hst.pos; omega
    obtain ⟨d, hd, hdj, hgo⟩ := hr.table.probing.find hj hne0
    simp only [hjs, hst.groupAt hr.ne, hashG_reverse] at hdj hgo
    refine ⟨_, hfu hd (r := s) (by rw [hdj]; exact hjs) (.inr (by rw [hst.groupAt hr.ne]; simp)) ?_⟩
    intro e he
    obtain ⟨h1, h2⟩ := hgo e he
    refine ⟨h1, ?_⟩
    rw [decide_eq_false_iff_not]
    intro hc2
    obtain ⟨g, hg⟩ := mem_starts.1 (hr.table.sub _ (Nat.mod_lt _ hpos) h1)
    rw [hg.groupAt hr.ne] at hc2
    subst hc2
    exact h2 (IsStart.inj hr.nodup hg hst)
  · intro hnone
    obtain ⟨d, hd, hz, hfull⟩ := hr.table.free_slot (by rw [starts_length]; exact hr.room) (hashG ps)
    refine ⟨d, hd, hfu hd hz (.inl rfl) ?_, hz, hfull⟩
    intro e he
    refine ⟨hfull e he, ?_⟩
    rw [decide_eq_false_iff_not]
    intro hc2
    obtain ⟨g, hg⟩ := mem_starts.1 (hr.table.sub _ (Nat.mod_lt _ hpos) (hfull e he))
    rw [hg.groupAt hr.ne] at hc2
    exact findStart_none hnone (hc2 ▸ hg.mem)

/-! ## Storing -/

theorem allocateTransitions_spec : ∀ (n : Nat) (db : Builder) (t : Nat), db.labelPool.length + n < 4294967296 →
    Builder.allocateTransitions n db t =
      ({ db with basePool := db.basePool ++ List.replicate n 0
                 labelPool := db.labelPool ++ List.replicate n 0
                 flagPool := Nat.repeat BitPool.allocate n db.flagPool },
       if n = 0 then t else db.labelPool.length + n - 1)
  | 0, db, t, _ => by simp [Builder.allocateTransitions, Nat.repeat]
  | n + 1, db, t, h => by
    simp only [Builder.allocateTransitions, Builder.allocateTransition]
    rw [allocateTransitions_spec n _ _ (by simp; omega)]
    have hrep : ∀ (m : Nat) (p : BitPool), Nat.repeat BitPool.allocate m p.allocate = (Nat.repeat BitPool.allocate m p).allocate := by
      intro m; induction m with
      | zero => intro p; rfl
      | succ m ih => intro p; simp only [Nat.repeat, ih]
    simp only [List.append_assoc, List.singleton_append, hrep, Nat.repeat, ← List.replicate_succ, List.length_append,
      List.length_singleton, Nat.add_sub_cancel]
    rw [u32_of_lt (by omega)]
    split <;> simp <;> omega

theorem repeat_allocate_inv {p : BitPool} {f} (h : BitInv p f) (n : Nat) :
    BitInv (Nat.repeat BitPool.allocate n p) f ∧ (Nat.repeat BitPool.allocate n p).size = p.size + n := by
  induction n with
  | zero => exact ⟨h, rfl⟩
  | succ n ih =>
    refine ⟨ih.1.allocate, ?_⟩
    simp only [Nat.repeat, BitPool.allocate, ih.2]; omega

theorem storeUnits_spec : ∀ {ps : List Pair} {i us} (db : Builder) (A : List Nat) (B : List Nat) (A' B' : List UInt8),
    UChain db.unitPool i ps us → 0 < A.length → A'.length = A.length →
    db.basePool = A ++ List.replicate ps.length 0 ++ B → db.labelPool = A' ++ List.replicate ps.length 0 ++ B' →
    Builder.storeUnits us db (A.length + ps.length - 1) =
      .ok ({ db with basePool := A ++ ps.reverse.map Prod.snd ++ B, labelPool := A' ++ ps.reverse.map Prod.fst ++ B' },
        A.length - 1)
  | [], _, _, db, A, B, A', B', ⟨_, rfl⟩, hA, hA', hb, hl => by
    simp only [List.length_nil, List.replicate_zero, List.append_nil] at hb hl
    simp [Builder.storeUnits, ← hb, ← hl]
  | p :: ps, i, _, db, A, B, A', B', ⟨u, us', hi, rfl, hu, hul, hub, hc⟩, hA, hA', hb, hl => by
    simp only [List.length_cons] at hb hl ⊢
    have e1 : A.length + (ps.length + 1) - 1 = A.length + ps.length := by omega
    have hlt : A.length + ps.length < db.basePool.length := by rw [hb]; simp; omega
    have hlt' : A.length + ps.length < db.labelPool.length := by rw [hl]; simp; omega
    simp only [Builder.storeUnits, rd_some hu, ok_bind, e1, wr_lt hlt, wr_lt hlt']
    have hset : ∀ {α : Type} (X Y : List α) (z v : α) (n : Nat),
        (X ++ List.replicate (n + 1) z ++ Y).set (X.length + n) v = X ++ List.replicate n z ++ (v :: Y) := by
      intro α X Y z v n
      rw [List.replicate_succ', ← List.append_assoc, List.append_assoc (X ++ List.replicate n z)]
      have : X.length + n = (X ++ List.replicate n z).length := by simp
      rw [this]; simp
    have hs1 : db.basePool.set (A.length + ps.length) u.base = A ++ List.replicate ps.length 0 ++ (u.base :: B) := by
      rw [hb]; exact hset A B 0 u.base ps.length
    have hs2 : db.labelPool.set (A.length + ps.length) u.label = A' ++ List.replicate ps.length 0 ++ (u.label :: B') := by
      rw [hl, ← hA']; exact hset A' B' 0 u.label ps.length
    rw [hs1, hs2]
    have := storeUnits_spec (i := u.sibling) (us := us') (ps := ps) { db with
        basePool := A ++ List.replicate ps.length 0 ++ (u.base :: B)
        labelPool := A' ++ List.replicate ps.length 0 ++ (u.label :: B') } A (u.base :: B) A' (u.label :: B') hc hA hA' rfl rfl
    rw [this]
    simp [hul, hub]

/-- Facts shared by the two outcomes of `fixState`: the rest of the builder is untouched. -/
structure SameUnits (db db' : Builder) : Prop where
  units : db'.unitPool = db.unitPool
  unused : db'.unusedUnits = db.unusedUnits
  unfixed : db'.unfixedUnits = db.unfixedUnits
  init : db'.initialHashTableSize = db.initialHashTableSize

theorem fixState_spec {db c} (hr : CoreRel db c) {ps : List Pair} {h us}
    (hsz : poolLen c.groups + ps.length < 4294967296) (hroom : c.groups.length + 1 < db.hashTable.length)
    (hc : UChain db.unitPool h ps us) (hwf : GroupWf ps.reverse) (hlen : us.length ≤ db.unitPool.length) :
    ∃ db', db.fixState h = .ok (db', (c.put ps.reverse).2) ∧ CoreRel db' (c.put ps.reverse).1 ∧ SameUnits db db' := by
  have hne : ps ≠ [] := by intro e; subst e; exact hwf.ne rfl
  obtain ⟨hfound, hnot⟩ := findUnit_spec hr (by omega) hc hne hlen
  have hul := hc.length
  unfold Builder.fixState Builder.unitsFrom
  rw [hc.unitChain (by omega)]
  simp only [ok_bind]
  cases hf : findStart ps.reverse 1 c.groups with
  | some s =>
    obtain ⟨j, hj⟩ := hfound s hf
    have hst := findStart_some hf
    have hb := hst.bound
    have hgpos := List.length_pos_iff.2 hwf.ne
    rw [hj]
    have hs0 : s ≠ 0 := by have := hst.pos; omega
    simp only [ok_bind, ne_eq, hs0, not_false_eq_true, if_true]
    have hlt : s < db.flagPool.size := by rw [hr.flagSize]; omega
    rw [hr.flags.get hlt]
    simp only [ok_bind]
    simp only [Core.put, hf]
    by_cases hm : s ∈ c.marked
    · simp only [hm, decide_true, if_true, pure_eq_ok]
      refine ⟨_, rfl, ?_, ⟨rfl, rfl, rfl, rfl⟩⟩
      exact ⟨hr.base, hr.label, hr.flagSize, hr.flags, hr.states, by simp [hr.merged, hul], hr.merging, hr.wf, hr.nodup, hr.table, hr.room, hr.htlen, hr.markedNodup, hr.markedSub⟩
    · simp only [hm, decide_false, Bool.false_eq_true, if_false]
      obtain ⟨fp, hfp, hsz', hbi⟩ := hr.flags.set true hlt
      rw [hfp]
      simp only [ok_bind, pure_eq_ok]
      refine ⟨_, rfl, ?_, ⟨rfl, rfl, rfl, rfl⟩⟩
      refine ⟨hr.base, hr.label, by simpa [hsz'] using hr.flagSize, ?_, hr.states, by simp [hr.merged, hul], by simp [hr.merging], hr.wf, hr.nodup, hr.table, hr.room, hr.htlen, ?_, ?_⟩
      · have : (fun i => decide (i ∈ s :: c.marked)) = (fun i => if i = s then true else decide (i ∈ c.marked)) := by
          funext i; by_cases hi : i = s <;> simp [hi]
        rw [this]; exact hbi
      · simp [hm, hr.markedNodup]
      · intro x hx; rcases List.mem_cons.1 hx with rfl | hx
        · exact mem_starts.2 ⟨_, hst⟩
        · exact hr.markedSub x hx
  | none =>
    obtain ⟨d, hd, hfu, hz, hfull⟩ := hnot hf
    rw [hfu]
    simp only [ok_bind, ne_eq, not_true_eq_false, if_false]
    have hlab : db.labelPool.length = poolLen c.groups := by
      rw [hr.label, List.length_cons, List.length_map, poolLen]; omega
    have hbas := hr.base_length
    rw [allocateTransitions_spec us.length db 0 (by omega)]
    have hpl : ps.length ≠ 0 := by intro e; exact hne (List.eq_nil_of_length_eq_zero e)
    rw [hul]
    simp only [hpl, if_false]
    have hstore := storeUnits_spec (ps := ps) (us := us) (i := h)
      { db with basePool := db.basePool ++ List.replicate ps.length 0
                labelPool := db.labelPool ++ List.replicate ps.length 0
                flagPool := Nat.repeat BitPool.allocate ps.length db.flagPool }
      db.basePool [] db.labelPool [] hc (by rw [hbas]; simp [poolLen]; omega) (by omega) (by simp) (by simp)
    rw [hbas, ← hlab] at hstore
    rw [hstore]
    have hpos : 0 < poolLen c.groups := by simp [poolLen]; omega
    have hht : (hashG ps + d) % db.hashTable.length < db.hashTable.length := Nat.mod_lt _ (by omega)
    have he : u32 (db.labelPool.length - 1 + 1) = poolLen c.groups := by
      rw [hlab, Nat.sub_add_cancel hpos, u32_of_lt (by omega)]
    simp only [ok_bind, he, wr_lt hht, pure_eq_ok, Core.put, hf]
    refine ⟨_, rfl, ?_, ⟨rfl, rfl, rfl, rfl⟩⟩
    have hfl := repeat_allocate_inv hr.flags ps.length
    have hnin := findStart_none hf
    have hne' : ∀ g ∈ c.groups ++ [ps.reverse], g ≠ [] := by
      intro g hg; rcases List.mem_append.1 hg with hg | hg
      · exact hr.ne g hg
      · simp at hg; subst hg; exact hwf.ne
    refine ⟨?_, ?_, ?_, hfl.1, by simp [hr.states], hr.merged, hr.merging, ?_, ?_, ?_, ?_, ?_, hr.markedNodup, ?_⟩
    · simp [hr.base]
    · simp [hr.label]
    · rw [hfl.2, hr.flagSize, poolLen_append]; simp
    · intro g hg; rcases List.mem_append.1 hg with hg | hg
      · exact hr.wf g hg
      · simp at hg; subst hg; exact hwf
    · rw [List.nodup_append]; refine ⟨hr.nodup, by simp, ?_⟩
      intro a ha b hb; simp at hb; subst hb; intro e; exact hnin (e ▸ ha)
    · have hga : hashG (groupAt 1 (c.groups ++ [ps.reverse]) (poolLen c.groups)) = hashG ps := by
        rw [(IsStart.last c.groups ps.reverse).groupAt hne', hashG_reverse]
      have ht1 := hr.table.congr (h' := fun s => hashG (groupAt 1 (c.groups ++ [ps.reverse]) s)) (by
        intro s hs
        obtain ⟨g, hg⟩ := mem_starts.1 hs
        simp only [hg.groupAt hr.ne, (hg.append [ps.reverse]).groupAt hne'])
      have hnew : poolLen c.groups ∉ starts 1 c.groups := by
        intro hmem; have := starts_lt hr.ne hmem; simp [poolLen] at this
      have ht2 := ht1.insert (k := poolLen c.groups) (d := d) (by omega) hnew hd
        (by simp only [hga]; exact hz) (by simp only [hga]; exact hfull)
      simp only [hga] at ht2
      exact ht2.perm (by rw [starts_snoc]; exact (List.perm_append_singleton _ _).symm)
    · simp; omega
    · simpa using hr.htlen
    · intro s hs; rw [starts_snoc]; exact List.mem_append_left _ (hr.markedSub s hs)

end Dawg.Abs
