import Verif.Proof.Builder.Final
/-! # How much memory the builder uses while keys are inserted -/
namespace Dawg.Abs
open Dawg.Spec Dawg.Client
attribute [-simp] List.length_flatten

theorem ClosedRep.used_length {up} : ∀ {es : List Edge} {i us}, ClosedRep up i es us → us.length = es.length
  | [], _, _, ⟨_, rfl⟩ => rfl
  | _ :: _, _, _, ⟨_, _, _, rfl, _, h⟩ => by simp [h.used_length]

theorem SegRep.used_length {up b} : ∀ {fs : List Frame} {c hs used}, SegRep up b fs c hs used → used.length = edges fs
  | [], _, _, _, ⟨_, rfl, _⟩ => rfl
  | _ :: _, _, _, _, ⟨_, _, _, _, _, _, rfl, rfl, _, hcl, hr⟩ => by simp [edges, hcl.used_length, hr.used_length]; omega

/-- No unit is lost: every unit is the root, or belongs to the open path, or is on the free list. -/
theorem Rel.units_count {db s} (h : Rel db s) : db.unitPool.length = 1 + edges s.frames + db.unusedUnits.length := by
  obtain ⟨hs, used, hseg, hinv, _⟩ := h.units
  have := hinv.count
  rw [hseg.used_length] at this
  exact this.symm

theorem Rel.stack_length {db s} (h : Rel db s) : db.unfixedUnits.length = s.frames.length + 1 := by
  obtain ⟨hs, used, hseg, _, hst⟩ := h.units
  rw [hst]; simp [hseg.heads_length]

/-! ## The unit pool -/

theorem wr_length {α : Type} {l l' : List α} {i : Nat} {x : α} (h : wr l i x = .ok l') : l'.length = l.length := by
  unfold wr at h
  split at h
  · cases h; simp
  · cases h

theorem addUnits_len (key : List UInt8) (length : Int) : ∀ (n : Nat) (db : Builder) (index pos : Nat) (db' : Builder) (i' : Nat),
    Builder.addUnits key length n db index pos = .ok (db', i') →
    db'.unitPool.length + db.unusedUnits.length = db.unitPool.length + db'.unusedUnits.length + n ∧
    db'.unitPool.length = max db.unitPool.length (db'.unitPool.length - db'.unusedUnits.length) ∧
    db'.hashTable = db.hashTable ∧ db'.numOfStates = db.numOfStates
  | 0, db, index, pos, db', i', h => by
    simp only [Builder.addUnits, Except.ok.injEq, Prod.mk.injEq] at h
    obtain ⟨rfl, rfl⟩ := h
    refine ⟨by omega, by omega, rfl, rfl⟩
  | n + 1, db, index, pos, db', i', h => by
    simp only [Builder.addUnits] at h
    rw [bind_eq_ok] at h
    obtain ⟨kl, _, h⟩ := h
    rw [bind_eq_ok] at h
    obtain ⟨⟨db1, c⟩, ha, h⟩ := h
    rw [bind_eq_ok] at h
    obtain ⟨u, _, h⟩ := h
    rw [bind_eq_ok] at h
    obtain ⟨cu, _, h⟩ := h
    rw [bind_eq_ok] at h
    obtain ⟨up, hw1, h⟩ := h
    rw [bind_eq_ok] at h
    obtain ⟨u2, _, h⟩ := h
    rw [bind_eq_ok] at h
    obtain ⟨up2, hw2, h⟩ := h
    have e1 := wr_length hw1
    have e2 := wr_length hw2
    obtain ⟨r1, r2, r3, r4⟩ := addUnits_len key length n _ _ _ _ _ h
    simp only at r1 r2 r3 r4
    unfold Builder.allocateUnit at ha
    cases hun : db.unusedUnits with
    | nil =>
      simp only [hun, Except.ok.injEq, Prod.mk.injEq] at ha
      obtain ⟨rfl, rfl⟩ := ha
      simp only [hun, List.length_append, List.length_singleton, List.length_nil] at *
      refine ⟨by omega, by omega, r3, r4⟩
    | cons i rest =>
      simp only [hun] at ha
      rw [bind_eq_ok] at ha
      obtain ⟨up0, hw0, ha⟩ := ha
      simp only [pure_eq_ok, Except.ok.injEq, Prod.mk.injEq] at ha
      obtain ⟨rfl, rfl⟩ := ha
      have e0 := wr_length hw0
      simp only [List.length_cons] at *
      refine ⟨by omega, by omega, r3, r4⟩

/-! ## The hash table -/

/-- The length of the hash table: the initial one, doubled some times; at most 8/3 of the number of states, unless it is still the initial one; and at least
about 4/3 of it. -/
def Tab (n : Nat) (db : Builder) : Prop :=
  (∃ j, db.hashTable.length = n * 2 ^ j) ∧ (db.hashTable.length = n ∨ 3 * db.hashTable.length ≤ 8 * db.numOfStates) ∧
    db.numOfStates ≤ db.hashTable.length - db.hashTable.length / 4

theorem expandLoop_len : ∀ (n : Nat) (db db' : Builder), Builder.expandLoop n db = .ok db' →
    db'.hashTable.length = db.hashTable.length ∧ db'.numOfStates = db.numOfStates ∧ db'.unitPool = db.unitPool
  | 0, db, db', h => by
    simp only [Builder.expandLoop, Except.ok.injEq] at h
    subst h; exact ⟨rfl, rfl, rfl⟩
  | n + 1, db, db', h => by
    simp only [Builder.expandLoop] at h
    rw [bind_eq_ok] at h
    obtain ⟨l, _, h⟩ := h
    rw [bind_eq_ok] at h
    obtain ⟨b, _, h⟩ := h
    split at h
    · rw [bind_eq_ok] at h
      obtain ⟨x, _, h⟩ := h
      rw [bind_eq_ok] at h
      obtain ⟨ht, hw, h⟩ := h
      obtain ⟨r1, r2, r3⟩ := expandLoop_len n _ _ h
      exact ⟨r1.trans (wr_length hw), r2, r3⟩
    · exact expandLoop_len n _ _ h

theorem maybeExpand_len {n : Nat} {db db' : Builder} (ht : Tab n db) (hn : db.hashTable.length ≠ 0) (h : db.maybeExpand = .ok db') :
    Tab n db' ∧ db'.numOfStates < db'.hashTable.length - db'.hashTable.length / 4 ∧ db'.unitPool = db.unitPool ∧ db'.numOfStates = db.numOfStates := by
  unfold Builder.maybeExpand at h
  have hshift : db.hashTable.length >>> 2 = db.hashTable.length / 4 := by simp [Nat.shiftRight_eq_div_pow]
  rw [hshift] at h
  by_cases hc : db.numOfStates ≥ db.hashTable.length - db.hashTable.length / 4
  · rw [if_pos hc] at h
    obtain ⟨r1, r2, r3⟩ := expandLoop_len _ _ _ h
    have h2 : db.hashTable.length <<< 1 = db.hashTable.length * 2 := by simp [Nat.shiftLeft_eq]
    simp only [List.length_replicate, h2] at r1 r2 r3
    obtain ⟨⟨j, hj⟩, t2, t3⟩ := ht
    refine ⟨⟨⟨j + 1, ?_⟩, ?_, ?_⟩, ?_, r3, r2⟩
    · rw [r1, hj, Nat.pow_succ, Nat.mul_assoc]
    · right; rw [r1, r2]; omega
    · rw [r1, r2]; omega
    · rw [r1, r2]
      have hb : db.hashTable.length * 2 / 4 ≤ db.hashTable.length / 2 := by omega
      by_cases h1 : db.hashTable.length = 1
      · have h3 : db.numOfStates ≤ 1 := by rw [h1] at t3; simpa using t3
        rw [h1]
        exact Nat.lt_of_le_of_lt h3 (by decide)
      · omega
  · rw [if_neg hc] at h
    cases h
    exact ⟨ht, by omega, rfl, rfl⟩

theorem allocateTransitions_len : ∀ (n : Nat) (db : Builder) (t : Nat),
    (Builder.allocateTransitions n db t).1.hashTable = db.hashTable ∧ (Builder.allocateTransitions n db t).1.numOfStates = db.numOfStates ∧
    (Builder.allocateTransitions n db t).1.unitPool = db.unitPool
  | 0, _, _ => ⟨rfl, rfl, rfl⟩
  | n + 1, db, t => by
    simp only [Builder.allocateTransitions]
    exact allocateTransitions_len n _ _

theorem storeUnits_len : ∀ (us : List Nat) (db : Builder) (t : Nat) (r : Builder × Nat), Builder.storeUnits us db t = .ok r →
    r.1.hashTable = db.hashTable ∧ r.1.numOfStates = db.numOfStates ∧ r.1.unitPool = db.unitPool
  | [], db, t, r, h => by
    simp only [Builder.storeUnits, Except.ok.injEq] at h
    subst h; exact ⟨rfl, rfl, rfl⟩
  | i :: us, db, t, r, h => by
    simp only [Builder.storeUnits] at h
    rw [bind_eq_ok] at h
    obtain ⟨u, _, h⟩ := h
    rw [bind_eq_ok] at h
    obtain ⟨bp, _, h⟩ := h
    rw [bind_eq_ok] at h
    obtain ⟨lp, _, h⟩ := h
    have := storeUnits_len us _ _ _ h
    exact this

theorem fixState_len {db : Builder} {i : Nat} {r : Builder × Nat} (h : db.fixState i = .ok r) :
    r.1.hashTable.length = db.hashTable.length ∧ db.numOfStates ≤ r.1.numOfStates ∧ r.1.numOfStates ≤ db.numOfStates + 1 ∧ r.1.unitPool = db.unitPool := by
  unfold Builder.fixState at h
  rw [bind_eq_ok] at h
  obtain ⟨ch, _, h⟩ := h
  rw [bind_eq_ok] at h
  obtain ⟨⟨m, hid⟩, _, h⟩ := h
  simp only at h
  split at h
  · rw [bind_eq_ok] at h
    obtain ⟨f, _, h⟩ := h
    split at h
    · cases h; exact ⟨rfl, Nat.le_refl _, by simp, rfl⟩
    · rw [bind_eq_ok] at h
      obtain ⟨fp, _, h⟩ := h
      cases h; exact ⟨rfl, Nat.le_refl _, by simp, rfl⟩
  · rw [bind_eq_ok] at h
    obtain ⟨r1, hst, h⟩ := h
    rw [bind_eq_ok] at h
    obtain ⟨ht, hw, h⟩ := h
    obtain ⟨a1, a2, a3⟩ := allocateTransitions_len ch.length db 0
    obtain ⟨s1, s2, s3⟩ := storeUnits_len _ _ _ _ hst
    cases h
    have e := wr_length hw
    refine ⟨?_, ?_, ?_, ?_⟩
    · simp only; rw [e, s1, a1]
    · simp only; rw [s2, a2]; omega
    · simp only; rw [s2, a2]; omega
    · simp only; rw [s3, a3]

theorem fixOne_len {n : Nat} {db db' : Builder} {i : Nat} (ht : Tab n db) (hn : db.hashTable.length ≠ 0) (h : db.fixOne i = .ok db') :
    Tab n db' ∧ db'.hashTable.length ≠ 0 ∧ db'.unitPool.length = db.unitPool.length ∧ db.numOfStates ≤ db'.numOfStates := by
  unfold Builder.fixOne at h
  rw [bind_eq_ok] at h
  obtain ⟨d1, h1, h⟩ := h
  rw [bind_eq_ok] at h
  obtain ⟨⟨d2, m⟩, h2, h⟩ := h
  rw [bind_eq_ok] at h
  obtain ⟨ch, _, h⟩ := h
  obtain ⟨t1, t2, t3, t4⟩ := maybeExpand_len ht hn h1
  obtain ⟨f1, f2, f3, f4⟩ := fixState_len h2
  simp only at f1 f2 f3 f4
  rw [freeUnits_spec] at h
  simp only at h
  split at h
  · cases h
  · rw [bind_eq_ok] at h
    obtain ⟨u, _, h⟩ := h
    rw [bind_eq_ok] at h
    obtain ⟨up, hw, h⟩ := h
    cases h
    have e := wr_length hw
    obtain ⟨⟨j, hj⟩, q2, q3⟩ := t1
    refine ⟨⟨⟨j, ?_⟩, ?_, ?_⟩, ?_, ?_, ?_⟩
    · simp only; rw [f1, hj]
    · simp only; rw [f1]; omega
    · simp only; rw [f1]; omega
    · simp only; rw [f1]; omega
    · simp only; rw [e, f4, t3]
    · simp only; omega

theorem fixLoop_len {n : Nat} : ∀ (fuel : Nat) (db : Builder) (i : Nat) (db' : Builder), Tab n db → db.hashTable.length ≠ 0 → Builder.fixLoop fuel db i = .ok db' →
    Tab n db' ∧ db'.hashTable.length ≠ 0 ∧ db'.unitPool.length = db.unitPool.length ∧ db.numOfStates ≤ db'.numOfStates
  | 0, db, i, db', _, _, h => by simp [Builder.fixLoop] at h
  | fuel + 1, db, i, db', ht, hn, h => by
    simp only [Builder.fixLoop] at h
    split at h
    · cases h
    · rename_i top rest hst
      by_cases hc : top = i
      · rw [if_pos hc] at h
        cases h
        exact ⟨ht, hn, rfl, Nat.le_refl _⟩
      · rw [if_neg hc, bind_eq_ok] at h
        obtain ⟨d1, h1, h⟩ := h
        obtain ⟨a1, a2, a3, a4⟩ := fixOne_len (n := n) (db := { db with unfixedUnits := rest }) ht hn h1
        obtain ⟨b1, b2, b3, b4⟩ := fixLoop_len fuel _ _ _ a1 a2 h
        exact ⟨b1, b2, b3.trans a3, Nat.le_trans a4 b4⟩

theorem descend_len {n : Nat} (key : List UInt8) (length : Int) : ∀ (m : Nat) (db : Builder) (i pos : Nat) (r : Builder × Option (Nat × Nat)),
    Tab n db → db.hashTable.length ≠ 0 → Builder.descend key length m db i pos = .ok r →
    Tab n r.1 ∧ r.1.hashTable.length ≠ 0 ∧ r.1.unitPool.length = db.unitPool.length ∧ db.numOfStates ≤ r.1.numOfStates
  | 0, db, i, pos, r, ht, hn, h => by
    simp only [Builder.descend, Except.ok.injEq] at h
    subst h; exact ⟨ht, hn, rfl, Nat.le_refl _⟩
  | m + 1, db, i, pos, r, ht, hn, h => by
    simp only [Builder.descend] at h
    rw [bind_eq_ok] at h
    obtain ⟨u, _, h⟩ := h
    split at h
    · cases h; exact ⟨ht, hn, rfl, Nat.le_refl _⟩
    · rw [bind_eq_ok] at h
      obtain ⟨kl, _, h⟩ := h
      rw [bind_eq_ok] at h
      obtain ⟨cu, _, h⟩ := h
      split at h
      · cases h; exact ⟨ht, hn, rfl, Nat.le_refl _⟩
      · split at h
        · rw [bind_eq_ok] at h
          obtain ⟨up, hw, h⟩ := h
          rw [bind_eq_ok] at h
          obtain ⟨d1, hf, h⟩ := h
          cases h
          obtain ⟨a1, a2, a3, a4⟩ := fixLoop_len (n := n) _ { db with unitPool := up } _ _ ht hn hf
          exact ⟨a1, a2, a3.trans (wr_length hw), a4⟩
        · exact descend_len key length m _ _ _ _ ht hn h

/-- One insertion: the unit pool grows only to hold what is not on the free list afterwards. -/
theorem insert_len {n : Nat} {db db' : Builder} {key : List UInt8} {length value : Int} {ok : Bool} (ht : Tab n db) (hn : db.hashTable.length ≠ 0)
    (h : db.insertKeyValue key length value = .ok (db', ok)) :
    Tab n db' ∧ db'.hashTable.length ≠ 0 ∧ db'.unitPool.length = max db.unitPool.length (db'.unitPool.length - db'.unusedUnits.length) ∧
      db.numOfStates ≤ db'.numOfStates := by
  unfold Builder.insertKeyValue at h
  simp only [if_neg hn, ok_bind] at h
  rw [bind_eq_ok] at h
  obtain ⟨⟨d1, o⟩, hd, h⟩ := h
  obtain ⟨a1, a2, a3, a4⟩ := descend_len key length _ _ _ _ _ ht hn hd
  simp only at a1 a2 a3 a4
  cases o with
  | none =>
    simp only [pure_eq_ok, Except.ok.injEq, Prod.mk.injEq] at h
    obtain ⟨rfl, rfl⟩ := h
    exact ⟨a1, a2, by omega, a4⟩
  | some ip =>
    obtain ⟨idx, pos⟩ := ip
    simp only at h
    rw [bind_eq_ok] at h
    obtain ⟨⟨d2, i2⟩, ha, h⟩ := h
    rw [bind_eq_ok] at h
    obtain ⟨u, _, h⟩ := h
    rw [bind_eq_ok] at h
    obtain ⟨up, hw, h⟩ := h
    simp only [pure_eq_ok, Except.ok.injEq, Prod.mk.injEq] at h
    obtain ⟨rfl, rfl⟩ := h
    obtain ⟨b1, b2, b3, b4⟩ := addUnits_len key length _ _ _ _ _ _ ha
    have e := wr_length hw
    refine ⟨?_, ?_, ?_, ?_⟩
    · unfold Tab at a1 ⊢; simp only; rw [b3, b4]; exact a1
    · simp only; rw [b3]; exact a2
    · simp only at e ⊢; rw [e]; omega
    · simp only; rw [b4]; exact a4

/-! ## The units of the open path -/

theorem bytes_nodup : ((List.range 256).map UInt8.ofNat).Nodup := by decide +kernel

theorem mem_bytes (l : UInt8) : l ∈ (List.range 256).map UInt8.ofNat := by
  refine List.mem_map.2 ⟨l.toNat, ?_, by simp⟩
  have := l.toNat_lt; simp; omega

theorem degree_eq {keys : List Key} {p : Key} {S : List UInt8} (hS : S.Nodup) (h : ∀ l, (∃ k ∈ keys, p ++ [l] <+: k ++ [0]) ↔ l ∈ S) :
    degree keys p = S.length := by
  have hp : (((List.range 256).map UInt8.ofNat).filter (fun l => keys.any (fun k => (p ++ [l]).isPrefixOf (k ++ [0])))).Perm S := by
    refine (List.perm_ext_iff_of_nodup (bytes_nodup.filter _) hS).2 fun l => ?_
    rw [List.mem_filter, ← h l]
    simp only [mem_bytes, true_and, List.any_eq_true, List.isPrefixOf_iff_prefix]
  exact hp.length_eq

theorem DenC.ne_nil {gs l c X} (hne : ∀ g ∈ gs, g ≠ []) (h : DenC gs l c X) : X ≠ [] := by
  unfold DenC at h
  split at h
  · rw [h]; simp
  · obtain ⟨g, hs, hd⟩ := h
    exact hd.ne_nil hne (hne g hs.mem)

theorem DenC.up_head {gs l c X} (hne : ∀ g ∈ gs, g ≠ []) (h : DenC gs l c X) (m : UInt8) :
    (∃ e ∈ up l X, [m] <+: e.1 ++ [0]) ↔ m = l := by
  have hX := h.ne_nil hne
  unfold up
  by_cases hl : l = 0
  · rw [if_pos hl]
    unfold DenC at h
    rw [if_pos hl] at h
    subst h
    simp [hl]
  · rw [if_neg hl]
    constructor
    · rintro ⟨e, he, hp⟩
      obtain ⟨x, _, rfl⟩ := List.mem_map.1 he
      simpa [pre] using hp
    · rintro rfl
      obtain ⟨x, xs, rfl⟩ := List.exists_cons_of_ne_nil hX
      exact ⟨pre [m] x, by simp, by simp [pre]⟩

theorem DenE.head {gs} (hne : ∀ g ∈ gs, g ≠ []) (m : UInt8) : ∀ {es L}, DenE gs es L → ((∃ e ∈ L, [m] <+: e.1 ++ [0]) ↔ m ∈ es.map Edge.label)
  | [], L, h => by
    have h : L = [] := h
    subst h; simp
  | e :: es, L, ⟨L1, X, h1, h2, h3⟩ => by
    subst h3
    rw [List.map_cons, List.mem_cons, ← DenE.head hne m h1, ← h2.up_head hne m]
    simp only [List.mem_append, or_and_right, exists_or]
    exact Or.comm

theorem snoc_prefix {p q : List UInt8} {l : UInt8} (h : p ++ [l] <+: p ++ q) : [l] <+: q := by
  simpa [List.prefix_append_right_inj] using h

/-- The entries before the open path do not go on from its end. -/
theorem Ctx.leave {gs} (hne : ∀ g ∈ gs, g ≠ []) : ∀ {fs P}, Ctx gs fs P → (∀ f ∈ fs, Desc f.label f.closed) → (∀ f ∈ fs, f.label ≠ 0) →
    ∀ e ∈ P, ¬ path fs <+: e.1 ++ [0]
  | [], P, h, _, _ => by
    have h : P = [] := h
    subst h; simp
  | f :: fs, P, ⟨P1, Lc, h1, h2, h3⟩, hd, hz => by
    subst h3
    intro e he hp
    rw [path_cons] at hp
    rcases List.mem_append.1 he with he | he
    · exact h1.leave hne (fun g hg => hd g (by simp [hg])) (fun g hg => hz g (by simp [hg])) e he ((List.prefix_append _ _).trans hp)
    · obtain ⟨x, hx, rfl⟩ := List.mem_map.1 he
      have h4 : [f.label] <+: x.1 ++ [0] := by
        refine snoc_prefix (p := path fs) ?_
        simpa [pre] using hp
      have h5 := (h2.head hne f.label).1 ⟨x, hx, h4⟩
      have h6 := hd f (by simp)
      unfold Desc at h6
      exact UInt8.lt_irrefl _ ((List.pairwise_cons.1 h6).1 _ h5)

/-- The states along the open path have the transitions of the trie. -/
theorem Ctx.edges {gs} (hne : ∀ g ∈ gs, g ≠ []) : ∀ {f : Frame} {fs P} (T : Lang), Ctx gs (f :: fs) P → (∀ g ∈ f :: fs, Desc g.label g.closed) → (∀ g ∈ fs, g.label ≠ 0) →
    T ≠ [] → (∀ t ∈ T, path (f :: fs) <+: t.1 ++ [0]) →
    Abs.edges (f :: fs) = ((List.range (fs.length + 1)).map (fun i => degree ((P ++ T).map Prod.fst) ((path fs).take i))).sum
  | f, fs, P, T, h, hd, hz, hT, hpre => by
    obtain ⟨P1, Lc, h1, h2, rfl⟩ := h
    have hdf := hd f (by simp)
    have hleave := h1.leave hne (fun g hg => hd g (by simp [hg])) hz
    have hlen : (path fs).length = fs.length := by simp [path]
    have hdeg : degree ((P1 ++ Lc.map (pre (path fs)) ++ T).map Prod.fst) (path fs) = f.closed.length + 1 := by
      have := degree_eq (keys := (P1 ++ Lc.map (pre (path fs)) ++ T).map Prod.fst) (p := path fs) (S := f.label :: f.closed.map Edge.label) ?_ ?_
      · rw [this]; simp
      · unfold Desc at hdf
        exact List.Pairwise.imp (S := fun a b => a ≠ b) (fun {a b} h e => UInt8.lt_irrefl a (by rw [e] at h ⊢; exact h)) hdf
      · intro l
        constructor
        · rintro ⟨k, hk, hp⟩
          obtain ⟨e, he, rfl⟩ := List.mem_map.1 hk
          rcases List.mem_append.1 he with he | he
          · rcases List.mem_append.1 he with he | he
            · exact absurd ((List.prefix_append _ _).trans hp) (hleave e he)
            · obtain ⟨x, hx, rfl⟩ := List.mem_map.1 he
              refine List.mem_cons_of_mem _ ((h2.head hne l).1 ⟨x, hx, ?_⟩)
              refine snoc_prefix (p := path fs) ?_
              simpa [pre] using hp
          · have h3 := hpre e he
            rw [path_cons] at h3
            have h4 := List.prefix_of_prefix_length_le hp h3 (by simp)
            have h5 := snoc_prefix h4
            simp at h5
            simp [h5]
        · intro hl
          rcases List.mem_cons.1 hl with rfl | hl
          · obtain ⟨t, ts, rfl⟩ := List.exists_cons_of_ne_nil hT
            have h3 := hpre t (by simp)
            rw [path_cons] at h3
            exact ⟨t.1, by simp, h3⟩
          · obtain ⟨x, hx, hp⟩ := (h2.head hne l).2 hl
            refine ⟨(pre (path fs) x).1, List.mem_map_of_mem (List.mem_append_left _ (List.mem_append_right _ (List.mem_map_of_mem hx))), ?_⟩
            simp only [pre, List.append_assoc]
            exact (List.prefix_append_right_inj _).2 hp
    rw [List.range_succ, List.map_append, List.sum_append]
    have htk : (path fs).take fs.length = path fs := by rw [← hlen]; exact List.take_length
    simp only [List.map_cons, List.map_nil, List.sum_cons, List.sum_nil, htk, hdeg, Abs.edges, Nat.add_zero]
    cases fs with
    | nil => simp [Abs.edges]
    | cons g fs =>
      have ih := Ctx.edges hne (f := g) (fs := fs) (P := P1) (Lc.map (pre (path (g :: fs))) ++ T) h1 (fun x hx => hd x (by simp [hx])) (fun x hx => hz x (by simp [hx]))
        (by simp [hT]) (by
          intro t ht
          rcases List.mem_append.1 ht with ht | ht
          · obtain ⟨x, _, rfl⟩ := List.mem_map.1 ht
            simp [pre]
          · have h3 := hpre t ht
            rw [path_cons] at h3
            exact (List.prefix_append _ _).trans h3)
      rw [ih, Nat.add_comm (f.closed.length + 1)]
      congr 2
      rw [List.length_cons]
      refine List.map_congr_left fun i hi => ?_
      have hi : i ≤ fs.length := by simp at hi; omega
      have h3 : (path (g :: fs)).take i = (path fs).take i := by
        rw [path_cons, List.take_append_of_le_length (by simp [path]; omega)]
      rw [h3, List.append_assoc]
  termination_by _ fs => fs.length

theorem SInv.edges {s : St} {acc : Lang} (h : SInv s acc) : Abs.edges s.frames = openPath (acc.map Prod.fst) := by
  rcases h.acc with ⟨h1, _, _, h4⟩ | ⟨fs, P, h1, h2, h3, h4⟩
  · rw [h1, h4]; rfl
  · have hd := h.desc
    rw [h1] at hd ⊢
    have hc : Ctx s.core.groups (⟨[], 0⟩ :: fs) P := ⟨P, [], h3, rfl, by simp⟩
    have hlen : (path fs).length = fs.length := by simp [path]
    rw [hc.edges h.core.ne [(path fs, s.val % 2147483648)] hd h2 (by simp) (by simp [path_cons]), ← h4]
    unfold openPath
    rw [List.getLast?_map, h4]
    simp only [List.getLast?_append, List.getLast?_singleton, Option.some_or, Option.map_some, hlen]

/-! ## Whole histories -/

theorem TableInv_count {t S : List Nat} {h : Nat → Nat} (hi : TableInv t S h) : t.countP (fun x => x != 0) ≤ S.length := by
  rw [List.countP_eq_length_filter]
  refine List.Nodup.length_le_of_subset ?_ ?_
  · have hp : t.Pairwise (fun a b => a ≠ 0 → a ≠ b) := by
      rw [List.pairwise_iff_getElem]
      intro i j hi' hj' hij h0 heq
      have := hi.probing.inj i j hi' hj' (by rw [slot_lt hi']; exact h0) (by rw [slot_lt hi', slot_lt hj']; exact heq)
      omega
    have h2 := hp.filter (fun x => x != 0)
    refine List.Pairwise.imp_of_mem ?_ h2
    intro a b ha _ hab
    exact hab (by simpa using (List.mem_filter.1 ha).2)
  · intro x hx
    obtain ⟨hx, h0⟩ := List.mem_filter.1 hx
    obtain ⟨j, hj, rfl⟩ := List.getElem_of_mem hx
    rw [← slot_lt hj]
    refine hi.sub j hj ?_
    rw [slot_lt hj]; simpa using h0

theorem CoreRel.count {db c} (h : CoreRel db c) : db.hashTable.countP (fun x => x != 0) + 1 ≤ db.numOfStates := by
  have := TableInv_count h.table
  rw [starts_length] at this
  rw [h.states]; omega

theorem map_wordE_fst (acc : List (Key × Int)) : (acc.map wordE).map Prod.fst = acc.map Prod.fst := by
  rw [List.map_map]; rfl

theorem run_len {n : Nat} : ∀ (hist : List (Key × Int)) (b : Builder) (s : St) (acc : List (Key × Int)) (t : Nat) (b' : Builder) (oks : List Bool),
    Rel b s → SInv s (acc.map wordE) → Tab n b → b.hashTable.length ≠ 0 → s.size ≤ 1 + t → b.unitPool.length ≤ 1 + t →
    (∀ e ∈ hist, (0 : UInt8) ∉ e.1) → t + total hist < 1073741824 → insertAll b hist = .ok (b', oks) →
    Tab n b' ∧ b'.unitPool.length = max b.unitPool.length (1 + peakFrom acc hist) := by
  intro hist
  induction hist with
  | nil =>
    intro b s acc t b' oks h1 h2 h3 h4 h5 h6 _ _ h
    simp only [insertAll, Except.ok.injEq, Prod.mk.injEq] at h
    obtain ⟨rfl, rfl⟩ := h
    refine ⟨h3, ?_⟩
    have := h1.units_count
    rw [h2.edges, map_wordE_fst] at this
    simp only [peakFrom]; omega
  | cons e hist ih =>
    intro b s acc t b' oks h1 h2 h3 h4 h5 h6 hnul htot h
    obtain ⟨k, v⟩ := e
    have hk : (0 : UInt8) ∉ k := hnul (k, v) (by simp)
    have htot' : total ((k, v) :: hist) = k.length + 1 + total hist := by simp [total]
    rw [htot'] at htot
    have hsz : s.size ≤ 1073741824 := by omega
    obtain ⟨b1, r1, r2, r3, r4, r5⟩ := insert_spec h1 k k.length (Nat.le_refl _) (by simpa using hk) v h4 hsz (by omega)
    rw [List.take_length] at r1 r2 r5
    obtain ⟨q1, q2, q3⟩ := insert_sem h2 k (baseOfValue v) hk hsz
    rw [word_eq, addW_map] at q1
    have hsize := s.insert_size (k ++ [0]) (baseOfValue v) (by simp)
    rw [List.length_append, List.length_singleton] at hsize
    obtain ⟨l1, l2, l3, l4⟩ := insert_len h3 h4 r1
    simp only [insertAll, Builder.insertStringValue] at h
    rw [r1] at h
    simp only [ok_bind] at h
    rw [bind_eq_ok] at h
    obtain ⟨⟨b2, o2⟩, h, h'⟩ := h
    simp only [pure_eq_ok, Except.ok.injEq, Prod.mk.injEq] at h'
    obtain ⟨rfl, rfl⟩ := h'
    obtain ⟨p1, p2⟩ := ih b1 _ (add acc k v) (t + (k.length + 1)) _ _ r2 q1 l1 l2 (by omega) (by omega)
      (fun e he => hnul e (by simp [he])) (by omega) h
    refine ⟨p1, ?_⟩
    have u0 := h1.units_count
    have u1 := r2.units_count
    rw [h2.edges, map_wordE_fst] at u0
    rw [q1.edges, map_wordE_fst] at u1
    have u2 : openPath ((add acc k v).map Prod.fst) ≤ peakFrom (add acc k v) hist := by
      cases hist <;> simp [peakFrom]; omega
    simp only [peakFrom]; omega

theorem init_table {n : Nat} {b : Builder} (h : (Builder.newWithSize n).init = .ok b) : b.hashTable.length = n ∧ b.numOfStates = 1 := by
  have e : (Builder.newWithSize n).init = .ok _ := rfl
  rw [e] at h
  cases h
  simp [Builder.newWithSize]

/-- The memory of the builder in the middle of a history. -/
theorem run_memory (n : Nat) (h1 : 1 ≤ n) (h2 : n < 4294967296) (hist : List (Key × Int)) (hadm : Admissible hist) (hne : hist ≠ [])
    {b : Builder} {oks : List Bool} (h : insertAll (Builder.newWithSize n) hist = .ok (b, oks)) :
    Tab n b ∧ b.unitPool.length = 1 + peakFrom [] hist := by
  obtain ⟨b0, i1, i2, i3, i4, i5⟩ := init_spec n h1 h2
  obtain ⟨t1, t2⟩ := init_table i1
  cases hist with
  | nil => exact absurd rfl hne
  | cons e hist =>
    rw [insertAll_init i1 i4] at h
    have := run_len (n := n) (e :: hist) b0 St.init [] 0 b oks i2 SInv.init ⟨⟨0, by rw [t1]; simp⟩, .inl t1, by rw [t1, t2]; omega⟩ i4
      (by simp [St.size, St.init, poolLen, Abs.edges]) (by omega) hadm.nulFree (by simpa [total] using hadm.small) h
    refine ⟨this.1, ?_⟩
    rw [this.2, i3]; omega

end Dawg.Abs
