import Verif.Proof.Builder.Units
/-! # Insertion and Finish refine the abstract builder -/
namespace Dawg.Abs
attribute [-simp] List.length_flatten

/-- Ownership of the units: the open path uses `used`, the rest is on the free list. -/
structure UnitInv (db : Builder) (used : List Nat) : Prop where
  nodup : (0 :: (used ++ db.unusedUnits)).Nodup
  lt : ∀ i ∈ db.unusedUnits, i < db.unitPool.length
  usedLt : ∀ i ∈ used, i < db.unitPool.length
  root : ∃ c, db.unitPool[0]? = some ⟨c, 0, 0xff, false, false⟩
  count : 1 + used.length + db.unusedUnits.length = db.unitPool.length

theorem UnitInv.pos {db used} (h : UnitInv db used) : 0 < db.unitPool.length := by
  obtain ⟨c, hc⟩ := h.root; exact (List.getElem?_eq_some_iff.1 hc).1

theorem allocateUnit_spec {db : Builder} {used} (h : UnitInv db used) (hsz : db.unitPool.length < 4294967296) :
    ∃ up un i, db.allocateUnit = .ok ({ db with unitPool := up, unusedUnits := un }, i) ∧
      up[i]? = some DawgUnit.empty ∧ (∀ x, x ≠ i → x < db.unitPool.length → up[x]? = db.unitPool[x]?) ∧
      i ≠ 0 ∧ i ∉ used ∧ db.unitPool.length ≤ up.length ∧ up.length ≤ db.unitPool.length + 1 ∧
      UnitInv { db with unitPool := up, unusedUnits := un } (i :: used) := by
  obtain ⟨c, hc⟩ := h.root
  unfold Builder.allocateUnit
  cases hun : db.unusedUnits with
  | nil =>
    have hpos := h.pos
    have hnd := h.nodup
    rw [hun] at hnd
    simp only [List.append_nil] at hnd
    have hnin : db.unitPool.length ∉ used := fun hm => Nat.lt_irrefl _ (h.usedLt _ hm)
    refine ⟨db.unitPool ++ [DawgUnit.empty], [], db.unitPool.length, ?_, by simp, ?_, by omega, hnin, by simp, by simp, ?_⟩
    · simp [u32_of_lt hsz, ← hun]
    · intro x hx hlt; rw [List.getElem?_append_left hlt]
    · refine ⟨?_, by simp, ?_, ⟨c, ?_⟩, by have := h.count; rw [hun] at this; simp at this ⊢; omega⟩
      · simp only [List.append_nil, List.nodup_cons, List.mem_cons, not_or] at hnd ⊢
        exact ⟨⟨by omega, hnd.1⟩, hnin, hnd.2⟩
      · intro i hi
        simp only [List.length_append, List.length_singleton]
        rcases List.mem_cons.1 hi with rfl | hi
        · omega
        · have := h.usedLt i hi; omega
      · simp only; rw [List.getElem?_append_left hpos]; exact hc
  | cons i rest =>
    have hnd := h.nodup
    rw [hun] at hnd
    have hilt := h.lt i (by simp [hun])
    have hnd' : (0 :: i :: (used ++ rest)).Nodup := by
      refine (List.Perm.nodup_iff ?_).1 hnd
      exact List.Perm.cons _ List.perm_middle
    simp only [List.nodup_cons, List.mem_cons, not_or, List.mem_append] at hnd'
    simp only [wr_lt hilt, ok_bind]
    refine ⟨db.unitPool.set i DawgUnit.empty, rest, i, rfl, by simp [hilt], ?_, by have := hnd'.1.1; omega,
      hnd'.2.1.1, by simp, by simp, ?_⟩
    · intro x hx _; rw [List.getElem?_set_ne (Ne.symm hx)]
    · refine ⟨?_, ?_, ?_, ⟨c, ?_⟩, by have := h.count; rw [hun] at this; simp at this ⊢; omega⟩
      · simp only [List.cons_append, List.nodup_cons, List.mem_cons, not_or, List.mem_append]
        exact hnd'
      · intro x hx; simp only [List.length_set]; exact h.lt x (by simp [hun]; exact .inr hx)
      · intro x hx; simp only [List.length_set]
        rcases List.mem_cons.1 hx with rfl | hx
        · exact hilt
        · exact h.usedLt x hx
      · simp only; rw [List.getElem?_set_ne (by have := hnd'.1.1; omega)]; exact hc

/-! ## addUnits -/

theorem keyLabel_spec {key : List UInt8} {length : Nat} (hl : length ≤ key.length) {labels : List UInt8}
    (hlab : labels = key.take length ++ [0]) {pos : Nat} {k : UInt8} {ks : List UInt8}
    (hdrop : labels.drop pos = k :: ks) : Builder.keyLabel key (length : Int) pos = .ok k := by
  have hlen : labels.length = length + 1 := by rw [hlab]; simp; omega
  have hpos : pos < labels.length := by
    refine Classical.byContradiction fun hc => ?_
    rw [List.drop_eq_nil_of_le (by omega)] at hdrop; simp at hdrop
  have hk : labels[pos]? = some k := by
    rw [List.drop_eq_getElem_cons hpos, List.cons.injEq] at hdrop
    rw [List.getElem?_eq_getElem hpos, hdrop.1]
  unfold Builder.keyLabel
  split
  · rename_i h
    have h' : pos < length := by omega
    apply rd_some
    rw [hlab, List.getElem?_append_left (by simp; omega), List.getElem?_take_of_lt h'] at hk
    exact hk
  · rename_i h
    have : pos = length := by omega
    subst this
    rw [hlab, List.getElem?_append_right (by simp; omega)] at hk
    simp [Nat.min_eq_left hl] at hk
    rw [hk]

/-- The state in which new units are added below the top of `fs`. -/
structure Ready (db : Builder) (c : Core) (fs : List Frame) (child : Nat) (closed : List Edge) (hs used us : List Nat) : Prop where
  core : CoreRel db c
  seg : SegRep db.unitPool 0 fs child hs used
  chain : ClosedRep db.unitPool child closed us
  inv : UnitInv db (used ++ us)
  stack : db.unfixedUnits = hs ++ [0]

theorem CoreRel.congr {db db' c} (h : CoreRel db c) (h1 : db'.basePool = db.basePool) (h2 : db'.labelPool = db.labelPool)
    (h3 : db'.flagPool = db.flagPool) (h4 : db'.hashTable = db.hashTable) (h5 : db'.numOfStates = db.numOfStates)
    (h6 : db'.numOfMergedTransitions = db.numOfMergedTransitions) (h7 : db'.numOfMergingStates = db.numOfMergingStates) :
    CoreRel db' c :=
  ⟨h1 ▸ h.base, h2 ▸ h.label, h3 ▸ h.flagSize, h3 ▸ h.flags, h5 ▸ h.states, h6 ▸ h.merged, h7 ▸ h.merging, h.wf, h.nodup,
    h4 ▸ h.table, h4 ▸ h.room, h4 ▸ h.htlen, h.markedNodup, h.markedSub⟩

/-- Frames added for the labels `ks`, the first with finished transitions `closed`. -/
def pushFrom (closed : List Edge) (fs : List Frame) : List UInt8 → List Frame
  | [] => fs
  | k :: ks => pushAll ks (⟨closed, k⟩ :: fs)

theorem addUnits_spec {key : List UInt8} {length : Nat} (hl : length ≤ key.length) {labels : List UInt8}
    (hlab : labels = key.take length ++ [0]) : ∀ (ks : List UInt8) (db : Builder) (c : Core) (fs : List Frame) (child : Nat)
    (closed : List Edge) (hs used us : List Nat) (pos : Nat),
    Ready db c fs child closed hs used us → labels.drop pos = ks → db.unitPool.length + ks.length < 4294967296 →
    ∃ db' hs' used' us' child' closed', Builder.addUnits key length ks.length db (hs.headD 0) pos = .ok (db', hs'.headD 0) ∧
      Ready db' c (pushFrom closed fs ks) child' closed' hs' used' us' ∧
      (ks ≠ [] → child' = 0 ∧ closed' = []) ∧
      (ks = [] → child' = child ∧ closed' = closed) ∧
      db'.unitPool.length ≤ db.unitPool.length + ks.length ∧ db'.initialHashTableSize = db.initialHashTableSize := by
  intro ks
  induction ks with
  | nil =>
    intro db c fs child closed hs used us pos hr hdrop hsz
    exact ⟨db, hs, used, us, child, closed, rfl, hr, by simp, by simp, by simp, rfl⟩
  | cons k ks ih =>
    intro db c fs child closed hs used us pos hr hdrop hsz
    have hkl := keyLabel_spec hl hlab hdrop
    obtain ⟨up, un, i, hal, hi, hother, hi0, hinot, hlen1, hlen2, hinv⟩ := allocateUnit_spec hr.inv (by simp at hsz; omega)
    simp only [List.mem_append, not_or] at hinot
    obtain ⟨tu, htu, htc⟩ := hr.seg.top
    have htoplt := (List.getElem?_eq_some_iff.1 htu).1
    have hsub := hr.seg.heads_sub
    have htopne : hs.headD 0 ≠ i := by
      cases hs with
      | nil => simp; omega
      | cons x xs => intro e; simp at e; exact hinot.1 (hsub (by simp [e]))
    have htu' : up[hs.headD 0]? = some tu := by rw [hother _ htopne htoplt, htu]
    have hilt : i < up.length := (List.getElem?_eq_some_iff.1 hi).1
    have hset : (up.set i ⟨0, tu.child, k, (if tu.child = 0 then true else false), false⟩)[hs.headD 0]? = some tu := by
      rw [List.getElem?_set_ne (Ne.symm htopne)]; exact htu'
    simp only [List.length_cons, Builder.addUnits, hkl, hal, ok_bind, rd_some htu', rd_some hi, wr_lt hilt]
    simp only [DawgUnit.empty]
    rw [rd_some hset]
    have hlt' : hs.headD 0 < (up.set i ⟨0, tu.child, k, (if tu.child = 0 then true else false), false⟩).length := by
      simp only [List.length_set]; omega
    simp only [ok_bind, wr_lt hlt']
    -- the new state
    have hnd : (0 :: used).Nodup := by
      have := hr.inv.nodup
      simp only [List.append_assoc, List.nodup_cons, List.mem_append, not_or, List.nodup_append] at this ⊢
      exact ⟨this.1.1, this.2.1⟩
    have hdisj : ∀ x ∈ us, x ≠ hs.headD 0 := by
      have hn := hr.inv.nodup
      intro x hx e
      cases hs with
      | nil => simp at e; subst e; simp [hx] at hn
      | cons y ys =>
        simp at e; subst e
        have hxu := hsub (List.mem_cons_self)
        simp only [List.append_assoc, List.nodup_cons, List.nodup_append] at hn
        exact hn.2.2.2 x hxu x (by simp [hx]) rfl
    have hseg1 : SegRep (up.set i ⟨0, tu.child, k, (if tu.child = 0 then true else false), false⟩) 0 fs child hs used := by
      refine hr.seg.congr ?_ ?_
      · intro x hx
        have hxi : x ≠ i := fun e => hinot.1 (e ▸ hx)
        rw [List.getElem?_set_ne (Ne.symm hxi)]
        exact hother x hxi (hr.inv.usedLt x (by simp [hx]))
      · rw [List.getElem?_set_ne hi0]
        exact hother 0 (Ne.symm hi0) hr.inv.pos
    have hseg2 := hseg1.setChild hnd hset i
    have hchain2 : ClosedRep ((up.set i ⟨0, tu.child, k, (if tu.child = 0 then true else false), false⟩).set (hs.headD 0) { tu with child := i }) child closed us := by
      refine hr.chain.congr ?_
      intro x hx
      have hxi : x ≠ i := fun e => hinot.2 (e ▸ hx)
      rw [List.getElem?_set_ne (Ne.symm (hdisj x hx)), List.getElem?_set_ne (Ne.symm hxi)]
      exact hother x hxi (hr.inv.usedLt x (by simp [hx]))
    have hst : (if tu.child = 0 then true else false) = (closed == []) := by
      rw [htc]
      have := hr.chain
      cases closed with
      | nil => simp [this.1]
      | cons e es => obtain ⟨_, _, h0, _⟩ := this; simp [h0]
    have hready : Ready { db with
          unitPool := (up.set i ⟨0, tu.child, k, (if tu.child = 0 then true else false), false⟩).set (hs.headD 0) { tu with child := i }
          unusedUnits := un
          unfixedUnits := i :: db.unfixedUnits } c (⟨closed, k⟩ :: fs) 0 [] (i :: hs) ((i :: us) ++ used) [] := by
      refine ⟨hr.core.congr rfl rfl rfl rfl rfl rfl rfl, ⟨i, hs, child, us, used, hi0, rfl, rfl, ?_, hchain2, hseg2⟩, ⟨rfl, rfl⟩, ?_, by simp [hr.stack]⟩
      · simp only; rw [List.getElem?_set_ne htopne, ← htc, ← hst]; simp [hilt]
      · refine ⟨?_, ?_, ?_, ?_, by have := hinv.count; simp at this ⊢; omega⟩
        · refine (List.Perm.nodup_iff ?_).1 hinv.nodup
          refine List.Perm.cons _ ?_
          simp only [List.append_nil, List.cons_append]
          refine List.Perm.cons _ ?_
          exact List.Perm.append_right _ List.perm_append_comm
        · intro x hx; simp only [List.length_set]; exact hinv.lt x hx
        · intro x hx; simp only [List.length_set]
          refine hinv.usedLt x ?_
          simp only [List.append_nil, List.cons_append, List.mem_cons, List.mem_append] at hx ⊢
          rcases hx with h | h | h <;> simp [h]
        · obtain ⟨rc, hrc⟩ := hinv.root
          simp only at hrc ⊢
          by_cases htop0 : hs.headD 0 = 0
          · rw [htop0] at htu' ⊢
            rw [hrc] at htu'
            simp only [Option.some.injEq] at htu'
            subst htu'
            refine ⟨i, ?_⟩
            have : 0 < up.length := by omega
            simp [this]
          · refine ⟨rc, ?_⟩
            rw [List.getElem?_set_ne htop0, List.getElem?_set_ne hi0]; exact hrc
    have hdrop' : labels.drop (pos + 1) = ks := by
      have := congrArg List.tail hdrop
      simpa using this
    obtain ⟨db', hs', used', us', child', closed', h1, h2, h3, h4, h5, h6⟩ := ih _ c (⟨closed, k⟩ :: fs) 0 [] (i :: hs) _ [] (pos + 1) hready hdrop'
      (by simp at hsz ⊢; omega)
    refine ⟨db', hs', used', us', child', closed', ?_, ?_, ?_, by simp, ?_, h6⟩
    · simpa using h1
    · have : pushFrom [] (⟨closed, k⟩ :: fs) ks = pushFrom closed fs (k :: ks) := by
        cases ks <;> rfl
      rw [← this]; exact h2
    · intro _
      cases ks with
      | nil => exact h4 rfl
      | cons => exact h3 (by simp)
    · simp at h5 ⊢; omega

end Dawg.Abs
