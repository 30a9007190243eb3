import Verif.Proof.Builder.FixState
/-! # The unit pool of the concrete builder: the open path -/
namespace Dawg.Abs
attribute [-simp] List.length_flatten

/-- Finished transitions: the chain starting at unit `i`. -/
def ClosedRep (up : List DawgUnit) : Nat → List Edge → List Nat → Prop
  | i, [], us => i = 0 ∧ us = []
  | i, e :: es, us => ∃ j us', i ≠ 0 ∧ us = i :: us' ∧
      up[i]? = some ⟨e.child, j, e.label, es == [], true⟩ ∧ ClosedRep up j es us'

/-- The frames above unit `b`: the deepest open unit has child word `c`; `hs` are the open units, `used`
all units. -/
def SegRep (up : List DawgUnit) (b : Nat) : List Frame → Nat → List Nat → List Nat → Prop
  | [], c, hs, used => hs = [] ∧ used = [] ∧ ∃ u, up[b]? = some u ∧ u.child = c
  | f :: fs, c, hs, used => ∃ h hs' j us used', h ≠ 0 ∧ hs = h :: hs' ∧ used = (h :: us) ++ used' ∧
      up[h]? = some ⟨c, j, f.label, f.closed == [], false⟩ ∧ ClosedRep up j f.closed us ∧
      SegRep up b fs h hs' used'

theorem ClosedRep.congr {up up'} : ∀ {es : List Edge} {i us}, ClosedRep up i es us →
    (∀ x ∈ us, up'[x]? = up[x]?) → ClosedRep up' i es us
  | [], _, _, h, _ => h
  | _ :: _, _, _, ⟨j, us', hi, rfl, hu, h⟩, ha =>
    ⟨j, us', hi, rfl, by rw [ha _ (by simp), hu], h.congr (fun x hx => ha x (by simp [hx]))⟩

theorem SegRep.congr {up up' b} : ∀ {fs : List Frame} {c hs used}, SegRep up b fs c hs used →
    (∀ x ∈ used, up'[x]? = up[x]?) → up'[b]? = up[b]? → SegRep up' b fs c hs used
  | [], _, _, _, ⟨rfl, rfl, u, hu, hc⟩, _, hb => ⟨rfl, rfl, u, by rw [hb, hu], hc⟩
  | _ :: _, _, _, _, ⟨h, hs', j, us, used', h0, rfl, rfl, hu, hcl, hr⟩, ha, hb =>
    ⟨h, hs', j, us, used', h0, rfl, rfl, by rw [ha _ (by simp), hu], hcl.congr (fun x hx => ha x (by simp [hx])),
      hr.congr (fun x hx => ha x (by simp [hx])) hb⟩

theorem ClosedRep.nz {up} : ∀ {es : List Edge} {i us}, ClosedRep up i es us → ∀ x ∈ us, x ≠ 0 ∧ x < up.length
  | [], _, _, ⟨_, rfl⟩, x, hx => by simp at hx
  | _ :: _, _, _, ⟨j, us', hi, rfl, hu, h⟩, x, hx => by
    rcases List.mem_cons.1 hx with rfl | hx
    · exact ⟨hi, (List.getElem?_eq_some_iff.1 hu).1⟩
    · exact h.nz x hx

theorem SegRep.nz {up b} : ∀ {fs : List Frame} {c hs used}, SegRep up b fs c hs used →
    ∀ x ∈ used, x ≠ 0 ∧ x < up.length
  | [], _, _, _, ⟨_, rfl, _⟩, x, hx => by simp at hx
  | _ :: _, _, _, _, ⟨h, hs', j, us, used', h0, rfl, rfl, hu, hcl, hr⟩, x, hx => by
    simp only [List.cons_append, List.mem_cons, List.mem_append] at hx
    rcases hx with rfl | hx | hx
    · exact ⟨h0, (List.getElem?_eq_some_iff.1 hu).1⟩
    · exact hcl.nz x hx
    · exact hr.nz x hx

theorem SegRep.heads_sub {up b} : ∀ {fs : List Frame} {c hs used}, SegRep up b fs c hs used → hs ⊆ used
  | [], _, _, _, ⟨rfl, rfl, _⟩, x, hx => hx
  | _ :: _, _, _, _, ⟨h, hs', j, us, used', h0, rfl, rfl, hu, hcl, hr⟩, x, hx => by
    rcases List.mem_cons.1 hx with rfl | hx
    · simp
    · have := hr.heads_sub hx; simp [this]

theorem SegRep.heads_length {up b} : ∀ {fs : List Frame} {c hs used}, SegRep up b fs c hs used → hs.length = fs.length
  | [], _, _, _, ⟨rfl, rfl, _⟩ => rfl
  | _ :: _, _, _, _, ⟨h, hs', j, us, used', h0, rfl, rfl, hu, hcl, hr⟩ => by simp [hr.heads_length]

/-- The unit on top of a segment. -/
theorem SegRep.top {up b} : ∀ {fs : List Frame} {c hs used}, SegRep up b fs c hs used →
    ∃ u, up[hs.headD b]? = some u ∧ u.child = c
  | [], _, _, _, ⟨rfl, rfl, u, hu⟩ => ⟨u, hu⟩
  | _ :: _, _, _, _, ⟨h, hs', j, us, used', h0, rfl, rfl, hu, hcl, hr⟩ => ⟨_, hu, rfl⟩

/-- Changing the child word of the unit on top of a segment. -/
theorem SegRep.setChild {up b} {fs : List Frame} {c hs used} (h : SegRep up b fs c hs used)
    (hnd : (b :: used).Nodup) {u} (hu : up[hs.headD b]? = some u) (c' : Nat) :
    SegRep (up.set (hs.headD b) { u with child := c' }) b fs c' hs used := by
  have hlt := (List.getElem?_eq_some_iff.1 hu).1
  cases fs with
  | nil =>
    obtain ⟨rfl, rfl, _⟩ := h
    exact ⟨rfl, rfl, { u with child := c' }, by simp at hlt ⊢; simp [hlt], rfl⟩
  | cons f fs =>
    obtain ⟨h, hs', j, us, used', h0, rfl, rfl, hu', hcl, hr⟩ := h
    simp only [List.headD_cons] at hu hlt ⊢
    rw [hu'] at hu
    simp only [Option.some.injEq] at hu
    subst hu
    have hget : ∀ x, x ≠ h → (up.set h { child := c', sibling := j, label := f.label, isState := f.closed == [], hasSibling := false })[x]? = up[x]? := by
      intro x hx; rw [List.getElem?_set_ne (Ne.symm hx)]
    simp only [List.cons_append, List.nodup_cons, List.mem_cons, List.mem_append, not_or] at hnd
    refine ⟨h, hs', j, us, used', h0, rfl, rfl, by simp [hlt], hcl.congr ?_, hr.congr ?_ ?_⟩
    · intro x hx; exact hget x (fun e => hnd.2.1.1 (e ▸ hx))
    · intro x hx; exact hget x (fun e => hnd.2.1.2 (e ▸ hx))
    · exact hget b hnd.1.1

/-- A segment consists of segments. -/
theorem SegRep.split {up b} {f : Frame} {fs : List Frame} : ∀ {ds : List Frame} {v hs used},
    SegRep up b (ds ++ f :: fs) v hs used →
    ∃ hds h hs' u1 u2 c, hs = hds ++ h :: hs' ∧ used = u1 ++ u2 ∧ SegRep up h ds v hds u1 ∧
      SegRep up b (f :: fs) c (h :: hs') u2
  | [], v, hs, used, h => by
    have h' := h
    obtain ⟨h, hs', j, us, used', h0, rfl, rfl, hu, hcl, hr⟩ := h
    exact ⟨[], h, hs', [], _, v, rfl, rfl, ⟨rfl, rfl, _, hu, rfl⟩, h'⟩
  | d :: ds, v, hs, used, h => by
    obtain ⟨h, hs', j, us, used', h0, rfl, rfl, hu, hcl, hr⟩ := h
    obtain ⟨hds, h2, hs2, u1, u2, c, rfl, rfl, hr1, hr2⟩ := SegRep.split hr
    exact ⟨h :: hds, h2, hs2, (h :: us) ++ u1, u2, c, rfl, by simp, ⟨h, hds, j, us, u1, h0, rfl, rfl, hu, hcl, hr1⟩, hr2⟩

/-! ## Closing frames -/

/-- The pairs of a state, descending. -/
theorem ClosedRep.uchain {up} : ∀ {es : List Edge} {i us}, ClosedRep up i es us → UChain up i (encClosed es) us
  | [], _, _, h => h
  | _ :: _, _, _, ⟨_, us', hi, rfl, hu, h⟩ => ⟨_, us', hi, rfl, hu, rfl, rfl, h.uchain⟩

/-- Number of transitions of frames. -/
def edges : List Frame → Nat
  | [] => 0
  | f :: fs => f.closed.length + 1 + edges fs

theorem edges_append (a b : List Frame) : edges (a ++ b) = edges a + edges b := by
  induction a with
  | nil => simp [edges]
  | cons f a ih => simp [edges, ih]; omega

theorem Core.put_poolLen (c : Core) (g : Group) : poolLen (c.put g).1.groups ≤ poolLen c.groups + g.length := by
  unfold Core.put; split
  · simp
  · simp [poolLen_append]

theorem closeFrames_poolLen : ∀ (fs : List Frame) (v : Nat) (c : Core),
    poolLen (closeFrames fs v c).1.groups ≤ poolLen c.groups + edges fs
  | [], v, c => by simp [closeFrames, edges]
  | f :: fs, v, c => by
    simp only [closeFrames, edges]
    have h1 := closeFrames_poolLen fs (c.put (encNode f.label v f.closed)).2 (c.put (encNode f.label v f.closed)).1
    have h2 := c.put_poolLen (encNode f.label v f.closed)
    rw [encNode_length] at h2
    omega

theorem nodup_length_le {l : List Nat} {n : Nat} (h : l.Nodup) (hlt : ∀ x ∈ l, x < n) : l.length ≤ n := by
  have := h.length_le_of_subset (l₂ := List.range n) (fun x hx => by simpa using hlt x hx)
  simpa using this

theorem freeUnits_spec : ∀ (us : List Nat) (db : Builder),
    Builder.freeUnits us db = { db with unusedUnits := us.reverse ++ db.unusedUnits }
  | [], db => rfl
  | i :: us, db => by simp [Builder.freeUnits, freeUnits_spec us, Builder.freeUnit]

/-- The result of closing the frames above unit `b`. -/
structure Closed (db db' : Builder) (b : Nat) (used below : List Nat) (c' : Core) (child : Nat) : Prop where
  core : CoreRel db' c'
  stack : db'.unfixedUnits = below
  unused : db'.unusedUnits.Perm (used ++ db.unusedUnits)
  len : db'.unitPool.length = db.unitPool.length
  other : ∀ i, i ≠ b → i ∉ used → db'.unitPool[i]? = db.unitPool[i]?
  base : ∃ u, db.unitPool[b]? = some u ∧ db'.unitPool[b]? = some { u with child := child }
  init : db'.initialHashTableSize = db.initialHashTableSize

theorem fixLoop_spec : ∀ (ds : List Frame) (db : Builder) (c : Core) (b v : Nat) (hds used below : List Nat) (fuel : Nat),
    CoreRel db c → SegRep db.unitPool b ds v hds used → (b :: used).Nodup →
    (∀ f ∈ ds, Desc f.label f.closed) → db.unfixedUnits = hds ++ b :: below →
    poolLen c.groups + edges ds ≤ 1073741824 → ds.length < fuel →
    ∃ db', Builder.fixLoop fuel db b = .ok db' ∧ Closed db db' b used below (closeFrames ds v c).1 (closeFrames ds v c).2 := by
  intro ds
  induction ds with
  | nil =>
    intro db c b v hds used below fuel hr hs hnd hd hst hsz hf
    obtain ⟨fuel, rfl⟩ : ∃ f, fuel = f + 1 := ⟨fuel - 1, by omega⟩
    obtain ⟨rfl, rfl, u, hu, hv⟩ := hs
    simp only [List.nil_append] at hst
    refine ⟨{ db with unfixedUnits := below }, by simp [Builder.fixLoop, hst], ?_⟩
    refine ⟨?_, rfl, by simp, rfl, fun i _ _ => rfl, ⟨u, hu, ?_⟩, rfl⟩
    · exact ⟨hr.base, hr.label, hr.flagSize, hr.flags, hr.states, hr.merged, hr.merging, hr.wf, hr.nodup, hr.table, hr.room, hr.htlen, hr.markedNodup, hr.markedSub⟩
    · simp only [closeFrames]; rw [hu, ← hv]
  | cons f ds ih =>
    intro db c b v hds used below fuel hr hs hnd hd hst hsz hf
    obtain ⟨fuel, rfl⟩ : ∃ f, fuel = f + 1 := ⟨fuel - 1, by omega⟩
    have hsAll := hs
    obtain ⟨h, hs', j, us, used', h0, rfl, rfl, hu, hcl, hrest⟩ := hs
    have hne : h ≠ b := by
      intro e; subst e; simp at hnd
    simp only [List.cons_append] at hst
    simp only [Builder.fixLoop, hst, if_neg hne]
    -- one iteration
    unfold Builder.fixOne
    have hr1 : CoreRel { db with unfixedUnits := hs' ++ b :: below } c :=
      ⟨hr.base, hr.label, hr.flagSize, hr.flags, hr.states, hr.merged, hr.merging, hr.wf, hr.nodup, hr.table, hr.room, hr.htlen, hr.markedNodup, hr.markedSub⟩
    simp only [edges] at hsz
    obtain ⟨ht, hexp, hr2, hroom⟩ := maybeExpand_spec hr1 (by omega)
    rw [hexp]
    simp only [ok_bind]
    have hchain : UChain db.unitPool h ((f.label, baseOf f.label v (f.closed == []) false) :: encClosed f.closed) (h :: us) :=
      ⟨_, us, h0, rfl, hu, rfl, rfl, hcl.uchain⟩
    have hlen : (h :: us).length ≤ db.unitPool.length := by
      apply nodup_length_le
      · have : (h :: us).Nodup := by
          have := (List.nodup_cons.1 hnd).2
          exact (List.nodup_append.1 this).1
        exact this
      · intro x hx; exact (hsAll.nz x (by simp only [List.mem_append]; exact .inl hx)).2
    have hdf : Desc f.label f.closed := hd f (by simp)
    obtain ⟨db3, hfix, hr3, hsame⟩ := fixState_spec hr2 (h := h) (us := h :: us) (by simp [encClosed_length]; omega)
      hroom hchain (encNode_wf hdf) hlen
    rw [show ((f.label, baseOf f.label v (f.closed == []) false) :: encClosed f.closed).reverse =
      encNode f.label v f.closed from rfl] at hfix hr3
    rw [hfix]
    simp only [ok_bind]
    have hu3 : db3.unitPool = db.unitPool := hsame.units
    unfold Builder.unitsFrom
    rw [hu3, hchain.unitChain (by omega)]
    simp only [ok_bind, freeUnits_spec]
    -- the parent
    obtain ⟨pu, hpu, hpc⟩ := hrest.top
    have hstack3 : db3.unfixedUnits = hs' ++ b :: below := hsame.unfixed
    have hcons : hs' ++ b :: below = hs'.headD b :: (hs' ++ b :: below).tail := by cases hs' <;> simp
    simp only [hstack3]
    rw [hcons]
    simp only [hu3, rd_some hpu, ok_bind, wr_lt (List.getElem?_eq_some_iff.1 hpu).1, pure_eq_ok]
    rw [← hcons]
    have hnd' : (b :: used').Nodup := by
      simp only [List.cons_append, List.nodup_cons, List.mem_cons, List.mem_append, not_or, List.nodup_append] at hnd ⊢
      exact ⟨hnd.1.2.2, hnd.2.2.2.1⟩
    have hrest' := hrest.setChild hnd' hpu (c.put (encNode f.label v f.closed)).2
    have hr4 : CoreRel { db3 with
          unitPool := db.unitPool.set (hs'.headD b) { pu with child := (c.put (encNode f.label v f.closed)).2 }
          unusedUnits := (h :: us).reverse ++ db3.unusedUnits
          unfixedUnits := hs' ++ b :: below } (c.put (encNode f.label v f.closed)).1 :=
      ⟨hr3.base, hr3.label, hr3.flagSize, hr3.flags, hr3.states, hr3.merged, hr3.merging, hr3.wf, hr3.nodup, hr3.table, hr3.room, hr3.htlen, hr3.markedNodup, hr3.markedSub⟩
    have hpl := c.put_poolLen (encNode f.label v f.closed)
    rw [encNode_length] at hpl
    obtain ⟨db', hfl, hcl'⟩ := ih _ _ b _ hs' used' below fuel hr4 hrest' hnd' (fun g hg => hd g (by simp [hg])) rfl
      (by omega) (by simp at hf; omega)
    refine ⟨db', ?_, ?_⟩
    · rw [← hfl]
    · have hun : db3.unusedUnits = db.unusedUnits := hsame.unused
      have hheadin : hs'.headD b = b ∨ hs'.headD b ∈ used' := by
        cases hs' with
        | nil => left; rfl
        | cons x xs => right; exact hrest.heads_sub (by simp)
      refine ⟨hcl'.core, hcl'.stack, ?_, ?_, ?_, ?_, ?_⟩
      · refine hcl'.unused.trans ?_
        simp only [hun]
        have h1 : ((h :: us).reverse ++ db.unusedUnits).Perm ((h :: us) ++ db.unusedUnits) :=
          (List.reverse_perm _).append_right _
        refine (h1.append_left used').trans ?_
        rw [← List.append_assoc]
        exact (List.perm_append_comm).append_right _
      · rw [hcl'.len]; simp
      · intro i hi hnot
        simp only [List.cons_append, List.mem_cons, List.mem_append, not_or] at hnot
        rw [hcl'.other i hi hnot.2.2]
        rw [List.getElem?_set_ne]
        intro e; rcases hheadin with h1 | h1
        · exact hi (e.symm.trans h1)
        · exact hnot.2.2 (e ▸ h1)
      · obtain ⟨u, hu1, hu2⟩ := hcl'.base
        by_cases hb : hs'.headD b = b
        · simp only [hb] at hu1 hpu
          have hlt := (List.getElem?_eq_some_iff.1 hpu).1
          simp [hlt] at hu1
          refine ⟨pu, hpu, ?_⟩
          rw [hu2, ← hu1]; rfl
        · refine ⟨u, ?_, hu2⟩
          rw [← hu1, List.getElem?_set_ne hb]
      · rw [hcl'.init]; exact hsame.init

end Dawg.Abs
