import Verif.Proof.Builder.Insert
/-! # InsertKeyValue and Finish refine the abstract builder -/
namespace Dawg.Abs
attribute [-simp] List.length_flatten

/-- A label sequence ending with its only 0: a NUL-free key and its terminator. -/
def Term (l : List UInt8) : Prop := ∃ a, l = a ++ [0] ∧ (0 : UInt8) ∉ a

theorem Term.cases {k : UInt8} {ks : List UInt8} (h : Term (k :: ks)) : (k = 0 ∧ ks = []) ∨ (k ≠ 0 ∧ Term ks) := by
  obtain ⟨a, ha, h0⟩ := h
  cases a with
  | nil => simp at ha; exact .inl ha
  | cons x a =>
    simp at ha h0
    right
    exact ⟨by rw [ha.1]; exact Ne.symm h0.1, a, ha.2, h0.2⟩

theorem Term.ne {l : List UInt8} (h : Term l) : l ≠ [] := by
  obtain ⟨a, rfl, _⟩ := h; simp

/-- The builder `db` represents the abstract state `s`. -/
structure Rel (db : Builder) (s : St) : Prop where
  core : CoreRel db s.core
  units : ∃ hs used, SegRep db.unitPool 0 s.frames s.val hs used ∧ UnitInv db used ∧ db.unfixedUnits = hs ++ [0]
  desc : ∀ f ∈ s.frames, Desc f.label f.closed
  path : Term (s.frames.reverse.map Frame.label) ∨ (s.frames = [] ∧ s.val = 0)

theorem SegRep.congr' {up up' b} : ∀ {fs : List Frame} {c hs used}, SegRep up b fs c hs used →
    (∀ x ∈ used, up'[x]? = up[x]?) → (∀ u, up[b]? = some u → ∃ u', up'[b]? = some u' ∧ u'.child = u.child) →
    SegRep up' b fs c hs used
  | [], _, _, _, ⟨rfl, rfl, u, hu, hc⟩, _, hb => by
    obtain ⟨u', h1, h2⟩ := hb u hu
    exact ⟨rfl, rfl, u', h1, h2.trans hc⟩
  | _ :: _, _, _, _, ⟨h, hs', j, us, used', h0, rfl, rfl, hu, hcl, hr⟩, ha, hb =>
    ⟨h, hs', j, us, used', h0, rfl, rfl, by rw [ha _ (by simp), hu], hcl.congr (fun x hx => ha x (by simp [hx])),
      hr.congr' (fun x hx => ha x (by simp [hx])) hb⟩

theorem descend_spec {key : List UInt8} {length : Nat} (hl : length ≤ key.length) {labels : List UInt8}
    (hlab : labels = key.take length ++ [0]) (db : Builder) (c : Core) (v : Nat) (hs used : List Nat)
    (hcore : CoreRel db c) (hinv : UnitInv db used) (hstack : db.unfixedUnits = hs ++ [0]) :
    ∀ (ks : List UInt8) (down fs : List Frame) (pos : Nat),
    labels.drop pos = ks → SegRep db.unitPool 0 (down.reverse ++ fs) v hs used →
    (∀ f ∈ down, Desc f.label f.closed) → poolLen c.groups + edges (down.reverse ++ fs) ≤ 1073741824 →
    ((ks = [] ∧ down = []) ∨ (Term ks ∧ (Term (down.map Frame.label) ∨ (down = [] ∧ fs = [] ∧ v = 0)))) →
    (walk c v ks down fs = none ∧
      Builder.descend key length ks.length db ((hs.drop down.length).headD 0) pos = .ok (db, none)) ∨
    (walk c v ks down fs = some (c, down.reverse ++ fs) ∧
      Builder.descend key length ks.length db ((hs.drop down.length).headD 0) pos = .ok (db, some (hs.headD 0, pos + ks.length))) ∨
    (∃ c' db' fs' child closed hs' used' us' pos' rest,
      Builder.descend key length ks.length db ((hs.drop down.length).headD 0) pos = .ok (db', some (hs'.headD 0, pos')) ∧
      walk c v ks down fs = some (c', pushFrom closed fs' rest) ∧
      rest ≠ [] ∧ labels.drop pos' = rest ∧ pos' + rest.length = pos + ks.length ∧ Ready db' c' fs' child closed hs' used' us' ∧
      db'.unitPool.length = db.unitPool.length ∧ db'.initialHashTableSize = db.initialHashTableSize) := by
  intro ks
  induction ks with
  | nil =>
    intro down fs pos hdrop hseg hdesc hsz hcond
    have hd : down = [] := by
      rcases hcond with h | h
      · exact h.2
      · exact absurd rfl h.1.ne
    subst hd
    right; left
    simp [walk, Builder.descend]
  | cons k ks ih =>
    intro down fs pos hdrop hseg hdesc hsz hcond
    rcases hcond with h | ⟨hterm, hpath⟩
    · simp at h
    cases down with
    | nil =>
      rcases hpath with h | ⟨_, rfl, rfl⟩
      · exact absurd rfl h.ne
      · right; right
        obtain ⟨rfl, rfl, u, hu, hc⟩ := hseg
        refine ⟨c, db, [], 0, [], [], [], [], pos, k :: ks, ?_, rfl, by simp, hdrop, rfl, ?_, rfl, rfl⟩
        · simp [Builder.descend, rd_some hu, hc]
        · exact ⟨hcore, ⟨rfl, rfl, u, hu, hc⟩, ⟨rfl, rfl⟩, hinv, hstack⟩
    | cons f down =>
      have hpath' : Term (f.label :: down.map Frame.label) := by
        rcases hpath with h | h
        · exact h
        · simp at h
      simp only [List.reverse_cons, List.append_assoc, List.singleton_append] at hseg hsz
      have hsegAll := hseg
      obtain ⟨hds, h, hs', u1, u2, c0, rfl, rfl, hd1, hd2⟩ := hseg.split
      have hlen : hds.length = down.length := by rw [hd1.heads_length]; simp
      have hidx : (hds ++ h :: hs').drop (f :: down).length = hs' := by
        rw [List.length_cons, ← hlen, show hds.length + 1 = (hds ++ [h]).length by simp]
        rw [show hds ++ h :: hs' = (hds ++ [h]) ++ hs' by simp]
        exact List.drop_left
      rw [hidx]
      have hd2' := hd2
      obtain ⟨_, _, j, us, used', h0, he, rfl, hu, hcl, hrest⟩ := hd2'
      simp only [List.cons.injEq] at he
      obtain ⟨rfl, rfl⟩ := he
      obtain ⟨tu, htu, htc⟩ := hrest.top
      have hkl := keyLabel_spec hl hlab hdrop
      have hhlt := (List.getElem?_eq_some_iff.1 hu).1
      simp only [List.length_cons, Builder.descend, rd_some htu, ok_bind, htc, if_neg h0, hkl, rd_some hu]
      simp only [walk]
      by_cases hlt : k < f.label
      · left
        simp [hlt]
      · simp only [if_neg hlt, gt_iff_lt]
        by_cases hgt : f.label < k
        · right; right
          simp only [if_pos hgt, wr_lt hhlt, ok_bind]
          have hnd := hinv.nodup
          -- disjointness facts
          have hndu : ((u1 ++ ((h :: us) ++ used')) ++ db.unusedUnits).Nodup := (List.nodup_cons.1 hnd).2
          have h0nin : ∀ x ∈ u1 ++ ((h :: us) ++ used'), x ≠ 0 := fun x hx e => by
            subst e; exact (List.nodup_cons.1 hnd).1 (List.mem_append_left _ hx)
          have hndu' : (u1 ++ ((h :: us) ++ used')).Nodup := (List.nodup_append.1 hndu).1
          have hu1h : ∀ x ∈ u1, ∀ y ∈ (h :: us) ++ used', x ≠ y := (List.nodup_append.1 hndu').2.2
          have hnd2 : ((h :: us) ++ used').Nodup := (List.nodup_append.1 hndu').2.1
          have hhus : h ∉ us := by
            have := (List.nodup_append.1 hnd2).1; exact (List.nodup_cons.1 this).1
          have husd : ∀ x ∈ h :: us, ∀ y ∈ used', x ≠ y := (List.nodup_append.1 hnd2).2.2
          have hd1' : SegRep (db.unitPool.set h ⟨c0, j, f.label, f.closed == [], true⟩) h down.reverse v hds u1 := by
            refine hd1.congr' ?_ ?_
            · intro x hx; rw [List.getElem?_set_ne (hu1h x hx h (by simp)).symm]
            · intro u hu'
              rw [hu] at hu'; simp only [Option.some.injEq] at hu'; subst hu'
              exact ⟨⟨c0, j, f.label, f.closed == [], true⟩, by simp [hhlt], rfl⟩
          obtain ⟨db2, hfix, hcl2⟩ := fixLoop_spec down.reverse
            { db with unitPool := db.unitPool.set h ⟨c0, j, f.label, f.closed == [], true⟩ } c h v hds u1 (hs' ++ [0])
            (db.unfixedUnits.length + 1)
            (hcore.congr rfl rfl rfl rfl rfl rfl rfl) hd1'
            (List.nodup_cons.2 ⟨fun hm => (hu1h h hm h (by simp)) rfl, (List.nodup_append.1 hndu').1⟩)
            (fun g hg => hdesc g (by simp at hg; simp [hg]))
            (by simp [hstack])
            (by rw [edges_append] at hsz; omega)
            (by rw [hstack]; simp; omega)
          refine ⟨(closeFrames down.reverse v c).1, db2, fs, h, ⟨f.label, (closeFrames down.reverse v c).2⟩ :: f.closed, hs', used', h :: us, pos, k :: ks,
            ?_, rfl, by simp, hdrop, rfl, ?_, ?_, ?_⟩
          · unfold Builder.fixUnits
            rw [hfix]; rfl
          · have hpool : ∀ x, x ≠ h → x ∉ u1 → db2.unitPool[x]? = db.unitPool[x]? := by
              intro x hx hx1
              rw [hcl2.other x hx hx1]; simp only; rw [List.getElem?_set_ne (Ne.symm hx)]
            have hl2 : db2.unitPool.length = db.unitPool.length := by rw [hcl2.len]; simp
            refine ⟨hcl2.core, hrest.congr ?_ ?_, ?_, ?_, hcl2.stack⟩
            · intro x hx
              refine hpool x (fun e => husd h (by simp) x hx e.symm) (fun hm => hu1h x hm x (by simp [hx]) rfl)
            · exact hpool 0 (Ne.symm h0) (fun hm => h0nin 0 (by simp [hm]) rfl)
            · refine ⟨j, us, h0, rfl, ?_, hcl.congr ?_⟩
              · obtain ⟨u, hu1', hu2'⟩ := hcl2.base
                simp only at hu1'
                rw [List.getElem?_set_self hhlt] at hu1'
                simp only [Option.some.injEq] at hu1'
                rw [hu2', ← hu1']
              · intro x hx
                exact hpool x (fun e => hhus (e ▸ hx)) (fun hm => hu1h x hm x (by simp [hx]) rfl)
            · refine ⟨?_, ?_, ?_, ?_, by have := hinv.count; rw [hl2, hcl2.unused.length_eq]; simp at this ⊢; omega⟩
              · refine (List.Perm.nodup_iff ?_).1 hnd
                refine List.Perm.cons _ ?_
                have p1 : (used' ++ h :: us ++ db2.unusedUnits).Perm (used' ++ h :: us ++ (u1 ++ db.unusedUnits)) :=
                  List.Perm.append_left _ hcl2.unused
                refine List.Perm.trans ?_ p1.symm
                rw [← List.append_assoc (used' ++ h :: us) u1]
                refine List.Perm.append_right _ ?_
                refine List.perm_append_comm.trans ?_
                exact List.Perm.append_right _ List.perm_append_comm
              · intro i hi
                rw [hl2]
                have := hcl2.unused.mem_iff.1 hi
                rcases List.mem_append.1 this with h1 | h1
                · exact (hd1.nz i h1).2
                · exact hinv.lt i h1
              · intro i hi; rw [hl2]
                refine hinv.usedLt i ?_
                simp only [List.mem_append, List.mem_cons, List.cons_append] at hi ⊢
                rcases hi with h | h | h <;> simp [h]
              · obtain ⟨rc, hrc⟩ := hinv.root
                refine ⟨rc, ?_⟩
                rw [hpool 0 (Ne.symm h0) (fun hm => h0nin 0 (by simp [hm]) rfl)]; exact hrc
          · rw [hcl2.len]; simp
          · rw [hcl2.init]
        · simp only [if_neg hgt]
          have hk : k = f.label := by
            have h1 := UInt8.not_lt.1 hlt
            have h2 := UInt8.not_lt.1 hgt
            exact UInt8.le_antisymm h2 h1
          have hdrop' : labels.drop (pos + 1) = ks := by
            have := congrArg List.tail hdrop
            simpa using this
          have hcond' : (ks = [] ∧ down = []) ∨ (Term ks ∧ (Term (down.map Frame.label) ∨ (down = [] ∧ f :: fs = [] ∧ v = 0))) := by
            rcases hterm.cases with ⟨h1, h2⟩ | ⟨h1, h2⟩
            · rcases hpath'.cases with ⟨h3, h4⟩ | ⟨h3, h4⟩
              · exact .inl ⟨h2, by simpa using h4⟩
              · exact absurd (hk ▸ h1) h3
            · rcases hpath'.cases with ⟨h3, h4⟩ | ⟨h3, h4⟩
              · exact absurd (hk ▸ h3) h1
              · exact .inr ⟨h2, .inl h4⟩
          have := ih down (f :: fs) (pos + 1) hdrop' hsegAll (fun g hg => hdesc g (by simp [hg])) hsz hcond'
          have hidx' : ((hds ++ h :: hs').drop down.length).headD 0 = h := by
            rw [← hlen]; simp
          rw [hidx'] at this
          simp only [List.reverse_cons, List.append_assoc, List.singleton_append]
          have e1 : pos + 1 + ks.length = pos + (ks.length + 1) := by omega
          rw [e1] at this
          exact this

theorem pushAll_labels : ∀ (ks : List UInt8) (fs : List Frame),
    (pushAll ks fs).reverse.map Frame.label = fs.reverse.map Frame.label ++ ks
  | [], fs => by simp [pushAll]
  | k :: ks, fs => by rw [pushAll, pushAll_labels ks]; simp

theorem pushAll_desc : ∀ (ks : List UInt8) (fs : List Frame), (∀ f ∈ fs, Desc f.label f.closed) →
    ∀ f ∈ pushAll ks fs, Desc f.label f.closed
  | [], _, h => h
  | k :: ks, fs, h => by
    refine pushAll_desc ks _ ?_
    intro f hf
    rcases List.mem_cons.1 hf with rfl | hf
    · simp [Desc]
    · exact h f hf

theorem desc_cons {f : Frame} {k : UInt8} {c : Nat} (h : Desc f.label f.closed) (hk : f.label < k) :
    Desc k (⟨f.label, c⟩ :: f.closed) := by
  unfold Desc at h ⊢
  simp only [List.map_cons]
  refine List.pairwise_cons.2 ⟨?_, h⟩
  intro a ha
  rcases List.mem_cons.1 ha with rfl | ha
  · exact hk
  · exact UInt8.lt_trans ((List.pairwise_cons.1 h).1 a ha) hk

/-- The path after an accepted insertion spells the inserted key, and labels stay ordered. -/
theorem walk_path (c : Core) (v : Nat) : ∀ (ks : List UInt8) (down fs : List Frame) (c' : Core) (fr : List Frame),
    walk c v ks down fs = some (c', fr) → (∀ f ∈ down, Desc f.label f.closed) → (∀ f ∈ fs, Desc f.label f.closed) →
    fr.reverse.map Frame.label = fs.reverse.map Frame.label ++ ks ∧ ∀ f ∈ fr, Desc f.label f.closed := by
  intro ks
  induction ks with
  | nil =>
    intro down fs c' fr h _ hf
    simp only [walk, Option.some.injEq, Prod.mk.injEq] at h
    obtain ⟨rfl, rfl⟩ := h
    exact ⟨by simp, hf⟩
  | cons k ks ih =>
    intro down fs c' fr h hd hf
    cases down with
    | nil =>
      simp only [walk, Option.some.injEq, Prod.mk.injEq] at h
      obtain ⟨rfl, rfl⟩ := h
      exact ⟨pushAll_labels _ _, pushAll_desc _ _ hf⟩
    | cons f down =>
      simp only [walk] at h
      split at h
      · simp at h
      · rename_i hlt
        split at h
        · rename_i hgt
          simp only [Option.some.injEq, Prod.mk.injEq] at h
          obtain ⟨rfl, rfl⟩ := h
          refine ⟨by rw [pushAll_labels]; simp, pushAll_desc _ _ ?_⟩
          intro g hg
          rcases List.mem_cons.1 hg with rfl | hg
          · exact desc_cons (hd f (by simp)) hgt
          · exact hf g hg
        · rename_i hgt
          have hk : k = f.label := UInt8.le_antisymm (UInt8.not_lt.1 hgt) (UInt8.not_lt.1 hlt)
          have := ih down (f :: fs) c' fr h (fun g hg => hd g (by simp [hg])) (by
            intro g hg
            rcases List.mem_cons.1 hg with rfl | hg
            · exact hd g (by simp)
            · exact hf g hg)
          refine ⟨?_, this.2⟩
          rw [this.1, hk]; simp

theorem insert_spec {db : Builder} {s : St} (h : Rel db s) (key : List UInt8) (length : Nat) (hl : length ≤ key.length)
    (hnul : (0 : UInt8) ∉ key.take length) (value : Int) (hht : db.hashTable.length ≠ 0)
    (hsz : poolLen s.core.groups + edges s.frames ≤ 1073741824) (hup : db.unitPool.length + (length + 1) < 4294967296) :
    ∃ db', db.insertKeyValue key length value = .ok (db', (s.insert (key.take length ++ [0]) (baseOfValue value)).2) ∧
      Rel db' (s.insert (key.take length ++ [0]) (baseOfValue value)).1 ∧
      db'.unitPool.length ≤ db.unitPool.length + (length + 1) ∧
      db'.initialHashTableSize = db.initialHashTableSize ∧
      ((s.insert (key.take length ++ [0]) (baseOfValue value)).2 = false → db' = db) := by
  obtain ⟨hs, used, hseg, hinv, hstack⟩ := h.units
  have hlen : (key.take length ++ [0]).length = length + 1 := by simp; omega
  have hterm : Term (key.take length ++ [0]) := ⟨_, rfl, hnul⟩
  have hcond : (key.take length ++ [0] = [] ∧ s.frames.reverse = []) ∨ (Term (key.take length ++ [0]) ∧
      (Term (s.frames.reverse.map Frame.label) ∨ (s.frames.reverse = [] ∧ ([] : List Frame) = [] ∧ s.val = 0))) := by
    refine .inr ⟨hterm, ?_⟩
    rcases h.path with h1 | ⟨h1, h2⟩
    · exact .inl h1
    · exact .inr ⟨by simp [h1], rfl, h2⟩
  have hdesc := descend_spec (length := length) (key := key) hl (labels := key.take length ++ [0]) rfl db s.core s.val hs used h.core hinv hstack
    (key.take length ++ [0]) s.frames.reverse [] 0 (by simp) (by simpa using hseg)
    (fun f hf => h.desc f (by simpa using hf)) (by simpa using hsz) hcond
  have hhead : ((hs.drop s.frames.reverse.length).headD 0) = 0 := by
    rw [List.length_reverse, ← hseg.heads_length]; simp
  rw [hhead] at hdesc
  unfold Builder.insertKeyValue
  simp only [if_neg hht, ok_bind]
  rw [show ((length : Int) + 1).toNat = length + 1 by omega, ← hlen]
  unfold St.insert
  rcases hdesc with ⟨hw, hd⟩ | ⟨hw, hd⟩ | ⟨c', db', fs', child, closed, hs', used', us', pos', rest, hd, hw, hrest, hdrop, hpos, hready, hlen', hinit⟩
  · rw [hd, hw]
    simp only [ok_bind, pure_eq_ok]
    exact ⟨db, rfl, h, by omega, rfl, fun _ => rfl⟩
  · rw [hd, hw]
    simp only [ok_bind, hlen, Nat.zero_add]
    rw [show ((length : Int) + 1 - ((length + 1 : Nat) : Int)).toNat = 0 by omega]
    simp only [Builder.addUnits, ok_bind]
    obtain ⟨tu, htu, htc⟩ := hseg.top
    simp only [rd_some htu, ok_bind, wr_lt (List.getElem?_eq_some_iff.1 htu).1, pure_eq_ok]
    have hnd : (0 :: used).Nodup := by
      have := hinv.nodup
      simp only [List.nodup_cons, List.mem_append, not_or, List.nodup_append] at this ⊢
      exact ⟨this.1.1, this.2.1⟩
    refine ⟨_, rfl, ?_, by simp, rfl, by simp⟩
    have hfr : s.frames ≠ [] := by
      intro he
      rw [he] at hw
      obtain ⟨a, ha, _⟩ := hterm
      rw [ha] at hw
      have : ∀ a : List UInt8, ∃ x xs, a ++ [0] = x :: xs := by
        intro a; cases a <;> simp
      obtain ⟨x, xs, hx⟩ := this a
      rw [hx] at hw
      simp only [List.reverse_nil, walk, List.append_nil, Option.some.injEq, Prod.mk.injEq, true_and, pushAll] at hw
      have hpl : ∀ (ks : List UInt8) (fs : List Frame), fs ≠ [] → pushAll ks fs ≠ [] := by
        intro ks; induction ks with
        | nil => intro fs h; exact h
        | cons k ks ih => intro fs _; exact ih _ (by simp)
      exact hpl xs _ (by simp) hw
    refine ⟨h.core.congr rfl rfl rfl rfl rfl rfl rfl, ⟨hs, used, ?_, ?_, hstack⟩, by simpa using h.desc, ?_⟩
    · have := hseg.setChild hnd htu (baseOfValue value)
      simpa using this
    · refine ⟨hinv.nodup, by simpa using hinv.lt, by simpa using hinv.usedLt, ?_, by simpa using hinv.count⟩
      obtain ⟨rc, hrc⟩ := hinv.root
      have hne : hs.headD 0 ≠ 0 := by
        cases hs with
        | nil => have := hseg.heads_length; simp at this; exact absurd (List.eq_nil_of_length_eq_zero this.symm) hfr
        | cons x xs => simp; exact (hseg.nz x (hseg.heads_sub (by simp))).1
      refine ⟨rc, ?_⟩
      simp only; rw [List.getElem?_set_ne hne]; exact hrc
    · left
      rcases h.path with h1 | ⟨h1, _⟩
      · simpa using h1
      · exact absurd h1 hfr
  · rw [hd, hw]
    simp only [ok_bind]
    have e1 : ((length : Int) + 1 - (pos' : Int)).toNat = rest.length := by
      rw [hlen] at hpos; omega
    rw [e1]
    obtain ⟨db2, hs2, used2, us2, child2, closed2, ha, hready2, hch, _, hlen2, hinit2⟩ :=
      addUnits_spec hl rfl rest db' c' fs' child closed hs' used' us' pos' hready hdrop
        (by rw [hlen] at hpos; omega)
    obtain ⟨rfl, rfl⟩ := hch hrest
    rw [ha]
    simp only [ok_bind]
    obtain ⟨tu, htu, htc⟩ := hready2.seg.top
    simp only [rd_some htu, ok_bind, wr_lt (List.getElem?_eq_some_iff.1 htu).1, pure_eq_ok]
    have hus : us2 = [] := hready2.chain.2
    subst hus
    have hinv2 := hready2.inv
    simp only [List.append_nil] at hinv2
    have hnd : (0 :: used2).Nodup := by
      have := hinv2.nodup
      simp only [List.nodup_cons, List.mem_append, not_or, List.nodup_append] at this ⊢
      exact ⟨this.1.1, this.2.1⟩
    have hpush : ∀ (ks : List UInt8) (fs : List Frame), fs ≠ [] → pushAll ks fs ≠ [] := by
      intro ks; induction ks with
      | nil => intro fs h; exact h
      | cons k ks ih => intro fs _; exact ih _ (by simp)
    have hfr : pushFrom closed fs' rest ≠ [] := by
      obtain ⟨k, ks, rfl⟩ := List.exists_cons_of_ne_nil hrest
      exact hpush ks _ (by simp)
    refine ⟨_, rfl, ?_, by simp; rw [hlen] at hpos; omega, by simp [hinit2, hinit], by simp⟩
    refine ⟨hready2.core.congr rfl rfl rfl rfl rfl rfl rfl, ⟨hs2, used2, ?_, ?_, hready2.stack⟩, ?_, ?_⟩
    · exact hready2.seg.setChild hnd htu (baseOfValue value)
    · refine ⟨hinv2.nodup, by simpa using hinv2.lt, by simpa using hinv2.usedLt, ?_, by simpa using hinv2.count⟩
      obtain ⟨rc, hrc⟩ := hinv2.root
      have hne : hs2.headD 0 ≠ 0 := by
        cases hs2 with
        | nil => have := hready2.seg.heads_length; simp at this; exact absurd (List.eq_nil_of_length_eq_zero this.symm) hfr
        | cons x xs => simp; exact (hready2.seg.nz x (hready2.seg.heads_sub (by simp))).1
      refine ⟨rc, ?_⟩
      simp only; rw [List.getElem?_set_ne hne]; exact hrc
    · exact (walk_path _ _ _ _ _ _ _ hw (fun f hf => h.desc f (by simpa using hf)) (by simp)).2
    · left
      have := (walk_path _ _ _ _ _ _ _ hw (fun f hf => h.desc f (by simpa using hf)) (by simp)).1
      simp only [List.reverse_nil, List.map_nil, List.nil_append] at this
      rw [this]; exact hterm

end Dawg.Abs
