import Verif.Proof.Builder.Refine
/-! # Whole histories -/
namespace Dawg.Abs
attribute [-simp] List.length_flatten

theorem edges_reverse (fs : List Frame) : edges fs.reverse = edges fs := by
  induction fs with
  | nil => rfl
  | cons f fs ih => rw [List.reverse_cons, edges_append, ih]; simp [edges]; omega

theorem pushAll_edges : ∀ (ks : List UInt8) (fs : List Frame), edges (pushAll ks fs) = edges fs + ks.length
  | [], fs => by simp [pushAll]
  | k :: ks, fs => by rw [pushAll, pushAll_edges ks]; simp [edges]; omega

theorem walk_size (c : Core) (v : Nat) : ∀ (ks : List UInt8) (down fs : List Frame) (c' : Core) (fr : List Frame),
    walk c v ks down fs = some (c', fr) → ks.length = 0 ∧ down ≠ [] ∨
    poolLen c'.groups + edges fr ≤ poolLen c.groups + edges down + edges fs + ks.length := by
  intro ks
  induction ks with
  | nil =>
    intro down fs c' fr h
    simp only [walk, Option.some.injEq, Prod.mk.injEq] at h
    obtain ⟨rfl, rfl⟩ := h
    cases down <;> simp [edges]
  | cons k ks ih =>
    intro down fs c' fr h
    right
    cases down with
    | nil =>
      simp only [walk, Option.some.injEq, Prod.mk.injEq] at h
      obtain ⟨rfl, rfl⟩ := h
      rw [pushAll_edges]; simp [edges]; omega
    | cons f down =>
      simp only [walk] at h
      split at h
      · simp at h
      · split at h
        · simp only [Option.some.injEq, Prod.mk.injEq] at h
          obtain ⟨rfl, rfl⟩ := h
          rw [pushAll_edges]
          have := closeFrames_poolLen down.reverse v c
          rw [edges_reverse] at this
          simp only [edges, List.length_cons]
          omega
        · rcases ih down (f :: fs) c' fr h with ⟨h1, h2⟩ | h1
          · have h1' : ks = [] := List.eq_nil_of_length_eq_zero h1
            subst h1'
            simp only [walk, Option.some.injEq, Prod.mk.injEq] at h
            obtain ⟨rfl, rfl⟩ := h
            simp [edges]; omega
          · simp only [edges, List.length_cons] at h1 ⊢; omega

/-- Size of an abstract state. -/
def St.size (s : St) : Nat := poolLen s.core.groups + edges s.frames

theorem St.insert_size (s : St) (labels : List UInt8) (v : Nat) (hne : labels ≠ []) :
    (s.insert labels v).1.size ≤ s.size + labels.length := by
  unfold St.insert
  split
  · simp
  · rename_i c fs hw
    rcases walk_size _ _ _ _ _ _ _ hw with ⟨h1, _⟩ | h1
    · exact absurd (List.eq_nil_of_length_eq_zero h1) hne
    · rw [edges_reverse] at h1
      simp only [St.size, edges] at h1 ⊢; omega

theorem init_spec (n : Nat) (h1 : 1 ≤ n) (h2 : n < 4294967296) :
    ∃ db, (Builder.newWithSize n).init = .ok db ∧ Rel db St.init ∧ db.unitPool.length = 1 ∧ db.hashTable.length ≠ 0 ∧
      db.initialHashTableSize = n := by
  refine ⟨_, rfl, ?_, rfl, by simp [Builder.newWithSize]; omega, rfl⟩
  refine ⟨?_, ⟨[], [], ⟨rfl, rfl, _, rfl, rfl⟩, ⟨by simp [Builder.newWithSize], by simp [Builder.newWithSize], by simp, ⟨0, rfl⟩, rfl⟩, rfl⟩, by simp [St.init], .inr ⟨rfl, rfl⟩⟩
  refine ⟨rfl, rfl, rfl, ?_, rfl, rfl, rfl, by simp [St.init], by simp [St.init], ?_, ?_, ?_, by simp [St.init], by simp [St.init]⟩
  · have := BitInv.new.allocate
    simpa [St.init, Builder.newWithSize] using this
  · have := TableInv.empty n (fun s => hashG (groupAt 1 [] s))
    simpa [St.init, starts, Builder.newWithSize] using this
  · simp [St.init, Builder.newWithSize]; omega
  · simpa [Builder.newWithSize] using h2

/-- The finished Dawg of an abstract core with root child `r`. -/
structure DawgIs (d : Dawg) (c : Core) (r : Nat) : Prop where
  base : d.basePool = u32 (r <<< 2) :: c.groups.flatten.map Prod.snd
  label : d.labelPool = 0xff :: c.groups.flatten.map Prod.fst
  flagSize : d.flagPool.size = poolLen c.groups
  flags : BitInv d.flagPool (fun i => decide (i ∈ c.marked))
  states : d.numOfStates = c.groups.length + 1
  merged : d.numOfMergedTransitions = c.merged
  mergedStates : d.numOfMergedStates = (c.groups.flatten.length : Int) + c.merged - c.groups.length
  merging : d.numOfMergingStates = c.marked.length

theorem DawgIs.unique {d d' c r} (h : DawgIs d c r) (h' : DawgIs d' c r) : d = d' := by
  have hf : d.flagPool = d'.flagPool := h.flags.ext h'.flags (h.flagSize.trans h'.flagSize.symm)
  have a1 := h.base.trans h'.base.symm
  have a2 := h.label.trans h'.label.symm
  have a3 := h.states.trans h'.states.symm
  have a4 := h.merged.trans h'.merged.symm
  have a5 := h.mergedStates.trans h'.mergedStates.symm
  have a6 := h.merging.trans h'.merging.symm
  cases d; cases d'
  simp only at hf a1 a2 a3 a4 a5 a6
  subst hf a1 a2 a3 a4 a5 a6
  rfl

/-- Static facts about a finished core: what the concrete builder guarantees. -/
structure CoreOK (c : Core) : Prop where
  wf : ∀ g ∈ c.groups, GroupWf g
  nodup : c.groups.Nodup
  markedNodup : c.marked.Nodup
  markedSub : ∀ s ∈ c.marked, s ∈ starts 1 c.groups

theorem CoreRel.ok {db c} (h : CoreRel db c) : CoreOK c := ⟨h.wf, h.nodup, h.markedNodup, h.markedSub⟩

theorem finish_spec {db : Builder} {s : St} (h : Rel db s) (hht : db.hashTable.length ≠ 0) (hsz : s.size ≤ 1073741824) :
    ∃ db' d, db.finish = .ok (db', d) ∧ DawgIs d s.finish.1 s.finish.2 ∧ CoreOK s.finish.1 ∧
      db' = { Builder.newWithSize db.initialHashTableSize with hashTable := [0] } := by
  obtain ⟨hs, used, hseg, hinv, hstack⟩ := h.units
  have hnd : (0 :: used).Nodup := by
    have := hinv.nodup
    simp only [List.nodup_cons, List.mem_append, not_or, List.nodup_append] at this ⊢
    exact ⟨this.1.1, this.2.1⟩
  obtain ⟨db1, hfix, hcl⟩ := fixLoop_spec s.frames db s.core 0 s.val hs used [] (db.unfixedUnits.length + 1) h.core hseg hnd h.desc
    hstack hsz (by rw [hstack]; simp [hseg.heads_length]; omega)
  obtain ⟨u, hu, hu'⟩ := hcl.base
  obtain ⟨rc, hrc⟩ := hinv.root
  rw [hrc] at hu
  simp only [Option.some.injEq] at hu
  subst hu
  have hb := hcl.core.base
  have hl := hcl.core.label
  have hb0 : 0 < db1.basePool.length := by rw [hb]; simp
  have hl0 : 0 < db1.labelPool.length := by rw [hl]; simp
  unfold Builder.finish Builder.fixUnits
  simp only [if_neg hht, ok_bind]
  rw [hfix]
  simp only [ok_bind, rd_some hu', wr_lt hb0, wr_lt hl0, pure_eq_ok]
  have hbl := hcl.core.base_length
  refine ⟨_, _, rfl, ?_, hcl.core.ok, ?_⟩
  · refine ⟨?_, ?_, hcl.core.flagSize, hcl.core.flags, hcl.core.states, hcl.core.merged, ?_, hcl.core.merging⟩
    · simp only [hb, List.set_cons_zero]; rfl
    · simp only [hl, List.set_cons_zero]; rfl
    · simp only [Builder.numOfMergedStates, Builder.numOfTransitions, List.length_set, hcl.core.states, hcl.core.merged, hbl, poolLen,
        St.finish]
      omega
  · simp only [Builder.clear, Builder.newWithSize, BitPool.clear, BitPool.new, hcl.init]

end Dawg.Abs
