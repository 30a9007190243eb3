import Verif.Props.Empty
/-! # C95: objects that have been cleared -/
namespace Dawg.Props
open Dawg Dawg.Spec Dawg.Client Dawg.Abs Dawg.Dict Dawg.Guided
attribute [-simp] List.length_flatten

/-! ## The first steps of `BuildDictionary` do not look at the link table -/

/-- The same builder with another link table. -/
def swap (t : LinkTable) (db : DictBuilder) : DictBuilder := { db with linkTable := t }

/-- A step that neither reads nor changes the link table. -/
def Blind (f : DictBuilder → Go DictBuilder) : Prop := ∀ t db, f (swap t db) = (f db >>= fun db => .ok (swap t db))

theorem Blind.bind {f g : DictBuilder → Go DictBuilder} (hf : Blind f) (hg : Blind g) : Blind (fun db => f db >>= g) := by
  intro t db
  show f (swap t db) >>= g = (f db >>= g) >>= fun db => .ok (swap t db)
  rw [hf t db]
  cases f db with
  | error e => rfl
  | ok x => exact hg t x

/-- A step that continues according to something that does not depend on the link table. -/
theorem Blind.read {α : Type} {r : DictBuilder → Go α} {f : α → DictBuilder → Go DictBuilder} (hr : ∀ t db, r (swap t db) = r db) (hf : ∀ a, Blind (f a)) :
    Blind (fun db => r db >>= fun a => f a db) := by
  intro t db
  show (r (swap t db) >>= fun a => f a (swap t db)) = (r db >>= fun a => f a db) >>= fun db => .ok (swap t db)
  rw [hr t db]
  cases r db with
  | error e => rfl
  | ok a => exact hf a t db

theorem Blind.ok : Blind (fun db => .ok db) := fun _ _ => rfl

theorem blind_modExtra (i : Nat) (f : ExtraUnit → ExtraUnit) : Blind (fun db => db.modExtra i f) := by
  intro t db
  dsimp only [DictBuilder.modExtra, swap]
  cases rd db.extras (i / blockSize) with
  | error e => rfl
  | ok blk =>
    simp only [ok_bind]
    cases rd blk (i % blockSize) with
    | error e => rfl
    | ok e =>
      simp only [ok_bind]
      cases wr blk (i % blockSize) (f e) with
      | error e => rfl
      | ok blk' =>
        simp only [ok_bind]
        cases wr db.extras (i / blockSize) blk' with
        | error e => rfl
        | ok ex => rfl

theorem blind_modUnit (i : Nat) (f : Nat → Nat) : Blind (fun db => db.modUnit i f) := by
  intro t db
  dsimp only [DictBuilder.modUnit, swap]
  cases rd db.units i with
  | error e => rfl
  | ok u =>
    simp only [ok_bind]
    cases wr db.units i (f u) with
    | error e => rfl
    | ok ex => rfl

theorem blind_linkLoop : ∀ n i, Blind (DictBuilder.linkLoop n i)
  | 0, _ => .ok
  | n + 1, i => ((blind_modExtra _ _).bind ((blind_modExtra _ _).bind (blind_linkLoop n (i + 1))))

theorem blind_linkBlock (src dest : Nat) : Blind (fun db => db.linkBlock src dest) :=
  (blind_linkLoop _ _).bind ((blind_modExtra _ _).bind (blind_modExtra _ _))

theorem blind_unlinkUnit (i : Nat) : Blind (fun db => db.unlinkUnit i) := by
  refine Blind.bind (f := fun db => db.moveHead i) ?_ ?_
  · intro t db
    dsimp only [DictBuilder.moveHead]
    by_cases h : i = db.unfixedIndex
    · rw [if_pos h, if_pos (show i = (swap t db).unfixedIndex from h), show (swap t db).extra i = db.extra i from rfl]
      cases db.extra i with
      | error e => rfl
      | ok e => rfl
    · rw [if_neg h, if_neg (show ¬ i = (swap t db).unfixedIndex from h)]
      rfl
  · refine Blind.read (r := fun db => db.extra i) (f := fun e db => db.modExtra e.prev (fun x => x.setNext e.next) >>= fun db => db.extra i >>= fun e =>
      db.modExtra e.next (fun x => x.setPrev e.prev) >>= fun db => db.modExtra i ExtraUnit.setIsFixed) (fun _ _ => rfl) fun e => ?_
    refine (blind_modExtra _ _).bind ?_
    exact Blind.read (r := fun db => db.extra i) (f := fun e db => db.modExtra e.next (fun x => x.setPrev e.prev) >>= fun db => db.modExtra i ExtraUnit.setIsFixed) (fun _ _ => rfl)
      fun e => (blind_modExtra _ _).bind (blind_modExtra _ _)

theorem blind_mergeBlock (src dest : Nat) : Blind (fun db => db.mergeBlock src dest) := by
  intro t db
  dsimp only [DictBuilder.mergeBlock]
  rw [show (swap t db).extra (swap t db).unfixedIndex = db.extra db.unfixedIndex from rfl]
  cases db.extra db.unfixedIndex with
  | error e => rfl
  | ok e =>
    simp only [ok_bind]
    have h1 := blind_modExtra src (fun x => x.setPrev e.prev) t db
    simp only at h1
    rw [h1]
    cases h2 : db.modExtra src (fun x => x.setPrev e.prev) with
    | error e => rfl
    | ok db1 =>
      simp only [ok_bind]
      have h3 := blind_modExtra (dest - 1) (fun x => x.setNext db1.unfixedIndex) t db1
      simp only at h3
      rw [show (swap t db1).unfixedIndex = db1.unfixedIndex from rfl, h3]
      cases h4 : db1.modExtra (dest - 1) (fun x => x.setNext db1.unfixedIndex) with
      | error e => rfl
      | ok db2 =>
        simp only [ok_bind]
        rw [show (swap t db2).extra (swap t db2).unfixedIndex = db2.extra db2.unfixedIndex from rfl]
        cases db2.extra db2.unfixedIndex with
        | error e => rfl
        | ok e' =>
          simp only [ok_bind]
          have h5 := blind_modExtra e'.prev (fun x => x.setNext src) t db2
          simp only at h5
          rw [h5]
          cases h6 : db2.modExtra e'.prev (fun x => x.setNext src) with
          | error e => rfl
          | ok db3 => exact blind_modExtra db3.unfixedIndex (fun x => x.setPrev (dest - 1)) t db3

theorem first_any (n : Nat) : Witness.First n := by
  have hgrow : ∀ t, DictBuilder.growFor (swap t DictBuilder.new) 0 = (DictBuilder.newExtras (swap t { DictBuilder.new with units := List.replicate blockSize 0, extras := [[]] }) 0 0 256 1 >>=
      fun db => (db.linkBlock 0 256 >>= fun db => db.mergeBlock 0 256)) := by
    intro t
    have e1 : (swap t DictBuilder.new).numOfUnits = 0 := rfl
    have e2 : (swap t DictBuilder.new).numOfBlocks = 0 := rfl
    unfold DictBuilder.growFor DictBuilder.expandDictionary DictBuilder.fixOldBlock
    rw [e1, e2, if_pos (Nat.le_refl 0)]
    dsimp only
    rw [if_neg (by decide), ok_bind]
    rfl
  have hnew : ∀ db : DictBuilder, DictBuilder.newExtras (swap (LinkTable.new n) db) 0 0 256 1 = (db.newExtras 0 0 256 1 >>= fun db => .ok (swap (LinkTable.new n) db)) := by
    intro db
    unfold DictBuilder.newExtras
    rw [if_neg (by decide), if_neg (by decide)]
    dsimp only [swap]
    cases wr db.extras (db.extras.length - 1) (List.replicate blockSize ExtraUnit.empty) <;> rfl
  have hg : DictBuilder.growFor (swap (LinkTable.new n) DictBuilder.new) 0 = (DictBuilder.growFor DictBuilder.new 0 >>= fun db => .ok (swap (LinkTable.new n) db)) := by
    rw [show DictBuilder.growFor DictBuilder.new 0 = _ from hgrow DictBuilder.new.linkTable, hgrow, hnew]
    rw [show swap DictBuilder.new.linkTable ({ DictBuilder.new with units := List.replicate blockSize 0, extras := [[]] } : DictBuilder) = { DictBuilder.new with units := List.replicate blockSize 0, extras := [[]] } from rfl]
    cases DictBuilder.newExtras { DictBuilder.new with units := List.replicate blockSize 0, extras := [[]] } 0 0 256 1 with
    | error e => rfl
    | ok db => exact (blind_linkBlock 0 256).bind (blind_mergeBlock 0 256) (LinkTable.new n) db
  have h0 := Witness.first_eq
  unfold Witness.First at h0 ⊢
  have e0 : ({ DictBuilder.new with linkTable := LinkTable.new (0 + (0 >>> 1)) } : DictBuilder) = DictBuilder.new := rfl
  have hrest : Blind (fun db => db.unlinkUnit 0 >>= fun db => db.modExtra 0 ExtraUnit.setIsUsed >>= fun db => db.modUnit 0 (fun u => (dictSetOffset u 1).getD u) >>= fun db =>
      db.modUnit 0 (fun u => dictSetLabel u 0)) :=
    (blind_unlinkUnit 0).bind ((blind_modExtra _ _).bind ((blind_modUnit _ _).bind (blind_modUnit _ _)))
  rw [e0] at h0
  show ((do let db ← DictBuilder.growFor (swap (LinkTable.new n) DictBuilder.new) 0; DictBuilder.unlinkUnit db 0) >>= _) = _
  unfold DictBuilder.reserveUnit at h0
  rw [bind_assoc] at h0 ⊢
  rw [hg]
  cases hk : DictBuilder.growFor DictBuilder.new 0 with
  | error e => rw [hk] at h0; cases h0
  | ok db =>
    rw [hk] at h0
    simp only [ok_bind] at h0 ⊢
    have := hrest (LinkTable.new n) db
    simp only at this
    refine this.trans ?_
    have h0' : (db.unlinkUnit 0 >>= fun db => db.modExtra 0 ExtraUnit.setIsUsed >>= fun db => db.modUnit 0 (fun u => (dictSetOffset u 1).getD u) >>= fun db =>
      db.modUnit 0 (fun u => dictSetLabel u 0)) = .ok (Witness.first (0 + (0 >>> 1))) := h0
    rw [h0']
    rfl

theorem buildWithUnused_small {d : Dawg} (h : d.size ≤ 1) : d.buildWithUnused = .ok (some (Witness.dictE, 255)) := by
  obtain ⟨m, hm⟩ : ∃ m, d.numOfMergingStates + (d.numOfMergingStates >>> 1) = m := ⟨_, rfl⟩
  have hf := first_any m
  unfold Witness.First at hf
  have hb : ∀ {α} (k : DictBuilder → Go α), (do
      let db ← ({ DictBuilder.new with linkTable := LinkTable.new m } : DictBuilder).reserveUnit 0
      let db ← db.modExtra 0 ExtraUnit.setIsUsed
      let db ← db.modUnit 0 (fun u => (dictSetOffset u 1).getD u)
      let db ← db.modUnit 0 (fun u => dictSetLabel u 0)
      k db) = k (Witness.first m) := by
    intro α k
    have := congrArg (· >>= k) hf
    simpa only [bind_assoc, ok_bind] using this
  obtain ⟨db0, ex, i1, i2, _⟩ := Dict.init_spec (⟨[], 0, []⟩ : Core) 0 (LinkTable.new m)
  rw [hf] at i1
  cases i1
  have hun : (Witness.first m).findUnusedOffset 256 0 = .ok 1 := rfl
  obtain ⟨db', f1, f2, f3⟩ := Witness.fixAll_eq i2 1 hun ((List.range 256).map Witness.firstExtra) rfl
  have hfull : DictBuilder.buildDictionary d = .ok (db', true) := by
    unfold DictBuilder.buildDictionary
    rw [hm]
    refine (hb _).trans ?_
    unfold DictBuilder.buildRoot
    rw [if_neg (by omega), ok_bind]
    simp only [Bool.not_true, Bool.false_eq_true, if_false, f1, ok_bind, pure_eq_ok]
  unfold Dawg.buildWithUnused
  rw [hfull]
  simp only [ok_bind, pure_eq_ok, if_true, f2, f3]
  have e1 : Witness.fixed 1 ((List.range 256).map Witness.firstExtra) (Witness.first m).units = Witness.dictE.units := by
    show Witness.fixed 1 ((List.range 256).map Witness.firstExtra) (1024 :: List.replicate 255 0) = Witness.dictE.units
    decide +kernel
  have e2 : (Witness.first m).numOfUnusedUnits + List.countP (fun e : ExtraUnit => !e.isFixed) ((List.range 256).map Witness.firstExtra) = 255 := by
    show 0 + List.countP (fun e : ExtraUnit => !e.isFixed) ((List.range 256).map Witness.firstExtra) = 255
    decide +kernel
  rw [e1, e2]

/-! ## C95 -/

/-- The full claim C95 for Dawgs: `Clear` makes a Dawg as `NewDawg` does. -/
def C95_statement : Prop := ∀ hist d D, Made hist d D → d.clear = Dawg.new

/-- **C95 is false** for Dawgs: after "a", "b" and `Clear`, `NumOfMergedTransitions` and `NumOfMergingStates` are 1. -/
theorem C95_dawg_false : ¬ C95_statement ∧ ∃ d D, Made [([97], 0), ([98], 0)] d D ∧ d.clear.numOfMergedTransitions = 1 ∧ d.clear.numOfMergingStates = 1 := by
  obtain ⟨d, D, h1, oks, b, h2⟩ := C14_small_builds 256 (by omega) (by omega) [([97], 0), ([98], 0)] (by decide) (by decide)
  have h3 : (build 256 [([97], 0), ([98], 0)]).toOption.map (fun r => (r.2.2.numOfMergedTransitions, r.2.2.numOfMergingStates)) = some (1, 1) := by decide +kernel
  rw [h2] at h3
  have h4 : d.numOfMergedTransitions = 1 ∧ d.numOfMergingStates = 1 := by simpa [Except.toOption] using h3
  refine ⟨fun h => ?_, d, D, h1, h4⟩
  have := congrArg Dawg.numOfMergedTransitions (h _ _ _ h1)
  rw [show d.clear.numOfMergedTransitions = 1 from h4.1] at this
  cases this

theorem residual_ne {acc : List (Key × Nat)} {p : Key} {l : UInt8} (h : ∃ e ∈ acc, p ++ [l] <+: e.1 ++ [0]) : residual acc p ≠ [] := by
  obtain ⟨e, he, hp⟩ := h
  have h1 : p <+: e.1 := by
    have h2 : p.length ≤ e.1.length := by have := hp.length_le; simp at this; omega
    obtain ⟨t, ht⟩ := hp
    rw [List.append_assoc] at ht
    exact List.prefix_of_prefix_length_le ⟨_, ht⟩ (List.prefix_append _ _) h2
  intro h0
  unfold residual at h0
  rw [List.map_eq_nil_iff, List.filter_eq_nil_iff] at h0
  exact h0 e he (by simpa using h1)

/-- If no two nodes of the trie have the same suffixes, no transition is merged. -/
theorem merged_zero {n : Nat} {hist : List (Key × Int)} {oks b d} (h1 : 1 ≤ n) (h2 : n < 2 ^ 32) (hadm : Admissible hist) (hb : build n hist = .ok (oks, b, d))
    (hinj : ∀ p q, residual (words (accepted hist)) p ≠ [] → residual (words (accepted hist)) p = residual (words (accepted hist)) q → p = q) : d.numOfMergedTransitions = 0 := by
  obtain ⟨edges, nodes, ⟨l, l1, l2, l3⟩, _, c1, _⟩ := C06_trie_counts n h1 h2 hist hadm oks b d hb
  obtain ⟨m, c2, ⟨k, k1, k2, k3⟩⟩ := C06_number_of_transitions n h1 h2 hist hadm oks b d hb
  have hle : l.length ≤ k.length := by
    have hmap : (l.map (fun x => (residual (words (accepted hist)) x.dropLast, x.getLast?.getD 0))).length ≤ k.length := by
      have hedge : ∀ x ∈ l, x = x.dropLast ++ [x.getLast?.getD 0] ∧ residual (words (accepted hist)) x.dropLast ≠ [] ∧
          (x.dropLast ++ [x.getLast?.getD 0] <+: x) ∧ ∃ e ∈ words (accepted hist), x <+: e.1 ++ [0] := by
        intro x hx
        obtain ⟨hne, e, he, hp⟩ := (l2 x).1 hx
        have hx' : x = x.dropLast ++ [x.getLast?.getD 0] := by
          rw [List.getLast?_eq_some_getLast hne]
          exact (List.dropLast_concat_getLast hne).symm
        have hw : ∃ e ∈ words (accepted hist), x <+: e.1 ++ [0] := ⟨_, List.mem_map.2 ⟨e, he, rfl⟩, hp⟩
        exact ⟨hx', residual_ne (l := x.getLast?.getD 0) (by rw [← hx']; exact hw), by rw [← hx']; exact List.prefix_rfl, hw⟩
      refine List.Nodup.length_le_of_subset ?_ ?_
      · rw [List.nodup_iff_pairwise_ne, List.pairwise_map]
        refine (List.nodup_iff_pairwise_ne.1 l1).imp_of_mem ?_
        intro x y hx hy hne he
        obtain ⟨e1, e2, _⟩ := hedge x hx
        obtain ⟨e3, e4, _⟩ := hedge y hy
        simp only [Prod.mk.injEq] at he
        have := hinj _ _ e2 he.1
        exact hne (by rw [e1, e3, this, he.2])
      · intro z hz
        obtain ⟨x, hx, rfl⟩ := List.mem_map.1 hz
        obtain ⟨e1, e2, _, e, he, hp⟩ := hedge x hx
        refine (k2 _).2 ⟨e2, ⟨_, rfl⟩, ?_⟩
        have hp' : x.dropLast ++ [x.getLast?.getD 0] <+: e.1 ++ [0] := by rw [← e1]; exact hp
        have hpre : x.dropLast <+: e.1 := by
          have h2 : x.dropLast.length ≤ e.1.length := by have := hp'.length_le; simp only [List.length_append, List.length_cons, List.length_nil] at this; omega
          obtain ⟨t, ht⟩ := hp'
          rw [List.append_assoc] at ht
          exact List.prefix_of_prefix_length_le ⟨_, ht⟩ (List.prefix_append _ _) h2
        obtain ⟨t, ht⟩ := hpre
        refine ⟨(t, e.2), ?_, ?_⟩
        · unfold residual
          refine List.mem_map.2 ⟨e, List.mem_filter.2 ⟨he, by simp [← ht]⟩, ?_⟩
          rw [← ht]
          simp
        · rw [← ht, List.append_assoc] at hp'
          exact (List.prefix_append_right_inj _).1 hp'
    simpa using hmap
  have : (d.numOfTransitions : Int) = m := c2
  omega

/-- **C95**, for every Dawg: the pools and the other two counters are those of a new Dawg.  All is as new exactly if no two prefixes of the keys have the same suffixes with the same values. -/
theorem C95_dawg_partial {hist d D} (h : Made hist d D) :
    d.clear = { Dawg.new with numOfMergedTransitions := d.numOfMergedTransitions, numOfMergingStates := d.numOfMergingStates } ∧
    (d.clear = Dawg.new ↔ ∀ p q, residual (words (accepted hist)) p ≠ [] → residual (words (accepted hist)) p = residual (words (accepted hist)) q → p = q) := by
  refine ⟨rfl, ?_⟩
  obtain ⟨hadm, n, oks, b, h1, h2, hb, _⟩ := h
  have hiff : d.clear = Dawg.new ↔ d.numOfMergedTransitions = 0 ∧ d.numOfMergingStates = 0 := by
    constructor
    · intro he
      exact ⟨congrArg Dawg.numOfMergedTransitions he, congrArg Dawg.numOfMergingStates he⟩
    · rintro ⟨e1, e2⟩
      unfold Dawg.clear Dawg.new
      rw [e1, e2]
      rfl
  rw [hiff]
  obtain ⟨d', hd, hd1, hd2⟩ := build_spec n h1 h2 hist hadm
  rw [hb] at hd
  simp only [Except.ok.injEq, Prod.mk.injEq] at hd
  obtain ⟨_, _, rfl⟩ := hd
  constructor
  · rintro ⟨_, e2⟩ p q hp hpq
    refine Classical.byContradiction fun hne => ?_
    obtain ⟨s, g, s1, s2⟩ := hd2.residual_state (p := p) hp
    have := (hd2.marked_iff s1 s2).2 ⟨p, q, hne, rfl, hpq.symm⟩
    rw [hd1.merging] at e2
    rw [List.length_eq_zero_iff.1 e2] at this
    cases this
  · intro hinj
    refine ⟨merged_zero h1 h2 hadm hb hinj, ?_⟩
    rw [hd1.merging, List.length_eq_zero_iff]
    refine List.eq_nil_iff_forall_not_mem.2 fun s hs => ?_
    obtain ⟨N, hN⟩ := hd2.nodes
    obtain ⟨g, hg⟩ := mem_starts.1 (hN.markedSub s hs)
    obtain ⟨L, hL⟩ := hd2.cinv.den _ hg.mem
    obtain ⟨p, q, hne, e1, e2⟩ := (hd2.marked_iff hg hL).1 hs
    refine hne (hinj p q ?_ (e1.trans e2.symm))
    rw [show residual (words (accepted hist)) p = L from e1]
    exact hL.ne_nil hd2.cinv.ne (hd2.cinv.ne _ hg.mem)

/-- "a" = 0 and "b" = 1 have different values, so that nothing is merged and a cleared Dawg is as new. -/
example : ∃ d D, Made [([97], 0), ([98], 1)] d D ∧ d.clear = Dawg.new := by
  obtain ⟨d, D, h1, oks, b, h2⟩ := C14_small_builds 256 (by omega) (by omega) [([97], 0), ([98], 1)] (by decide) (by decide)
  have h3 : (build 256 [([97], 0), ([98], 1)]).toOption.map (fun r => (r.2.2.numOfMergedTransitions, r.2.2.numOfMergingStates)) = some (0, 0) := by decide +kernel
  rw [h2] at h3
  have h4 : d.numOfMergedTransitions = 0 ∧ d.numOfMergingStates = 0 := by simpa [Except.toOption] using h3
  refine ⟨d, D, h1, ?_⟩
  rw [(C95_dawg_partial h1).1, h4.1, h4.2]
  rfl

/-- **C95**: whatever a Dawg contained, after `Clear` a dictionary can be built from it, which is that of the Dawg without keys, with the same number of unused units; and so can both guides, which are
empty. -/
theorem C95_build (d : Dawg) {e D} (h : Made [] e D) : d.clear.build = .ok (some D) ∧ d.clear.buildWithUnused = e.buildWithUnused ∧
    buildGuide d.clear D = .ok (some Guide.new) ∧ ∀ sorter cmp, buildRankedGuideCmp sorter d.clear D cmp = .ok (some Guide.new) := by
  have h1 := buildWithUnused_small (d := d.clear) (by show 0 ≤ 1; omega)
  have h2 := buildWithUnused_small (d := e) (by rw [Made.empty_size h rfl]; omega)
  have h3 : e.build = .ok (some Witness.dictE) := build_of_unused h2
  obtain ⟨_, _, _, _, _, _, _, h4⟩ := h
  rw [h3] at h4
  cases h4
  exact ⟨build_of_unused h1, by rw [h1, h2], rfl, fun _ _ => rfl⟩

example : ∃ d D e E, Made [([97], 0), ([98], 0)] d D ∧ Made [] e E ∧ D.containsString [97] = .ok true ∧ d.clear.build = .ok (some E) ∧ E.containsString [97] = .ok false := by
  obtain ⟨d, D, h1, _⟩ := C14_small_builds 256 (by omega) (by omega) [([97], 0), ([98], 0)] (by decide) (by decide)
  obtain ⟨⟨e, E, h2⟩, h3⟩ := C34_empty_partial
  exact ⟨d, D, e, E, h1, h2, (C10_inserted_found h1 ([97], 0) (by decide)).1, (C95_build d h2).1, ((h3 e E h2).1 [97]).1⟩

/-- **C95** for guides of both kinds: a cleared guide is as a new one, and completers that are started over it list nothing. -/
theorem C95_guide (g : Guide) : g.clear = Guide.new ∧ (∀ D c u P, ∃ c0, Completer.startString g.clear c u P = .ok c0 ∧ Completer.next D g.clear c0 = .ok (c0, false)) ∧
    ∀ D rc u P, ∃ rc0, RankedCompleter.startString D g.clear rc u P = .ok rc0 ∧ RankedCompleter.next D g.clear rc0 = .ok (rc0, false) := by
  refine ⟨rfl, fun D c u P => ?_, fun D rc u P => ?_⟩
  · refine ⟨⟨P ++ [0], [], c.lastIndex⟩, ?_, next_ended rfl⟩
    have := startStringLen_nonneg (gd := g.clear) (c := c) (u := u) (P := P) (len := P.length) (by omega) (by omega)
    unfold Completer.startString
    rw [this, if_neg (by simp [Guide.clear, Guide.size])]
    simp
  · refine ⟨⟨P, P.length, -1, [], [], []⟩, ?_, rfl⟩
    unfold RankedCompleter.startString RankedCompleter.startStringLen Completer.takeLen
    rw [if_neg (by omega)]
    simp [ok_bind, pure_eq_ok, Guide.clear, Guide.size]

example : (⟨[⟨97, 0⟩, ⟨0, 0⟩]⟩ : Guide).clear.size = 0 := (congrArg Guide.size (C95_guide ⟨[⟨97, 0⟩, ⟨0, 0⟩]⟩).1).trans rfl

/-- **C95**: but a completer that is not at its start or end must be started again: after `Clear` of its guide, its `Next` panics. -/
theorem C95_in_use (D : Dictionary) (g : Guide) (c : Completer) (hs : c.indexStack ≠ []) (hl : c.lastIndex ≠ D.root) : Completer.next D g.clear c = .error .panic := by
  obtain ⟨p, st, l⟩ := c
  cases st with
  | nil => exact absurd rfl hs
  | cons i st =>
    unfold Completer.next
    simp only at hl ⊢
    rw [if_pos hl]
    rfl

example : Completer.next Witness.dictE (Guide.clear ⟨[⟨97, 0⟩, ⟨0, 0⟩]⟩) ⟨[97, 0], [1, 0], 1⟩ = .error .panic := C95_in_use _ _ _ (by simp) (by decide)

/-! ## C34 exactly -/

theorem eq_of_xor {a b : Nat} (h : a ^^^ b = 0) : a = b := by
  have := congrArg (· ^^^ b) h
  simpa only [Nat.xor_assoc, Nat.xor_self, Nat.xor_zero, Nat.zero_xor] using this

theorem dictE_unit {i : Nat} (h : i < 256) : ∃ u, Witness.dictE.units[i]? = some u ∧ dictOffset u = (if i = 0 then 1 else 0) ∧
    dictLabel u = if i = 0 then 0 else UInt8.ofNat (i ^^^ 1) := by
  have h1 : ∀ i : Fin 256, (Witness.dictE.units[i.val]?).map (fun u => (dictOffset u, dictLabel u)) =
      some (if i.val = 0 then (1, 0) else (0, UInt8.ofNat (i.val ^^^ 1))) := by decide +kernel
  have h2 := h1 ⟨i, h⟩
  cases hu : Witness.dictE.units[i]? with
  | none => simp [hu] at h2
  | some u =>
    simp only [hu, Option.map_some, Option.some.injEq] at h2
    refine ⟨u, rfl, ?_, ?_⟩ <;> by_cases h0 : i = 0 <;> simp_all

/-- What can be followed from each index of the dictionary without keys. -/
theorem dictE_follow {i : Nat} (h : i < 256) (c : UInt8) :
    Witness.dictE.follow c i = .ok (if i < 2 ∧ c ≠ 1 then some (c.toNat ^^^ 1) else none) := by
  obtain ⟨u, h1, h2, h3⟩ := dictE_unit h
  have hx : i ^^^ dictOffset u ^^^ c.toNat < 256 := by
    have hc : c.toNat < 2 ^ 8 := c.toNat_lt
    refine Nat.xor_lt_two_pow (n := 8) (Nat.xor_lt_two_pow (n := 8) (by omega) ?_) hc
    rw [h2]; split <;> omega
  obtain ⟨v, k1, k2, k3⟩ := dictE_unit hx
  unfold Dictionary.follow
  rw [rd_some h1, ok_bind]
  simp only
  rw [rd_some k1, ok_bind, k3]
  by_cases hi : i < 2
  · have hj : i ^^^ dictOffset u = 1 := by
      rw [h2]
      have : i = 0 ∨ i = 1 := by omega
      rcases this with rfl | rfl <;> rfl
    rw [hj]
    by_cases hc : c = 1
    · subst hc
      rw [if_neg (c := i < 2 ∧ (1 : UInt8) ≠ 1) (by simp)]
      rfl
    · have h0 : 1 ^^^ c.toNat ≠ 0 := by
        intro h0
        have : c.toNat = 1 := (eq_of_xor h0).symm
        exact hc (UInt8.toNat_inj.mp this)
      rw [if_neg h0, if_pos (c := i < 2 ∧ c ≠ 1) ⟨hi, hc⟩, Nat.xor_comm 1, Nat.xor_assoc, Nat.xor_self, Nat.xor_zero, UInt8.ofNat_toNat]
      simp [pure_eq_ok]
  · have hj : i ^^^ dictOffset u = i := by rw [h2, if_neg (by omega), Nat.xor_zero]
    rw [hj] at hx ⊢
    rw [if_neg (c := i < 2 ∧ c ≠ 1) (by omega)]
    rw [if_pos]
    · rfl
    · by_cases h0 : i ^^^ c.toNat = 0
      · rw [if_pos h0]
        have := eq_of_xor h0
        intro hc
        rw [← hc] at this
        simp at this
        omega
      · rw [if_neg h0]
        intro hc
        have hc := congrArg UInt8.toNat hc
        rw [UInt8.toNat_ofNat', Nat.mod_eq_of_lt (Nat.xor_lt_two_pow (n := 8) hx (by omega)), Nat.xor_assoc, Nat.xor_comm c.toNat, ← Nat.xor_assoc] at hc
        have h1 := congrArg (· ^^^ c.toNat) hc
        simp only [Nat.xor_assoc, Nat.xor_self, Nat.xor_zero] at h1
        have := eq_of_xor h1
        omega

theorem dictE_dead {i : Nat} (h : i < 256) (hi : 2 ≤ i) (q : Key) : (∃ j k, Witness.dictE.followString q i = .ok (true, j, k)) ↔ q = [] := by
  cases q with
  | nil => exact ⟨fun _ => rfl, fun _ => ⟨i, 0, rfl⟩⟩
  | cons c q =>
    rw [Dictionary.followString, dictE_follow h, if_neg (by omega)]
    constructor
    · rintro ⟨j, k, h⟩
      cases h
    · intro h
      cases h

/-- The full claim of what can be followed in the dictionary without keys, for arbitrary bytes. -/
theorem dictE_followString : ∀ (q : Key) (i : Nat), i < 2 → ((∃ j k, Witness.dictE.followString q i = .ok (true, j, k)) ↔
    ∃ n, q = List.replicate n 0 ∨ ∃ b, b ≠ 1 ∧ q = List.replicate n 0 ++ [b])
  | [], i, _ => ⟨fun _ => ⟨0, .inl rfl⟩, fun _ => ⟨i, 0, rfl⟩⟩
  | c :: q, i, hi => by
    rw [Dictionary.followString, dictE_follow (by omega)]
    by_cases hc : c = 1
    · rw [if_neg (by simp [hc])]
      constructor
      · rintro ⟨j, k, h⟩
        cases h
      · rintro ⟨n, h | ⟨b, hb, h⟩⟩
        · cases n with
          | zero => cases h
          | succ n => rw [List.replicate_succ] at h; injection h with h _; rw [hc] at h; cases h
        · cases n with
          | zero => injection h with h _; exact absurd (h.symm.trans hc) hb
          | succ n => rw [List.replicate_succ, List.cons_append] at h; injection h with h _; rw [hc] at h; cases h
    · rw [if_pos ⟨hi, hc⟩]
      simp only [ok_bind, pure_eq_ok]
      have hstep : (∃ j k, (Witness.dictE.followString q (c.toNat ^^^ 1) >>= fun x => Except.ok (x.1, x.2.1, x.2.2 + 1)) = Except.ok (ε := Fault) (true, j, k)) ↔
          ∃ j k, Witness.dictE.followString q (c.toNat ^^^ 1) = .ok (true, j, k) := by
        cases Witness.dictE.followString q (c.toNat ^^^ 1) with
        | error e => simp
        | ok x =>
          obtain ⟨a, b, n⟩ := x
          simp only [ok_bind]
          constructor
          · rintro ⟨j, k, h⟩
            cases h
            exact ⟨_, _, rfl⟩
          · rintro ⟨j, k, h⟩
            cases h
            exact ⟨_, _, rfl⟩
      refine Iff.trans hstep ?_
      by_cases h0 : c = 0
      · subst h0
        rw [dictE_followString q ((0 : UInt8).toNat ^^^ 1) (by decide)]
        constructor
        · rintro ⟨n, h | ⟨b, hb, h⟩⟩
          · exact ⟨n + 1, .inl (by rw [h]; rfl)⟩
          · exact ⟨n + 1, .inr ⟨b, hb, by rw [h]; rfl⟩⟩
        · rintro ⟨n, h | ⟨b, hb, h⟩⟩
          · cases n with
            | zero => cases h
            | succ n => rw [List.replicate_succ] at h; injection h with _ h; exact ⟨n, .inl h⟩
          · cases n with
            | zero => injection h with _ h; exact ⟨0, .inl h⟩
            | succ n => rw [List.replicate_succ, List.cons_append] at h; injection h with _ h; exact ⟨n, .inr ⟨b, hb, h⟩⟩
      · have hx : c.toNat ^^^ 1 < 256 := Nat.xor_lt_two_pow (n := 8) c.toNat_lt (by omega)
        have hx2 : 2 ≤ c.toNat ^^^ 1 := by
          apply Nat.le_of_not_lt
          intro hlt
          have h01 : c.toNat ^^^ 1 = 0 ∨ c.toNat ^^^ 1 = 1 := by omega
          rcases h01 with h | h
          · exact hc (UInt8.toNat_inj.mp (eq_of_xor h))
          · have := congrArg (· ^^^ 1) h
            simp only [Nat.xor_assoc, Nat.xor_self, Nat.xor_zero] at this
            exact h0 (UInt8.toNat_inj.mp this)
        rw [dictE_dead hx hx2]
        constructor
        · intro h
          exact ⟨0, .inr ⟨c, hc, by rw [h]; rfl⟩⟩
        · rintro ⟨n, h | ⟨b, hb, h⟩⟩
          · cases n with
            | zero => cases h
            | succ n => rw [List.replicate_succ] at h; injection h with h _; exact absurd h h0
          · cases n with
            | zero => injection h
            | succ n => rw [List.replicate_succ, List.cons_append] at h; injection h with h _; exact absurd h h0

/-- **C34**, the exact extent of the fault: in the dictionary without keys, however it was built, `FollowString` succeeds from the root exactly for the strings that consist of NUL bytes and possibly one
further byte other than 1 at the end. Among NUL-free queries these are the empty one, and those of one byte other than 1. -/
theorem C34_follow_exact_partial {d D} (h : Made [] d D) : (∀ q : Key, (∃ i k, D.followString q D.root = .ok (true, i, k)) ↔
      ∃ n, q = List.replicate n 0 ∨ ∃ b, b ≠ 1 ∧ q = List.replicate n 0 ++ [b]) ∧
    ∀ q : Key, 0 ∉ q → ((∃ i k, D.followString q D.root = .ok (true, i, k)) ↔ q = [] ∨ ∃ b, b ≠ 1 ∧ q = [b]) := by
  have h2 := buildWithUnused_small (d := d) (by rw [Made.empty_size h rfl]; omega)
  have h3 : d.build = .ok (some Witness.dictE) := build_of_unused h2
  obtain ⟨_, _, _, _, _, _, _, h4⟩ := h
  rw [h3] at h4
  cases h4
  have h5 : ∀ q : Key, (∃ i k, Witness.dictE.followString q Witness.dictE.root = .ok (true, i, k)) ↔
      ∃ n, q = List.replicate n 0 ∨ ∃ b, b ≠ 1 ∧ q = List.replicate n 0 ++ [b] := fun q => dictE_followString q 0 (by omega)
  refine ⟨h5, fun q hq => ?_⟩
  rw [h5 q]
  constructor
  · rintro ⟨n, h | ⟨b, hb, h⟩⟩
    · cases n with
      | zero => exact .inl h
      | succ n => exact absurd (by rw [h]; simp) hq
    · cases n with
      | zero => exact .inr ⟨b, hb, h⟩
      | succ n => exact absurd (by rw [h]; simp) hq
  · rintro (h | ⟨b, hb, h⟩)
    · exact ⟨0, .inl h⟩
    · exact ⟨0, .inr ⟨b, hb, h⟩⟩

example : ∃ d D, Made [] d D ∧ (∃ i k, D.followString [255] D.root = .ok (true, i, k)) ∧ (¬ ∃ i k, D.followString [1] D.root = .ok (true, i, k)) ∧
    ¬ ∃ i k, D.followString [97, 98] D.root = .ok (true, i, k) := by
  obtain ⟨⟨d, D, h⟩, _⟩ := C34_empty_partial
  have h1 := (C34_follow_exact_partial h).2
  refine ⟨d, D, h, (h1 [255] (by decide)).mpr (.inr ⟨255, by decide, rfl⟩), fun h2 => ?_, fun h2 => ?_⟩
  · have := (h1 [1] (by decide)).mp h2
    simp at this
  · have := (h1 [97, 98] (by decide)).mp h2
    simp at this

end Dawg.Props
