import Verif.Proof.Dict.Build
/-! # `BuildDictionary` -/
namespace Dawg.Dict
attribute [-simp] List.length_flatten
open Dawg.Abs DictBuilder Dawg.Spec

/-! ## Depth of the recursion -/

theorem exists_longest : ∀ {L : Lang}, L ≠ [] → ∃ m ∈ L, ∀ e ∈ L, e.1.length ≤ m.1.length
  | [], h => absurd rfl h
  | a :: L, _ => by
    by_cases hL : L = []
    · subst hL; exact ⟨a, by simp, by simp⟩
    · obtain ⟨m, hm, hall⟩ := exists_longest hL
      by_cases hc : a.1.length ≤ m.1.length
      · refine ⟨m, List.mem_cons_of_mem _ hm, ?_⟩
        intro e he
        rcases List.mem_cons.1 he with rfl | he
        · exact hc
        · exact hall e he
      · refine ⟨a, List.mem_cons_self, ?_⟩
        intro e he
        rcases List.mem_cons.1 he with rfl | he
        · omega
        · have := hall e he; omega

theorem depth_chain {c : Core} (hc : CInv c) : ∀ (n : Nat) {g : Group} {L : Lang} {e : Entry}, g ∈ c.groups → DenG c.groups g L → e ∈ L →
    e.1.length = n → (∀ e' ∈ L, e'.1.length ≤ n) →
    ∃ l : List Group, l.Nodup ∧ l.length = n + 1 ∧ ∀ x ∈ l, x ∈ c.groups ∧ ∃ Lx, DenG c.groups x Lx ∧ ∀ e' ∈ Lx, e'.1.length ≤ n
  | 0, g, L, e, hg, hd, _, _, hmax => ⟨[g], by simp, rfl, by intro x hx; simp at hx; subst hx; exact ⟨hg, L, hd, hmax⟩⟩
  | n + 1, g, L, e, hg, hd, he, hen, hmax => by
    obtain ⟨q, hq, h⟩ := hd.heads he
    rcases h with ⟨_, h⟩ | ⟨h0, k, h⟩
    · rw [h] at hen; simp at hen
    · obtain ⟨g', hs', hd'⟩ := hd.child (hc.asc _ hg) hq h0
      have hmem : ∀ {e' : Entry}, e' ∈ residual L [q.1] ↔ (q.1 :: e'.1, e'.2) ∈ L := by
        intro e'; rw [mem_residual]; rfl
      obtain ⟨l, h1, h2, h3⟩ := depth_chain hc n hs'.mem hd' (e := (k, e.2)) (hmem.2 (by rw [← h]; exact he))
        (by rw [h] at hen; simpa using hen)
        (by
          intro e' he'
          have := hmax _ (hmem.1 he')
          simpa using this)
      refine ⟨g :: l, List.nodup_cons.2 ⟨?_, h1⟩, by simp [h2], ?_⟩
      · intro hgl
        obtain ⟨_, Lx, h4, h5⟩ := h3 g hgl
        have := hd.det hc.ne h4
        subst this
        have := h5 e he
        omega
      · intro x hx
        rcases List.mem_cons.1 hx with rfl | hx
        · exact ⟨hg, L, hd, hmax⟩
        · obtain ⟨h4, Lx, h5, h6⟩ := h3 x hx
          exact ⟨h4, Lx, h5, fun e' he' => by have := h6 e' he'; omega⟩

theorem groups_le_flatten : ∀ {gs : List Group}, (∀ g ∈ gs, g ≠ []) → gs.length ≤ gs.flatten.length
  | [], _ => by simp
  | g :: gs, h => by
    have := groups_le_flatten (fun x hx => h x (List.mem_cons_of_mem _ hx))
    have := List.length_pos_iff.2 (h g List.mem_cons_self)
    simp only [List.length_cons, List.flatten_cons, List.length_append]; omega

theorem depth_bound {c : Core} (hc : CInv c) {g L} (hg : g ∈ c.groups) (hd : DenG c.groups g L) : ∀ e ∈ L, e.1.length + 1 ≤ c.groups.length := by
  obtain ⟨m, hm, hall⟩ := exists_longest (hd.ne_nil hc.ne (hc.ne g hg))
  obtain ⟨l, h1, h2, h3⟩ := depth_chain hc _ hg hd hm rfl hall
  have := List.Nodup.length_le_of_subset h1 (l₂ := c.groups) (fun x hx => (h3 x hx).1)
  intro e he
  have := hall e he
  omega

theorem _root_.Dawg.Abs.DawgIs.size_eq {d : Dawg} {c r} (h : DawgIs d c r) : d.size = c.groups.flatten.length + 1 := by
  unfold Dawg.size; rw [h.base, List.length_cons, List.length_map]

/-! ## The initial state -/

/-- Only the root is pending. -/
def rootPend : Nat → Option Nat := fun i => if i = 0 then some 1024 else none

theorem init_spec (c : Core) (r : Nat) (lt : LinkTable) :
    ∃ db ex, (do
      let db := { DictBuilder.new with linkTable := lt }
      let db ← db.reserveUnit 0
      let db ← db.modExtra 0 ExtraUnit.setIsUsed
      let db ← db.modUnit 0 (fun u => (dictSetOffset u 1).getD u)
      db.modUnit 0 (fun u => dictSetLabel u 0)) = .ok db ∧ DInv c r db 1 ex [] rootPend ∧ db.linkTable = lt := by
  have hE : EX ({ DictBuilder.new with linkTable := lt } : DictBuilder).units ({ DictBuilder.new with linkTable := lt } : DictBuilder).extras 0 (fun _ => ExtraUnit.empty) :=
    ⟨rfl, rfl, fun b hb => absurd hb (by omega)⟩
  have hF : FL 0 (fun _ => ExtraUnit.empty) ({ DictBuilder.new with linkTable := lt } : DictBuilder).unfixedIndex := by
    have : ∀ i, ¬ Free 0 (fun _ => ExtraUnit.empty) i := fun i h => by have := h.1.1; omega
    exact ⟨.inl rfl, fun i h => absurd h (this i), fun i h => absurd h (this i), fun i h => absurd h (this i), fun i h => absurd h (this i)⟩
  obtain ⟨us, xs, uf, num, ex1, e1, e2, e3, e4, e5, un, e6, e7, _⟩ := expand_spec (by omega) hE hF
  have hw0 : Win 1 0 := ⟨by omega, by omega⟩
  have hfix : ∀ j, j < 256 → (ex1 j).isFixed = false := by
    intro j hj
    rw [e4 j ⟨by omega, by omega⟩]; simp
  have huse : ∀ j, j < 256 → (ex1 j).isUsed = false := by
    intro j hj
    rw [e5 j ⟨by omega, by omega⟩]; simp
  obtain ⟨xs2, uf2, ex2, f1, f2, f3, f4, f5⟩ := unlink_spec (db := { DictBuilder.new with linkTable := lt, units := us, extras := xs, unfixedIndex := uf, numOfUnusedUnits := num })
    e2 e3 (by omega) (i := 0) ⟨hw0, hfix 0 (by omega)⟩
  have hres : ({ DictBuilder.new with linkTable := lt } : DictBuilder).reserveUnit 0 =
      .ok { DictBuilder.new with linkTable := lt, units := us, extras := xs2, unfixedIndex := uf2, numOfUnusedUnits := num } := by
    unfold reserveUnit growFor
    rw [if_pos (show 0 ≥ ({ DictBuilder.new with linkTable := lt } : DictBuilder).numOfUnits from Nat.le_refl 0), e1]
    simp only [ok_bind]
    rw [f1]
  obtain ⟨xs3, g1, g2⟩ := EX.modExtra (db := { DictBuilder.new with linkTable := lt, units := us, extras := xs2, unfixedIndex := uf2, numOfUnusedUnits := num })
    f2 hw0 ExtraUnit.setIsUsed
  have hu0 : us[0]? = some 0 := by rw [e6, if_pos (by omega)]
  have hul : us.length = 256 := e2.units
  have hnum : num = 0 := by rw [e7]; simp [DictBuilder.new]
  subst hnum
  simp only []
  rw [hres]
  simp only [ok_bind]
  rw [g1]
  simp only [ok_bind]
  rw [modUnit_ok (i := 0) (w := 0) hu0]
  simp only [ok_bind, setOffset_one, Option.getD_some]
  rw [modUnit_ok (i := 0) (w := 1024) (by simp [hul])]
  simp only [setLabel_1024, List.set_set]
  have huE : EX (us.set 0 1024) xs3 1 (upd ex2 0 (ex2 0).setIsUsed) := ⟨by simp [hul], g2.len, g2.get⟩
  have hfx : ∀ j, (upd ex2 0 (ex2 0).setIsUsed j).isFixed = (ex2 j).isFixed := by
    intro j
    by_cases hj : j = 0
    · subst hj; rw [upd_same]; exact (isFixed_setIsUsed _)
    · rw [upd_ne _ _ hj]
  have hnx : ∀ j, (upd ex2 0 (ex2 0).setIsUsed j).next = (ex2 j).next := by
    intro j
    by_cases hj : j = 0
    · subst hj; rw [upd_same]; exact next_setIsUsed _
    · rw [upd_ne _ _ hj]
  have hpv : ∀ j, (upd ex2 0 (ex2 0).setIsUsed j).prev = (ex2 j).prev := by
    intro j
    by_cases hj : j = 0
    · subst hj; rw [upd_same]; exact prev_setIsUsed _
    · rw [upd_ne _ _ hj]
  have hfree : ∀ j, Free 1 (upd ex2 0 (ex2 0).setIsUsed) j ↔ Free 1 ex2 j := by intro j; unfold Free; rw [hfx]
  have hkid : ∀ {u x q}, ¬ Kid c [] u x q := fun h => by simp [Kid] at h
  have hik : ∀ {u}, ¬ IsKid c [] u := fun ⟨x, q, h⟩ => hkid h
  refine ⟨_, upd ex2 0 (ex2 0).setIsUsed, rfl, ⟨huE, ?_, ?_, ?_, by omega, by omega⟩, rfl⟩
  · constructor
    · rw [hfree]; exact f3.head
    · intro i; rw [hfree, hnx, hfree]; exact f3.next i
    · intro i; rw [hfree, hpv, hfree]; exact f3.prev i
    · intro i; rw [hfree, hnx, hpv]; exact f3.np i
    · intro i; rw [hfree, hpv, hnx]; exact f3.pn i
  · refine ⟨by simp [hul], by simp, by simp, fun h => absurd h hkid, fun h => absurd h hkid, fun h => absurd h hkid, fun h => absurd h hkid,
      .inl ⟨1024, rfl, by simp [hul]⟩, ?_, ?_, by intro u h; omega, ?_, by omega, rfl, by intro pre o s post h; simp at h⟩
    · intro u hu
      left
      refine Classical.byContradiction fun h0 => hu ?_
      simp [rootPend, h0]
    · intro u _ hu hun
      rw [List.getElem?_set_ne (Ne.symm hun.1), e6, if_pos (by omega)]
    · simp [unplacedBelow, DictBuilder.new]
  · constructor
    · intro u hu
      rw [hfx, f4]
      have hlt := hu.1
      simp only [] at *
      rw [hfix u (by omega)]
      simp only [Bool.false_or, decide_eq_true_eq]
      constructor
      · exact fun h => .inr (.inl h)
      · rintro (h | h | h)
        · omega
        · exact h
        · exact absurd h hik
    · intro o ho
      have hlt := ho.1
      by_cases h0 : o = 0
      · subst h0; rw [upd_same, isUsed_setIsUsed]; simp
      · rw [upd_ne _ _ h0, f5]
        simp only [] at *
        rw [huse o (by omega)]
        simp [h0]

/-! ## Fixing the last blocks -/

theorem fixBlocksLoop_spec {c : Core} {r : Nat} {G : List (Nat × Nat)} {pend : Nat → Option Nat} {B : Nat} (hB : B ≤ 2097152) (hpos : 0 < B)
    (hne : ∀ g ∈ c.groups, g ≠ []) :
    ∀ (n b : Nat) (db : DictBuilder) (ex : Nat → ExtraUnit), b + n = B → n ≤ 16 → EX db.units db.extras B ex → FL B ex db.unfixedIndex →
      UInv c r db.units B (256 * b) G pend db.numOfUnusedUnits → WInv c B (256 * b) ex G →
      ∃ db', fixBlocksLoop n b db = .ok db' ∧ UInv c r db'.units B (256 * B) G pend db'.numOfUnusedUnits
  | 0, b, db, ex, hb, _, _, _, hu, _ => by
    have : b = B := by omega
    subst this
    exact ⟨db, rfl, hu⟩
  | n + 1, b, db, ex, hb, hn, h, hfl, hu, hw => by
    obtain ⟨us, xs, uf, num, ex', un, e1, e2, e3, e4, e5, e6, e7, e8⟩ := fixBlock_spec hB (b := b) h hfl (by omega) (by omega)
    have hFd : 256 * b / 256 = b := by omega
    have hfree : ∀ j, j / 256 = b → ((ex j).isFixed = false ↔ Unplaced c G j) := by
      intro j hj
      rw [hw.free_iff (u := j) ⟨by omega, by omega⟩]
      exact ⟨fun h => h.2, fun h => ⟨by omega, h⟩⟩
    have hu' := hu.fix (units' := us) (un := un) (f := fun j => !(ex j).isFixed) hpos (by omega) e2.units
      (by
        rintro ⟨u, hu1, hu2⟩
        obtain ⟨j, hj1, hj2⟩ := unused_exists hu hw hne (b := b) (by omega) (by omega) (by omega) hu2
        obtain ⟨a1, a2⟩ := e8 ⟨j, by omega, hj2⟩
        have a3 := hw.used un ⟨by omega, by omega⟩
        rw [a2] at a3
        simp only [Bool.false_eq_true, false_iff, not_or] at a3
        refine ⟨by omega, a3.1, fun x hx he => a3.2 ⟨x.2, by rw [← he]; exact hx⟩⟩)
      (by
        intro j hj1 hj2
        rw [hFd] at hj1
        rw [e6, if_pos ⟨hj1, (hfree j hj1).2 hj2⟩])
      (by
        intro j hj
        rw [e6, if_neg]
        rintro ⟨hj1, hj2⟩
        exact hj ⟨by omega, (hfree j hj1).1 hj2⟩)
      (by
        intro j h1 h2
        rw [Bool.not_eq_true']
        exact hfree j (by omega))
    rw [← e7] at hu'
    have hw' : WInv c B (256 * (b + 1)) ex' G := by
      constructor
      · intro u hwu
        rw [e4, Bool.or_eq_true, hw.fixed u hwu, decide_eq_true_eq]
        constructor
        · rintro ((h | h) | h)
          · left; omega
          · exact .inr h
          · left; omega
        · rintro (h | h)
          · by_cases hlt : u < 256 * b
            · exact .inl (.inl hlt)
            · right; omega
          · exact .inl (.inr h)
      · intro o ho
        rw [e5]; exact hw.used o ho
    obtain ⟨db', k1, k2⟩ := fixBlocksLoop_spec hB hpos hne n (b + 1) { db with units := us, extras := xs, unfixedIndex := uf, numOfUnusedUnits := num } ex' (by omega) (by omega) e2 e3 (r := r) (pend := pend) hu' hw'
    refine ⟨db', ?_, k2⟩
    rw [fixBlocksLoop, e1]
    exact k1

theorem fixAll_spec {c r db B ex G pend} (h : DInv c r db B ex G pend) (hne : ∀ g ∈ c.groups, g ≠ []) :
    ∃ db', db.fixAllBlocks = .ok db' ∧ UInv c r db'.units B (256 * B) G pend db'.numOfUnusedUnits := by
  have hle := h.le
  have hpos := h.pos
  have hnb : db.numOfBlocks = B := by unfold DictBuilder.numOfBlocks; rw [h.ext.len]; exact u32_of_lt (by omega)
  unfold fixAllBlocks
  simp only [hnb, numOfUnfixedBlocks]
  have hb : (if B > 16 then B - 16 else 0) = B - 16 := by split <;> omega
  rw [hb]
  exact fixBlocksLoop_spec hle (by omega) hne (B - (B - 16)) (B - 16) db ex (by omega) (by omega) h.ext h.fl h.u h.w

/-! ## The whole construction -/

/-- The units of a finished dictionary. -/
structure Built (c : Core) (r : Nat) (acc : Lang) (units : List Nat) (num : Nat) : Prop where
  inv : ∃ B G pend, UInv c r units B (256 * B) G pend num ∧ 1 ≤ B ∧ B ≤ 1 + msize acc ∧ B ≤ 2097152 ∧
    ((acc = [] ∧ G = [] ∧ pend = rootPend ∧ units[0]? = some 1024) ∨ (acc ≠ [] ∧ pend = fun _ => none)) ∧
    ((∀ x ∈ G, x.1 < 2097152) → ∀ o o' s, (o, s) ∈ G → (o', s) ∈ G → o = o') ∧ B ≤ 1 + G.length

theorem buildRoot_spec {d : Dawg} {c r acc} (hd : DawgIs d c r) (hf : FinalCore c r acc) (hv : ∀ e ∈ acc, e.2 < 2147483648)
    {db0 : DictBuilder} {ex0 : Nat → ExtraUnit} (e2 : DInv c r db0 1 ex0 [] rootPend) (ht0 : TInv c db0.linkTable []) :
    (∃ db, buildRoot d db0 = .ok (db, false) ∧ db.units.length = 536870912 ∧ 2097152 ≤ msize acc) ∨
      (∃ db B ex G pend, buildRoot d db0 = .ok (db, true) ∧ DInv c r db B ex G pend ∧ B ≤ 1 + msize acc ∧
        ((acc = [] ∧ G = [] ∧ pend = rootPend) ∨ (acc ≠ [] ∧ pend = fun _ => none)) ∧
        ((∀ x ∈ G, x.1 < 2097152) → ∀ o o' s, (o, s) ∈ G → (o', s) ∈ G → o = o') ∧ B ≤ 1 + G.length) := by
  have hne := hf.cinv.ne
  unfold buildRoot
  rw [hd.size_eq]
  rcases hf.den with ⟨ha, hr0, hg⟩ | ⟨g, hs, hden⟩
  · right
    rw [hg, if_neg (by simp)]
    exact ⟨db0, 1, ex0, [], rootPend, rfl, e2, by omega, .inl ⟨ha, rfl, rfl⟩, by simp, by simp⟩
  · have hgl := List.length_pos_iff.2 (hne g hs.mem)
    have hfl := groups_le_flatten hne
    have hgs : 0 < c.groups.length := List.length_pos_iff.2 (List.ne_nil_of_mem hs.mem)
    rw [if_pos (by omega), show d.root = 0 from rfl]
    have hdep := depth_bound hf.cinv hs.mem hden
    obtain ⟨db, ok, _, ⟨a1, _⟩, a2⟩ := callSpec hd hf (c.groups.flatten.length + 1 + 1) e2 ht0 (.inl ⟨rfl, rfl, rfl⟩) (w := 1024) rfl (.inr ⟨rfl, rfl⟩)
      hd.isLeaf_root (hd.child_root hf) hs hden (by intro e he; have := hdep e he; omega) hv
    rw [a1]
    rcases a2 with ⟨rfl, b1, b2⟩ | ⟨rfl, B', ex', G', b1, b2, ⟨pre, b3, _, b3'⟩, b4, b5⟩
    · exact .inl ⟨db, rfl, b1, by omega⟩
    · refine .inr ⟨db, B', ex', G', _, rfl, b1, b4, .inr ⟨hden.ne_nil hne (hne _ hs.mem), ?_⟩, fun hsm o o' s h1 h2 => (b5 (fun _ => False) [] (residual_nil _) (by simp) ⟨by simp, by simp, by simp⟩ hsm).one h1 h2, by rw [b3, List.append_nil]; exact b3'⟩
      funext i
      simp only [rootPend]
      by_cases hi : i = 0
      · rw [if_pos hi]
      · rw [if_neg hi, if_neg hi]

theorem buildDictionary_spec {d : Dawg} {c r acc} (hd : DawgIs d c r) (hf : FinalCore c r acc) (hv : ∀ e ∈ acc, e.2 < 2147483648) :
    (∃ db, buildDictionary d = .ok (db, false) ∧ db.units.length = 536870912 ∧ 2097152 ≤ msize acc) ∨
    (∃ db, buildDictionary d = .ok (db, true) ∧ Built c r acc db.units db.numOfUnusedUnits) := by
  have hne := hf.cinv.ne
  obtain ⟨N, hN⟩ := hf.nodes
  have hmk : c.marked.length ≤ 1073741824 := by
    have h1 := List.Nodup.length_le_of_subset hN.markedNodup (l₂ := List.range (poolLen c.groups)) (by
      intro s hs
      rw [List.mem_range]
      exact starts_lt hne (hN.markedSub s hs))
    rw [List.length_range] at h1
    have := hf.small
    omega
  have hhalf : c.marked.length >>> 1 = c.marked.length / 2 := by rw [Nat.shiftRight_eq_div_pow]
  obtain ⟨db0, ex0, e1, e2, e3⟩ := init_spec c r (LinkTable.new (d.numOfMergingStates + (d.numOfMergingStates >>> 1)))
  have ht0 : TInv c db0.linkTable [] := by
    rw [e3, hd.merging, hhalf]
    refine ⟨fun _ => 0, [], LinkInv.new (by omega), by simp, by simp, ?_⟩
    simp [LinkTable.new]
  simp only [] at e1
  have key := buildRoot_spec hd hf hv e2 ht0
  have hfirst : buildDictionary d = (do
      let (db, ok) ← buildRoot d db0
      if !ok then return (db, false)
      let db ← db.fixAllBlocks
      return (db, true)) := by
    have hsplit : ∀ {α} (k : DictBuilder → Go α), (do
        let db ← ({ DictBuilder.new with linkTable := LinkTable.new (d.numOfMergingStates + (d.numOfMergingStates >>> 1)) } : DictBuilder).reserveUnit 0
        let db ← db.modExtra 0 ExtraUnit.setIsUsed
        let db ← db.modUnit 0 (fun u => (dictSetOffset u 1).getD u)
        let db ← db.modUnit 0 (fun u => dictSetLabel u 0)
        k db) = k db0 := by
      intro α k
      have := congrArg (· >>= k) e1
      simpa only [bind_assoc, ok_bind] using this
    unfold buildDictionary
    exact hsplit _
  rw [hfirst]
  rcases key with ⟨db, a1, a2⟩ | ⟨db, B, ex, G, pend, a1, a2, a3, a4, a5⟩
  · left
    rw [a1]
    exact ⟨db, rfl, a2⟩
  · right
    rw [a1]
    simp only [ok_bind, Bool.not_true, Bool.false_eq_true, if_false]
    obtain ⟨db', f1, f2⟩ := fixAll_spec a2 hne
    rw [f1]
    refine ⟨db', rfl, B, G, pend, f2, a2.pos, a3, a2.le, ?_, a5⟩
    rcases a4 with ⟨h1, h2, h3⟩ | h1
    · refine .inl ⟨h1, h2, h3, ?_⟩
      rcases f2.root with ⟨w, h4, h5⟩ | ⟨h4, _⟩
      · rw [h3] at h4
        simp only [rootPend] at h4
        cases h4; exact h5
      · rw [h3] at h4; simp [rootPend] at h4
    · exact .inr h1

/-- The number of places tried below the root. -/
theorem buildRootN_spec {d : Dawg} {c r acc} (hd : DawgIs d c r) (hf : FinalCore c r acc) (hv : ∀ e ∈ acc, e.2 < 2147483648)
    {db0 : DictBuilder} {ex0 : Nat → ExtraUnit} (e2 : DInv c r db0 1 ex0 [] rootPend) (ht0 : TInv c db0.linkTable []) :
    ∃ n, buildRootN d db0 = (do let x ← buildRoot d db0; .ok (x, n)) ∧ n ≤ 4096 * msize acc ∧
      ∀ db, buildRoot d db0 = .ok (db, true) → ∃ B ex G pend, DInv c r db B ex G pend ∧ n ≤ 4096 * G.length := by
  have hne := hf.cinv.ne
  unfold buildRoot buildRootN
  rw [hd.size_eq]
  rcases hf.den with ⟨ha, hr0, hg⟩ | ⟨g, hs, hden⟩
  · rw [hg, if_neg (by simp), if_neg (by simp)]
    refine ⟨0, rfl, by omega, ?_⟩
    intro db h
    cases h
    exact ⟨1, ex0, [], rootPend, e2, by omega⟩
  · have hgl := List.length_pos_iff.2 (hne g hs.mem)
    have hfl := groups_le_flatten hne
    have hgs : 0 < c.groups.length := List.length_pos_iff.2 (List.ne_nil_of_mem hs.mem)
    rw [if_pos (by omega), if_pos (by omega), show d.root = 0 from rfl]
    have hdep := depth_bound hf.cinv hs.mem hden
    obtain ⟨db, ok, n, ⟨a1, a1', a1''⟩, a2⟩ := callSpec hd hf (c.groups.flatten.length + 1 + 1) e2 ht0 (.inl ⟨rfl, rfl, rfl⟩) (w := 1024) rfl (.inr ⟨rfl, rfl⟩)
      hd.isLeaf_root (hd.child_root hf) hs hden (by intro e he; have := hdep e he; omega) hv
    rw [a1, a1']
    refine ⟨n, rfl, a1'', ?_⟩
    intro db1 h
    cases h
    rcases a2 with ⟨h, _⟩ | ⟨_, B', ex', G', b1, b2, ⟨pre, b3, b3', _⟩, b4, _⟩
    · cases h
    · refine ⟨B', ex', G', _, b1, ?_⟩
      rw [b3, List.append_nil]; exact b3'

/-- Every arranged state uses a unit of its own. -/
theorem UInv.arranged_le {c r units B F G pend num} (h : UInv c r units B F G pend num) (hF : F = 256 * B) (hB : 1 ≤ B) (hne : ∀ g ∈ c.groups, g ≠ []) :
    G.length + 1 + num ≤ units.length := by
  classical
  have hk : ∀ x ∈ G, ∃ u q, Kid c G u x q := by
    intro x hx
    obtain ⟨_, _, g, hg⟩ := h.offs x hx
    have he : grp c x.2 = g := hg.groupAt hne
    obtain ⟨q, hq⟩ := List.exists_mem_of_ne_nil _ (hne _ hg.mem)
    exact ⟨_, q, hx, by rw [he]; exact hq, rfl⟩
  have hnd : G.Nodup := List.Pairwise.of_map (S := (· ≠ ·)) Prod.fst (by intro a b hab hc; exact hab (by rw [hc])) h.nodup
  let f : Nat × Nat → Nat := fun x => if hx : ∃ u q, Kid c G u x q then hx.choose else 0
  have hfs : ∀ x ∈ G, ∃ q, Kid c G (f x) x q := by
    intro x hx
    have h1 := hk x hx
    simp only [f, dif_pos h1]
    exact h1.choose_spec
  have h1 : (G.map f).Nodup := by
    rw [List.Nodup, List.pairwise_map]
    refine hnd.imp_of_mem ?_
    intro a b ha hb hab hc
    obtain ⟨q, hq⟩ := hfs a ha
    obtain ⟨q', hq'⟩ := hfs b hb
    rw [hc] at hq
    exact hab (h.disj hq hq').1
  have h2 : ((List.range (256 * B)).filter (fun u => decide (Unplaced c G u))).length = num := by
    rw [h.num, hF, unplacedBelow, List.countP_eq_length_filter]
  have h3 : (0 :: (G.map f ++ (List.range (256 * B)).filter (fun u => decide (Unplaced c G u)))).Nodup := by
    rw [List.nodup_cons]
    refine ⟨?_, ?_⟩
    · intro hm
      rcases List.mem_append.1 hm with hm | hm
      · obtain ⟨x, hx, h4⟩ := List.mem_map.1 hm
        obtain ⟨q, hq⟩ := hfs x hx
        exact h.nz hq h4
      · have := (List.mem_filter.1 hm).2
        simp only [decide_eq_true_eq] at this
        exact this.1 rfl
    · rw [List.nodup_append]
      refine ⟨h1, List.Nodup.sublist List.filter_sublist List.nodup_range, ?_⟩
      intro a ha b hb hab
      obtain ⟨x, hx, h4⟩ := List.mem_map.1 ha
      obtain ⟨q, hq⟩ := hfs x hx
      have := (List.mem_filter.1 hb).2
      simp only [decide_eq_true_eq] at this
      exact this.2 ⟨x, q, by rw [← hab, ← h4]; exact hq⟩
  have h4 := List.Nodup.length_le_of_subset h3 (l₂ := List.range (256 * B)) (by
    intro u hu
    rw [List.mem_range]
    rcases List.mem_cons.1 hu with rfl | hu
    · omega
    · rcases List.mem_append.1 hu with hu | hu
      · obtain ⟨x, hx, h4⟩ := List.mem_map.1 hu
        obtain ⟨q, hq⟩ := hfs x hx
        rw [← h4]
        exact h.kid_lt hq
      · exact List.mem_range.1 (List.mem_filter.1 hu).1)
  rw [List.length_cons, List.length_append, List.length_map, h2, List.length_range] at h4
  rw [h.len]
  omega

/-- The number of places tried while a dictionary is built. -/
theorem buildDictionaryN_spec {d : Dawg} {c r acc} (hd : DawgIs d c r) (hf : FinalCore c r acc) (hv : ∀ e ∈ acc, e.2 < 2147483648) :
    ∃ n, buildDictionaryN d = (do let x ← buildDictionary d; .ok (x, n)) ∧ n ≤ 4096 * msize acc ∧
      ∀ db, buildDictionary d = .ok (db, true) → n + 4096 * (db.numOfUnusedUnits + 1) ≤ 4096 * db.units.length := by
  have hne := hf.cinv.ne
  obtain ⟨N, hN⟩ := hf.nodes
  have hmk : c.marked.length ≤ 1073741824 := by
    have h1 := List.Nodup.length_le_of_subset hN.markedNodup (l₂ := List.range (poolLen c.groups)) (by
      intro s hs
      rw [List.mem_range]
      exact starts_lt hne (hN.markedSub s hs))
    rw [List.length_range] at h1
    have := hf.small
    omega
  have hhalf : c.marked.length >>> 1 = c.marked.length / 2 := by rw [Nat.shiftRight_eq_div_pow]
  obtain ⟨db0, ex0, e1, e2, e3⟩ := init_spec c r (LinkTable.new (d.numOfMergingStates + (d.numOfMergingStates >>> 1)))
  have ht0 : TInv c db0.linkTable [] := by
    rw [e3, hd.merging, hhalf]
    refine ⟨fun _ => 0, [], LinkInv.new (by omega), by simp, by simp, ?_⟩
    simp [LinkTable.new]
  simp only [] at e1
  obtain ⟨n, k1, k2, k3⟩ := buildRootN_spec hd hf hv e2 ht0
  have hsplit : ∀ {α} (k : DictBuilder → Go α), (do
      let db ← ({ DictBuilder.new with linkTable := LinkTable.new (d.numOfMergingStates + (d.numOfMergingStates >>> 1)) } : DictBuilder).reserveUnit 0
      let db ← db.modExtra 0 ExtraUnit.setIsUsed
      let db ← db.modUnit 0 (fun u => (dictSetOffset u 1).getD u)
      let db ← db.modUnit 0 (fun u => dictSetLabel u 0)
      k db) = k db0 := by
    intro α k
    have := congrArg (· >>= k) e1
    simpa only [bind_assoc, ok_bind] using this
  have hfirst : buildDictionary d = (do
      let (db, ok) ← buildRoot d db0
      if !ok then return (db, false)
      let db ← db.fixAllBlocks
      return (db, true)) := by
    unfold buildDictionary
    exact hsplit _
  have hfirstN : buildDictionaryN d = (do
      let ((db, ok), n) ← buildRootN d db0
      if !ok then return ((db, false), n)
      let db ← db.fixAllBlocks
      return ((db, true), n)) := by
    unfold buildDictionaryN
    exact hsplit _
  rw [hfirst, hfirstN, k1]
  refine ⟨n, ?_, k2, ?_⟩
  · cases hb : buildRoot d db0 with
    | error e => rfl
    | ok x =>
      obtain ⟨db, ok⟩ := x
      cases ok with
      | false => rfl
      | true =>
        simp only [ok_bind, Bool.not_true, Bool.false_eq_true, if_false]
        cases db.fixAllBlocks <;> rfl
  · intro db h
    cases hb : buildRoot d db0 with
    | error e => rw [hb] at h; cases h
    | ok x =>
      obtain ⟨db1, ok⟩ := x
      rw [hb] at h
      cases ok with
      | false => cases h
      | true =>
        simp only [ok_bind, Bool.not_true, Bool.false_eq_true, if_false] at h
        obtain ⟨B, ex, G, pend, f1, f2⟩ := k3 db1 hb
        obtain ⟨db2, f3, f4⟩ := fixAll_spec f1 hne
        rw [f3] at h
        cases h
        have := f4.arranged_le rfl f1.pos hne
        omega

end Dawg.Dict
