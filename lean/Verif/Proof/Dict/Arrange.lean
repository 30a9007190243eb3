import Verif.Proof.Dict.Place
/-! # `arrangeChildNodes` keeps the invariant -/
namespace Dawg.Dict
attribute [-simp] List.length_flatten
open Dawg.Abs DictBuilder

/-- The pending units after the children of `u` have been placed at offset `o`. -/
def pendNew (u o : Nat) (g : Group) (pend : Nat → Option Nat) : Nat → Option Nat := fun i =>
  if i = u then none
  else match g.find? (fun q => i == o ^^^ q.1.toNat) with
    | some q => if q.1 = 0 then none else some q.1.toNat
    | none => pend i

theorem pendNew_self (u o : Nat) (g : Group) (pend) : pendNew u o g pend u = none := by simp [pendNew]

theorem pendNew_kid {u o : Nat} {g : Group} (pend : Nat → Option Nat) {q : Pair} (hq : q ∈ g) (hne : o ^^^ q.1.toNat ≠ u) :
    pendNew u o g pend (o ^^^ q.1.toNat) = if q.1 = 0 then none else some q.1.toNat := by
  unfold pendNew
  rw [if_neg hne]
  cases hf : g.find? (fun q' => o ^^^ q.1.toNat == o ^^^ q'.1.toNat) with
  | none =>
    have := List.find?_eq_none.1 hf q hq
    simp at this
  | some q' =>
    have h1 := List.find?_some hf
    have h2 : q.1 = q'.1 := UInt8.toNat_inj.1 (xor_left_cancel (by simpa using h1))
    simp only [h2]

theorem pendNew_other {u o : Nat} {g : Group} (pend : Nat → Option Nat) {i : Nat} (hi : i ≠ u) (hk : ∀ q ∈ g, i ≠ o ^^^ q.1.toNat) :
    pendNew u o g pend i = pend i := by
  unfold pendNew
  rw [if_neg hi]
  have : g.find? (fun q => i == o ^^^ q.1.toNat) = none := by
    rw [List.find?_eq_none]
    intro q hq; simpa using hk q hq
  rw [this]

/-- The words a pending unit can hold. -/
def PW (l : UInt8) (w : Nat) : Prop := w = l.toNat ∨ (l = 0 ∧ w = 1024)

theorem PW.mask {l w} (h : PW l w) : w &&& (isLeafBit ||| hasLeafBit ||| 255) = l.toNat + (if false then 256 else 0) := by
  rcases h with rfl | ⟨rfl, rfl⟩
  · have := mask_label l false
    simpa using this
  · exact mask_root false

theorem PW.maskLeaf {l w} (h : PW l w) : dictSetHasLeaf w &&& (isLeafBit ||| hasLeafBit ||| 255) = l.toNat + (if true then 256 else 0) := by
  rcases h with rfl | ⟨rfl, rfl⟩
  · have := mask_label l true
    have hl := label_lt l
    rw [setHasLeaf_eq (by omega)]
    simpa using this
  · exact mask_root true

/-- Placing the children of `u` and marking the offset. -/
theorem DInv.placeAll {d : Dawg} {c r acc s g} (hd : DawgIs d c r) (hf : FinalCore c r acc) (hs : IsStart c.groups s g)
    (hval : ∀ q ∈ g, q.1 = 0 → baseValue q.2 < 2147483648)
    {db B ex G pend u o l} (h : DInv c r db B ex G pend) (hp : PendAt c r G u l s) (hpw : pend u = some (nodeWord l false (u ^^^ o)))
    (huw : db.units[u]? = some (nodeWord l false (u ^^^ o)))
    (henc : Enc (u ^^^ o)) (ho : Win B o) (hused : (ex o).isUsed = false) (hfree : ∀ q ∈ g, (ex (o ^^^ q.1.toNat)).isFixed = false) :
    ∃ db' ex', (do let db ← placeKids d u o ((List.range' 0 g.length).map (s + ·)) db
                   let db ← db.modExtra o ExtraUnit.setIsUsed
                   return (db, o) : Go (DictBuilder × Nat)) = .ok (db', o) ∧
      o ≠ 0 ∧ DInv c r db' B ex' ((o, s) :: G) (pendNew u o g pend) ∧ db'.linkTable = db.linkTable := by
  have hne := hf.cinv.ne
  have hgrp : grp c s = g := hs.groupAt hne
  have hou := h.w.used o ho
  rw [hused] at hou
  simp only [Bool.false_eq_true, false_iff, not_or] at hou
  obtain ⟨ho0, hoG⟩ := hou
  have hwin : ∀ q : Pair, Win B (o ^^^ q.1.toNat) := fun q => ho.xor (label_lt _)
  have hunp : ∀ q ∈ g, Unplaced c G (o ^^^ q.1.toNat) := fun q hq => ((h.w.free_iff (hwin q)).1 (hfree q hq)).2
  have hkne : ∀ q ∈ g, o ^^^ q.1.toNat ≠ u := by
    rintro q hq rfl
    exact hp.not_unplaced (hunp q hq)
  obtain ⟨us, xs, uf, ex1, e1, E1, F1, a1, a2, a3, a4, a5⟩ := placeKids_spec hd hs h.le ho hval (hf.cinv.asc _ hs.mem) g.length 0 db ex _
    (by omega) h.ext h.fl huw (by
      intro q hq
      rw [List.drop_zero] at hq
      exact ⟨⟨hwin q, hfree q hq⟩, h.u.free (h.win_lt (hwin q)) (hwin q).1 (hunp q hq), hkne q hq⟩)
  rw [List.drop_zero] at a1 a3 a4 a5
  obtain ⟨xs2, e2, E2⟩ := EX.modExtra (db := { db with units := us, extras := xs, unfixedIndex := uf }) E1 ho ExtraUnit.setIsUsed
  refine ⟨{ db with units := us, extras := xs2, unfixedIndex := uf }, upd ex1 o (ex1 o).setIsUsed, ?_, ho0, ⟨E2, ?_, ?_, ?_, h.pos, h.le⟩, rfl⟩
  · rw [e1]; simp only [ok_bind, e2, pure_eq_ok]
  · -- free list
    have hn : ∀ i, (upd ex1 o (ex1 o).setIsUsed i).next = (ex1 i).next ∧ (upd ex1 o (ex1 o).setIsUsed i).prev = (ex1 i).prev ∧
        (upd ex1 o (ex1 o).setIsUsed i).isFixed = (ex1 i).isFixed := by
      intro i
      by_cases hi : i = o
      · subst hi; rw [upd_same]; exact ⟨next_setIsUsed _, prev_setIsUsed _, isFixed_setIsUsed _⟩
      · rw [upd_ne _ _ hi]; exact ⟨rfl, rfl, rfl⟩
    have hfr : ∀ i, Free B (upd ex1 o (ex1 o).setIsUsed) i ↔ Free B ex1 i := by
      intro i; unfold Free; rw [(hn i).2.2]
    refine ⟨?_, ?_, ?_, ?_, ?_⟩
    · rcases F1.head with h1 | h1
      · exact .inl h1
      · exact .inr ((hfr _).2 h1)
    · intro i hi; rw [(hn i).1]; exact (hfr _).2 (F1.next i ((hfr i).1 hi))
    · intro i hi; rw [(hn i).2.1]; exact (hfr _).2 (F1.prev i ((hfr i).1 hi))
    · intro i hi; rw [(hn i).1, (hn _).2.1]; exact F1.np i ((hfr i).1 hi)
    · intro i hi; rw [(hn i).2.1, (hn _).1]; exact F1.pn i ((hfr i).1 hi)
  · -- units
    apply h.u.place hs hne hp (by rw [hpw]; simp) ho0 _ ho.1 (fun x hx he => hoG ⟨x.2, by rw [← he]; exact hx⟩) (hf.cinv.asc _ hs.mem) hunp henc
      (by simp only []; rw [E1.units, h.ext.units])
    · simp only []
      rw [a4]
      unfold hasEmpty
      rw [hgrp]
      cases hany : g.any (fun q => q.1 == 0) with
      | true => rw [if_pos rfl, nodeWord_setHasLeaf _ _ henc]
      | false => rfl
    · exact a3
    · exact a5
    · exact pendNew_self _ _ _ _
    · exact fun q hq => pendNew_kid _ hq (hkne q hq)
    · exact fun i h1 h2 => pendNew_other _ h1 h2
    · have := h.win_lt ho; omega
  · -- window
    have hiskid : ∀ v, IsKid c ((o, s) :: G) v ↔ (∃ q ∈ g, v = o ^^^ q.1.toNat) ∨ IsKid c G v := by
      intro v
      unfold IsKid Kid
      constructor
      · rintro ⟨x, q, h1, h2, h3⟩
        rcases List.mem_cons.1 h1 with rfl | h1
        · exact .inl ⟨q, by rw [← hgrp]; exact h2, h3⟩
        · exact .inr ⟨x, q, h1, h2, h3⟩
      · rintro (⟨q, h1, h2⟩ | ⟨x, q, h1, h2, h3⟩)
        · exact ⟨(o, s), q, by simp, by rw [hgrp]; exact h1, h2⟩
        · exact ⟨x, q, List.mem_cons_of_mem _ h1, h2, h3⟩
    constructor
    · intro v hv
      have h1 : (upd ex1 o (ex1 o).setIsUsed v).isFixed = (ex1 v).isFixed := by
        by_cases hi : v = o
        · subst hi; rw [upd_same]; exact isFixed_setIsUsed _
        · rw [upd_ne _ _ hi]
      rw [h1, a1, h.w.fixed v hv, hiskid]
      constructor
      · rintro ((h2 | h2 | h2) | h2)
        · exact .inl h2
        · exact .inr (.inl h2)
        · exact .inr (.inr (.inr h2))
        · exact .inr (.inr (.inl h2))
      · rintro (h2 | h2 | h2 | h2)
        · exact .inl (.inl h2)
        · exact .inl (.inr (.inl h2))
        · exact .inr h2
        · exact .inl (.inr (.inr h2))
    · intro v hv
      by_cases hi : v = o
      · subst hi
        rw [upd_same]
        simp only [isUsed_setIsUsed, true_iff]
        exact .inr ⟨s, by simp⟩
      · rw [upd_ne _ _ hi, a2, h.w.used v hv]
        constructor
        · rintro (h2 | ⟨t, h2⟩)
          · exact .inl h2
          · exact .inr ⟨t, List.mem_cons_of_mem _ h2⟩
        · rintro (h2 | ⟨t, h2⟩)
          · exact .inl h2
          · rcases List.mem_cons.1 h2 with h3 | h3
            · exact absurd (Prod.mk.inj h3).1 hi
            · exact .inr ⟨t, h3⟩

/-- When the children go to the next block, the first reservation adds it. -/
theorem placeKids_grow {d : Dawg} {u o : Nat} {k : Nat} {ks : List Nat} {db db2 : DictBuilder} {l : UInt8} (hl : d.label k = .ok l)
    (h1 : db.numOfUnits ≤ o ^^^ l.toNat) (h2 : db.expandDictionary = .ok db2) (h3 : o ^^^ l.toNat < db2.numOfUnits) :
    placeKids d u o (k :: ks) db = placeKids d u o (k :: ks) db2 := by
  have hr : db.reserveUnit (o ^^^ l.toNat) = db2.reserveUnit (o ^^^ l.toNat) := by
    rw [reserveUnit_of_lt db2 _ h3, DictBuilder.reserveUnit, DictBuilder.growFor, if_pos h1, h2]
    rfl
  rw [placeKids, placeKids, hl]
  simp only [ok_bind, hr]

theorem arrange_spec {d : Dawg} {c r acc s g} (hd : DawgIs d c r) (hf : FinalCore c r acc) (hs : IsStart c.groups s g)
    (hval : ∀ q ∈ g, q.1 = 0 → baseValue q.2 < 2147483648)
    {db B ex G pend u l w dawgIndex} (h : DInv c r db B ex G pend) (hp : PendAt c r G u l s) (hpw : pend u = some w) (hw : PW l w)
    (hch : d.child dawgIndex = .ok s) :
    (B = 2097152 ∧ ∃ db', arrangeChildNodes d db dawgIndex u = .ok (db', 0) ∧ db'.units = db.units) ∨
    ∃ db' B' ex' o, arrangeChildNodes d db dawgIndex u = .ok (db', o) ∧ o ≠ 0 ∧ DInv c r db' B' ex' ((o, s) :: G) (pendNew u o g pend) ∧ B ≤ B' ∧ B' ≤ B + 1 ∧
      db'.linkTable = db.linkTable := by
  have hne := hf.cinv.ne
  have hs0 : s ≠ 0 := Nat.pos_iff_ne_zero.1 hs.pos
  have hkids : dawgKids d dawgIndex = .ok ((List.range' 0 g.length).map (s + ·)) := by
    unfold dawgKids
    rw [hch]
    simp only [ok_bind]
    rw [if_neg hs0]
    exact chain_full hd hf hs
  have hlabels := collect_spec hd hs g.length 0 (by omega)
  rw [List.drop_zero] at hlabels
  have hgne := hne g hs.mem
  -- where `u` is
  have huw : db.units[u]? = some w := by
    rcases hp with ⟨rfl, _⟩ | ⟨x, q, hk, h1, h2, _⟩
    · rcases h.u.root with ⟨w', h1, h2⟩ | ⟨h1, _⟩
      · rw [hpw] at h1; cases h1; exact h2
      · rw [hpw] at h1; cases h1
    · rcases h.u.node hk (by rw [h1]; exact h2) with ⟨w', h3, h4⟩ | ⟨h3, _⟩
      · rw [hpw] at h3; cases h3; exact h4
      · rw [hpw] at h3; cases h3
  have hul : u < 256 * B := by rw [← h.ext.units]; exact (List.getElem?_eq_some_iff.1 huw).1
  have hul' : u < db.units.length := by rw [h.ext.units]; exact hul
  have h' : DInv c r { db with labels := g.map Prod.fst } B ex G pend := ⟨h.ext, h.fl, h.u, h.w, h.pos, h.le⟩
  obtain ⟨o, ⟨e1, _⟩, e2⟩ := findGoodOffset_spec h.le h'.ext h'.fl (index := u) (by simpa using hgne) hul
  have hle := h.le
  -- the part after the choice of the offset
  have hunf : ∀ res, dictSetOffset w (u ^^^ o) = res → arrangeChildNodes d db dawgIndex u = (match res with
      | none => .ok ({ db with labels := g.map Prod.fst }, 0)
      | some u' => (do
        let db ← placeKids d u o ((List.range' 0 g.length).map (s + ·)) { db with labels := g.map Prod.fst, units := db.units.set u u' }
        let db ← db.modExtra o ExtraUnit.setIsUsed
        return (db, o) : Go (DictBuilder × Nat))) := by
    intro res hres
    unfold arrangeChildNodes
    simp only [hkids, hlabels, ok_bind, e1, rd_some huw, hres]
    cases res with
    | none => rfl
    | some u' => simp only [wr_lt hul', ok_bind]
  by_cases henc : Enc (u ^^^ o)
  · have hset := setOffset_eq l false hw.mask henc
    rw [hunf _ hset]
    -- the state with the offset written
    have h2 : DInv c r { db with labels := g.map Prod.fst, units := db.units.set u (nodeWord l false (u ^^^ o)) } B ex G
        (fun i => if i = u then some (nodeWord l false (u ^^^ o)) else pend i) := by
      refine ⟨⟨by simpa using h.ext.units, h.ext.len, h.ext.get⟩, h.fl, ?_, h.w, h.pos, h.le⟩
      exact h.u.set (w' := nodeWord l false (u ^^^ o)) hpw (by simp [hul']) (by intro j hj; simp [List.getElem?_set, Ne.symm hj]) (by simp) (by intro j hj; simp [hj]) (by simp)
    have hpn : ∀ o', pendNew u o' g (fun i => if i = u then some (nodeWord l false (u ^^^ o)) else pend i) = pendNew u o' g pend := by
      intro o'
      funext i
      unfold pendNew
      by_cases hi : i = u
      · rw [if_pos hi, if_pos hi]
      · rw [if_neg hi, if_neg hi]; simp only [if_neg hi]
    right
    rcases e2 with e2 | ⟨e3, e4, _, e5⟩
    · -- next block
      have hB : B < 2097152 := by
        refine Nat.lt_of_le_of_ne hle fun hB => ?_
        have h3 := henc.1
        have h4 : (u ^^^ o) ^^^ u < 2 ^ 29 := Nat.xor_lt_two_pow (by omega) (by omega)
        rw [Nat.xor_comm u o, Nat.xor_assoc, Nat.xor_self, Nat.xor_zero] at h4
        omega
      obtain ⟨db2, ex2, f1, f2, f3, f4⟩ := h2.expand hne hB
      have ho : Win (B + 1) o := ⟨by omega, by omega⟩
      have hge : ∀ q : Pair, 256 * B ≤ o ^^^ q.1.toNat := fun q => (xor_ge_of_block (label_lt _)).2 (by omega)
      obtain ⟨db', ex', k1, k2, k3, k4⟩ := f2.placeAll hd hf hs hval (u := u) (o := o) (l := l) hp (by simp) (by
          have hpp := hp
          rcases hp with ⟨rfl, _⟩ | ⟨x, q, hk, h1, h2, _⟩
          · rcases f2.u.root with ⟨w', h1, h2⟩ | ⟨h1, _⟩
            · simp only [if_true, Option.some.injEq] at h1; rw [h2, ← h1]
            · simp at h1
          · rcases f2.u.node hk (by rw [h1]; exact h2) with ⟨w', h3, h4⟩ | ⟨h3, _⟩
            · simp only [if_true, Option.some.injEq] at h3; rw [h4, ← h3]
            · simp at h3) henc ho
        (by
          cases hfu : (ex2 o).isUsed with
          | false => rfl
          | true =>
            rcases (f2.w.used o ho).1 hfu with h3 | ⟨t, h3⟩
            · have := h.pos; omega
            · have := (h.u.offs _ h3).2.1; simp only [] at this; omega)
        (by
          intro q hq
          cases hfx : (ex2 (o ^^^ q.1.toNat)).isFixed with
          | false => rfl
          | true =>
            have := hge q
            have hpos := h.pos
            rcases (f2.w.fixed _ (ho.xor (label_lt _))).1 hfx with h3 | h3 | ⟨x, q', h3⟩
            · omega
            · omega
            · have := h.u.kid_lt h3; omega)
      refine ⟨db', B + 1, ex', o, ?_, k2, ?_, by omega, by omega, ?_⟩
      · rw [← k1]
        simp only []
        have hcons : (List.range' 0 g.length).map (s + ·) = (s + 0) :: (List.range' 1 (g.length - 1)).map (s + ·) := by
          obtain ⟨n, hn⟩ : ∃ n, g.length = n + 1 := ⟨g.length - 1, by have := List.length_pos_iff.2 hgne; omega⟩
          rw [hn, List.range'_succ]; simp
        rw [hcons, placeKids_grow (l := (g[0]'(List.length_pos_iff.2 hgne)).1) (hd.label_at hs (by simp)) ?_ f1 ?_]
        · unfold DictBuilder.numOfUnits
          simp only [List.length_set]
          rw [h.ext.units, u32_of_lt (by omega)]
          exact hge _
        · unfold DictBuilder.numOfUnits
          rw [f2.ext.units, u32_of_lt (by omega)]
          exact (xor_lt_of_block (label_lt _)).2 ho.1
      · rw [← hpn]; exact k3
      · rw [k4, f3]
    · -- in the window
      obtain ⟨db', ex', k1, k2, k3, k4⟩ := h2.placeAll hd hf hs hval (u := u) (o := o) (l := l) hp (by simp) (by simp [hul']) henc e3 e4
        (by
          intro q hq
          exact e5 q.1 (List.mem_map_of_mem hq))
      refine ⟨db', B, ex', o, k1, k2, ?_, Nat.le_refl _, by omega, k4⟩
      rw [← hpn]; exact k3
  · rcases e2 with e2 | ⟨_, _, e5, _⟩
    · left
      have hmod : (u ^^^ o) % 256 = 0 := by
        rw [xor_mod, show o % 256 = u % 256 by omega]; simp
      have hge : 536870912 ≤ u ^^^ o := by
        refine Classical.byContradiction fun hlt => henc ⟨by omega, .inr hmod⟩
      have hB : B = 2097152 := by
        refine Nat.le_antisymm hle (Nat.not_lt.1 fun hB => ?_)
        have : u ^^^ o < 2 ^ 29 := Nat.xor_lt_two_pow (by omega) (by omega)
        omega
      exact ⟨hB, _, hunf _ (setOffset_none hge), rfl⟩
    · exact absurd e5 henc

/-- Arranging a state tries at most 4096 places. -/
theorem arrangeN_spec {d : Dawg} {c r acc s g} (hd : DawgIs d c r) (hf : FinalCore c r acc) (hs : IsStart c.groups s g)
    {db B ex G pend u l w dawgIndex} (h : DInv c r db B ex G pend) (hp : PendAt c r G u l s) (hpw : pend u = some w)
    (hch : d.child dawgIndex = .ok s) :
    ∃ n, n ≤ 4096 ∧ arrangeChildNodesN d db dawgIndex u = (do let x ← arrangeChildNodes d db dawgIndex u; .ok (x, n)) := by
  have hne := hf.cinv.ne
  have hs0 : s ≠ 0 := Nat.pos_iff_ne_zero.1 hs.pos
  have hkids : dawgKids d dawgIndex = .ok ((List.range' 0 g.length).map (s + ·)) := by
    unfold dawgKids
    rw [hch]
    simp only [ok_bind]
    rw [if_neg hs0]
    exact chain_full hd hf hs
  have hlabels := collect_spec hd hs g.length 0 (by omega)
  rw [List.drop_zero] at hlabels
  have hgne := hne g hs.mem
  have huw : db.units[u]? = some w := by
    rcases hp with ⟨rfl, _⟩ | ⟨x, q, hk, h1, h2, _⟩
    · rcases h.u.root with ⟨w', h1, h2⟩ | ⟨h1, _⟩
      · rw [hpw] at h1; cases h1; exact h2
      · rw [hpw] at h1; cases h1
    · rcases h.u.node hk (by rw [h1]; exact h2) with ⟨w', h3, h4⟩ | ⟨h3, _⟩
      · rw [hpw] at h3; cases h3; exact h4
      · rw [hpw] at h3; cases h3
  have hul : u < 256 * B := by rw [← h.ext.units]; exact (List.getElem?_eq_some_iff.1 huw).1
  have hul' : u < db.units.length := by rw [h.ext.units]; exact hul
  have h' : DInv c r { db with labels := g.map Prod.fst } B ex G pend := ⟨h.ext, h.fl, h.u, h.w, h.pos, h.le⟩
  obtain ⟨o, ⟨e1, n, e3, e4⟩, _⟩ := findGoodOffset_spec h.le h'.ext h'.fl (index := u) (by simpa using hgne) hul
  refine ⟨n, e4, ?_⟩
  unfold arrangeChildNodesN arrangeChildNodes
  simp only [hkids, hlabels, ok_bind, e1, e3, rd_some huw]
  cases dictSetOffset w (u ^^^ o) with
  | none => rfl
  | some u' =>
    simp only [wr_lt hul', ok_bind, bind_assoc]
    rfl

end Dawg.Dict
