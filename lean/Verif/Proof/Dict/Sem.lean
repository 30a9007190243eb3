import Verif.Proof.Dict.Finish
/-! # What the finished dictionary answers -/
namespace Dawg.Dict
attribute [-simp] List.length_flatten
open Dawg.Abs Dawg.Spec

/-- A finished dictionary with at least one key. -/
structure DSem (c : Core) (r : Nat) (acc : Lang) (D : Dictionary) (B : Nat) (G : List (Nat × Nat)) (num : Nat) : Prop where
  u : UInv c r D.units B (256 * B) G (fun _ => none) num
  pos : 1 ≤ B
  le : B ≤ 2097152
  core : FinalCore c r acc
  val : ∀ e ∈ acc, e.2 < 2147483648

/-- Unit `u` points to the arrangement at `o` of the state `s` with language `L`. -/
structure Node (c : Core) (G : List (Nat × Nat)) (D : Dictionary) (u o s : Nat) (g : Group) (L : Lang) : Prop where
  mem : (o, s) ∈ G
  enc : Enc (u ^^^ o)
  word : ∃ l, D.units[u]? = some (nodeWord l (hasEmpty c s) (u ^^^ o))
  start : IsStart c.groups s g
  den : DenG c.groups g L
  placed : u = 0 ∨ IsKid c G u

theorem nodup_fst : ∀ {G : List (Nat × Nat)}, (G.map Prod.fst).Nodup → ∀ {o s s' : Nat}, (o, s) ∈ G → (o, s') ∈ G → s = s'
  | [], _, _, _, _, h, _ => by simp at h
  | x :: G, hnd, o, s, s', h, h' => by
    rw [List.map_cons, List.nodup_cons] at hnd
    rcases List.mem_cons.1 h with h1 | h1 <;> rcases List.mem_cons.1 h' with h2 | h2
    · rw [← h1] at h2; simpa using h2.symm
    · exact absurd (List.mem_map.2 ⟨_, h2, by rw [← h1]⟩) hnd.1
    · exact absurd (List.mem_map.2 ⟨_, h1, by rw [← h2]⟩) hnd.1
    · exact nodup_fst hnd.2 h1 h2

section
variable {c : Core} {r : Nat} {acc : Lang} {D : Dictionary} {B : Nat} {G : List (Nat × Nat)} {num : Nat}

theorem DSem.ne (h : DSem c r acc D B G num) : ∀ g ∈ c.groups, g ≠ [] := h.core.cinv.ne

theorem DSem.lt (h : DSem c r acc D B G num) {u : Nat} (hu : u < 256 * B) : ∃ w, D.units[u]? = some w := by
  have : u < D.units.length := by rw [h.u.len]; exact hu
  exact ⟨D.units[u], by simp [this]⟩

theorem DSem.off_lt (h : DSem c r acc D B G num) {o s : Nat} (ho : (o, s) ∈ G) : o < 256 * B := (h.u.offs _ ho).2.1

theorem DSem.root (h : DSem c r acc D B G num) (hne : acc ≠ []) : ∃ o g, Node c G D 0 o r g acc := by
  rcases h.u.root with ⟨w, h1, _⟩ | ⟨_, o, h2, h3, h4⟩
  · cases h1
  · rcases h.core.den with ⟨h5, _⟩ | ⟨g, h5, h6⟩
    · exact absurd h5 hne
    · exact ⟨o, g, h2, h3, ⟨0, h4⟩, h5, h6, .inl rfl⟩

theorem DSem.kidNode (h : DSem c r acc D B G num) {o s : Nat} {g : Group} {L : Lang} (ho : (o, s) ∈ G) (hs : IsStart c.groups s g)
    (hL : DenG c.groups g L) {q : Pair} (hq : q ∈ g) (h0 : q.1 ≠ 0) :
    ∃ o' g', Node c G D (o ^^^ q.1.toNat) o' (baseChild q.2) g' (residual L [q.1]) ∧
      ∃ hl off, D.units[o ^^^ q.1.toNat]? = some (nodeWord q.1 hl off) ∧ Enc off := by
  have hk : Kid c G (o ^^^ q.1.toNat) (o, s) q := ⟨ho, by rw [show grp c (o, s).2 = g from hs.groupAt h.ne]; exact hq, rfl⟩
  obtain ⟨g', h1, h2⟩ := hL.child (h.core.cinv.asc _ hs.mem) hq h0
  rcases h.u.node hk h0 with ⟨w, h3, _⟩ | ⟨_, o', h3, h4, h5⟩
  · cases h3
  · exact ⟨o', g', ⟨h3, h4, ⟨_, h5⟩, h1, h2, .inr ⟨_, _, hk⟩⟩, _, _, h5, h4⟩

/-- The value of a state is one of the values of the keys. -/
theorem DSem.leaf_val (h : DSem c r acc D B G num) {s : Nat} {g : Group} (hs : IsStart c.groups s g) {q : Pair} (hq : q ∈ g) (h0 : q.1 = 0) :
    ∃ k, (k, baseValue q.2) ∈ acc := by
  obtain ⟨L, hL⟩ := h.core.cinv.den g hs.mem
  obtain ⟨_, p, rfl⟩ := h.core.group_lang hs.mem hL
  have : ∀ {g : Group} {L : Lang}, DenG c.groups g L → q ∈ g → (([] : Key), baseValue q.2) ∈ L := by
    intro g L hL hq
    induction hL with
    | nil => simp at hq
    | leaf _ ih =>
      rcases List.mem_cons.1 hq with rfl | hq
      · exact List.mem_cons_self
      · exact List.mem_cons_of_mem _ (ih hq)
    | node hl _ _ _ _ ih =>
      rcases List.mem_cons.1 hq with rfl | hq
      · exact absurd h0 hl
      · exact List.mem_append_right _ (ih hq)
  have := this hL hq
  rw [mem_residual] at this
  exact ⟨_, this⟩

theorem DenG.nil_mem {gs g L} (h : DenG gs g L) {v : Nat} : (([] : Key), v) ∈ L ↔ ∃ b, ((0 : UInt8), b) ∈ g ∧ baseValue b = v := by
  induction h with
  | nil => simp
  | @leaf b rest L _ ih =>
    rw [List.mem_cons, ih]
    constructor
    · rintro (h | ⟨b', h1, h2⟩)
      · simp only [Prod.mk.injEq, true_and] at h; exact ⟨b, List.mem_cons_self, h.symm⟩
      · exact ⟨b', List.mem_cons_of_mem _ h1, h2⟩
    · rintro ⟨b', h1, h2⟩
      rcases List.mem_cons.1 h1 with h1 | h1
      · simp only [Prod.mk.injEq, true_and] at h1; subst h1; left; rw [h2]
      · exact .inr ⟨b', h1, h2⟩
  | @node l b g' L' rest L hl _ _ _ _ ih =>
    rw [List.mem_append, ih]
    constructor
    · rintro (h | ⟨b', h1, h2⟩)
      · obtain ⟨e, _, he⟩ := List.mem_map.1 h
        simp [pre] at he
      · exact ⟨b', List.mem_cons_of_mem _ h1, h2⟩
    · rintro ⟨b', h1, h2⟩
      rcases List.mem_cons.1 h1 with h1 | h1
      · simp only [Prod.mk.injEq] at h1; exact absurd h1.1.symm hl
      · exact .inr ⟨b', h1, h2⟩

/-- A state without a transition for `l` has no key starting with `l`. -/
theorem DenG.residual_eq_nil {gs g L} (h : DenG gs g L) {l : UInt8} (hl : ∀ q ∈ g, q.1 ≠ l) : residual L [l] = [] :=
  residual_none (h.not_head hl)

theorem DenG.residual_zero {gs g L} (h : DenG gs g L) : residual L [(0 : UInt8)] = [] := by
  apply residual_none
  intro e he k hk
  obtain ⟨p, _, h⟩ := h.heads he
  rcases h with ⟨_, h⟩ | ⟨h0, k', h⟩
  · rw [h] at hk; simp at hk
  · rw [h] at hk; simp at hk; exact h0 hk.1

theorem residual_eq_nil_of_take {L : Lang} {p : Key} (h : residual L p = []) (q : Key) : residual L (p ++ q) = [] := by
  rw [residual_residual, h]; rfl

/-! ## One unit -/

theorem Node.offset {u o s g L} (hn : Node c G D u o s g L) : ∃ w, rd D.units u = .ok w ∧ dictHasLeaf w = hasEmpty c s ∧ u ^^^ dictOffset w = o := by
  obtain ⟨l, hw⟩ := hn.word
  refine ⟨_, rd_some hw, nodeWord_hasLeaf _ _ hn.enc, ?_⟩
  rw [nodeWord_offset _ _ hn.enc, xor_xor_self]

theorem Node.hasValue (h : DSem c r acc D B G num) {u o s g L} (hn : Node c G D u o s g L) :
    D.hasValue u = .ok (L.any (fun e => e.1 == [])) := by
  obtain ⟨w, h1, h2, _⟩ := hn.offset
  simp only [Dictionary.hasValue, h1, ok_bind, pure_eq_ok, h2]
  congr 1
  have hgrp : grp c s = g := hn.start.groupAt h.ne
  unfold hasEmpty
  rw [hgrp, Bool.eq_iff_iff, List.any_eq_true, List.any_eq_true]
  constructor
  · rintro ⟨⟨l, b⟩, hq, h0⟩
    simp only [beq_iff_eq] at h0
    subst h0
    exact ⟨([], baseValue b), (DenG.nil_mem hn.den).2 ⟨b, hq, rfl⟩, by simp⟩
  · rintro ⟨⟨k, v⟩, he, hk⟩
    simp only [beq_iff_eq] at hk
    subst hk
    obtain ⟨b, hb, _⟩ := (DenG.nil_mem hn.den).1 he
    exact ⟨_, hb, by simp⟩

theorem Node.value (h : DSem c r acc D B G num) {u o s g L} (hn : Node c G D u o s g L) {v : Nat} (hv : (([] : Key), v) ∈ L) :
    D.value u = .ok v := by
  obtain ⟨w, h1, _, h3⟩ := hn.offset
  obtain ⟨b, hb, rfl⟩ := (DenG.nil_mem hn.den).1 hv
  have hk : Kid c G o (o, s) (0, b) := ⟨hn.mem, by rw [show grp c (o, s).2 = g from hn.start.groupAt h.ne]; exact hb, by simp⟩
  obtain ⟨k, hk'⟩ := h.leaf_val hn.start hb rfl
  have := h.val _ hk'
  simp only [Dictionary.value, h1, ok_bind, h3, rd_some (h.u.leaf hk rfl).2, pure_eq_ok, leafWord_value]
  rw [Nat.mod_eq_of_lt this]

/-- Following a label that continues a key. -/
theorem Node.follow_hit (h : DSem c r acc D B G num) {u o s g L} (hn : Node c G D u o s g L) {l : UInt8} (hl : residual L [l] ≠ []) :
    D.follow l u = .ok (some (o ^^^ l.toNat)) ∧ ∃ o' s' g', Node c G D (o ^^^ l.toNat) o' s' g' (residual L [l]) := by
  have hq : ∃ q ∈ g, q.1 = l := by
    refine Classical.byContradiction fun hc => hl (DenG.residual_eq_nil hn.den ?_)
    exact fun q hq he => hc ⟨q, hq, he⟩
  obtain ⟨q, hq, rfl⟩ := hq
  have h0 : q.1 ≠ 0 := by
    intro h0; rw [h0] at hl; exact hl (DenG.residual_zero hn.den)
  obtain ⟨o', g', h1, hl', off, h2, h3⟩ := h.kidNode hn.mem hn.start hn.den hq h0
  refine ⟨?_, o', _, g', h1⟩
  obtain ⟨w, w1, _, w3⟩ := hn.offset
  simp only [Dictionary.follow, w1, ok_bind, w3, rd_some h2, nodeWord_label _ _ h3, pure_eq_ok, ne_eq, not_true, if_false]

/-- What else a look-up can hit: a value unit whose value has low byte `l`. -/
theorem Node.follow_miss (h : DSem c r acc D B G num) {u o s g L} (hn : Node c G D u o s g L) {l : UInt8} (hl : residual L [l] = []) :
    D.follow l u = .ok none ∨ ∃ v, (∃ k, (k, v) ∈ acc) ∧ v % 256 = l.toNat ∧ D.units[o ^^^ l.toNat]? = some (leafWord v) ∧
      D.follow l u = .ok (some (o ^^^ l.toNat)) := by
  obtain ⟨w, w1, _, w3⟩ := hn.offset
  have hob := h.off_lt hn.mem
  have hlt : o ^^^ l.toNat < 256 * B := (xor_lt_of_block (label_lt l)).2 hob
  obtain ⟨w', hw'⟩ := h.lt hlt
  have hf : D.follow l u = .ok (if dictLabel w' ≠ l then none else some (o ^^^ l.toNat)) := by
    simp only [Dictionary.follow, w1, ok_bind, w3, rd_some hw', pure_eq_ok]
  rw [hf]
  by_cases hlab : dictLabel w' = l
  · right
    rw [if_neg (by simpa using hlab)]
    -- which unit is it?
    by_cases hz : o ^^^ l.toNat = 0
    · exfalso
      rw [hz] at hw'
      rcases h.u.root with ⟨_, h1, _⟩ | ⟨_, o', _, h3, h4⟩
      · cases h1
      · rw [hw'] at h4
        have := Option.some.inj h4
        rw [this, nodeWord_label _ _ h3] at hlab
        rw [← hlab] at hz
        exact (h.u.offs _ hn.mem).1 (by simpa using hz)
    · by_cases hk : IsKid c G (o ^^^ l.toNat)
      · obtain ⟨x, q, hk⟩ := hk
        by_cases h0 : q.1 = 0
        · obtain ⟨_, h2⟩ := h.u.leaf hk h0
          have hwe := Option.some.inj (hw'.symm.trans h2)
          obtain ⟨_, _, gx, hgx⟩ := h.u.offs _ hk.1
          have hqx : q ∈ gx := by have := hk.2.1; rwa [show grp c x.2 = gx from hgx.groupAt h.ne] at this
          refine ⟨baseValue q.2, h.leaf_val hgx hqx h0, ?_, h2, rfl⟩
          rw [hwe, leafWord_label] at hlab
          rw [← hlab, UInt8.toNat_ofNat']
        · exfalso
          rcases h.u.node hk h0 with ⟨_, h1, _⟩ | ⟨_, o', h1, h2, h3⟩
          · cases h1
          · have hwe := Option.some.inj (hw'.symm.trans h3)
            rw [hwe, nodeWord_label _ _ h2] at hlab
            have hx : x.1 = o := by
              have := hk.2.2
              rw [hlab] at this
              exact (xor_right_cancel this).symm
            have hxe : x = (o, s) := by
              have hnd := h.u.nodup
              have : x.2 = s := by
                refine Classical.byContradiction fun hne => ?_
                have hxm : (o, x.2) ∈ G := by rw [← hx]; exact hk.1
                exact hne (nodup_fst hnd hxm hn.mem)
              rw [← hx, ← this]
            rw [hxe] at hk
            have hqg : q ∈ g := by have := hk.2.1; rwa [show grp c (o, s).2 = g from hn.start.groupAt h.ne] at this
            obtain ⟨g', h4, h5⟩ := hn.den.child (h.core.cinv.asc _ hn.start.mem) hqg h0
            rw [hlab, hl] at h5
            exact (h5.ne_nil h.ne (h.ne _ h4.mem)) rfl
      · exfalso
        obtain ⟨un, h1, h2, h3, h4⟩ := h.u.dead hlt ⟨hz, hk⟩
        have hwe := Option.some.inj (hw'.symm.trans h4)
        rw [hwe, dictLabel_mod] at hlab
        have hb : un / 256 = o / 256 := by rw [h1, xor_div _ _ (label_lt l)]
        have hm : un % 256 = o % 256 := by
          have e1 := congrArg UInt8.toNat hlab
          rw [UInt8.toNat_ofNat'] at e1
          have e2 : (o ^^^ l.toNat ^^^ un) % 256 = (o ^^^ un) % 256 ^^^ l.toNat := by
            rw [Nat.xor_assoc, Nat.xor_comm l.toNat un, ← Nat.xor_assoc, xor_mod, Nat.mod_eq_of_lt (label_lt l)]
          rw [show (2 : Nat) ^ 8 = 256 from rfl, Nat.mod_mod, e2] at e1
          have e3 : (o ^^^ un) % 256 = 0 := by
            have := congrArg (· ^^^ l.toNat) e1
            simpa [Nat.xor_assoc] using this
          rw [xor_mod] at e3
          exact xor_left_cancel (e3.trans (Nat.xor_self _).symm)
        have : un = o := by omega
        exact h3 _ hn.mem this.symm
  · left; rw [if_pos hlab]

/-! ## Strings -/

/-- The byte of `q` at which it leaves the language `L` (if it does) is not the low byte of a value. -/
def Clean (acc L : Lang) (q : Key) : Prop := ∀ p b, p ++ [b] <+: q → residual L p ≠ [] → residual L (p ++ [b]) = [] →
  ∀ e ∈ acc, e.2 % 256 ≠ b.toNat

theorem Clean.tail {acc L : Lang} {l : UInt8} {q : Key} (h : Clean acc L (l :: q)) : Clean acc (residual L [l]) q := by
  intro p b hp h1 h2
  refine h (l :: p) b (by simpa using hp) ?_ ?_
  · rwa [show l :: p = [l] ++ p from rfl, residual_residual]
  · rwa [show l :: p ++ [b] = [l] ++ (p ++ [b]) from rfl, residual_residual]

theorem Node.follow_miss_clean (h : DSem c r acc D B G num) {u o s g L} (hn : Node c G D u o s g L) {l : UInt8} (hl : residual L [l] = [])
    (hc : ∀ e ∈ acc, e.2 % 256 ≠ l.toNat) : D.follow l u = .ok none := by
  rcases hn.follow_miss h hl with h1 | ⟨v, ⟨k, h1⟩, h2, _⟩
  · exact h1
  · exact absurd h2 (hc _ h1)

theorem followString_hit (h : DSem c r acc D B G num) : ∀ {q : Key} {u o s : Nat} {g : Group} {L : Lang}, Node c G D u o s g L → residual L q ≠ [] →
    ∃ v o' s' g', D.followString q u = .ok (true, v, q.length) ∧ Node c G D v o' s' g' (residual L q)
  | [], u, o, s, g, L, hn, _ => ⟨u, o, s, g, rfl, by rw [residual_nil]; exact hn⟩
  | l :: q, u, o, s, g, L, hn, hr => by
    have hl : residual L [l] ≠ [] := fun hl => hr (residual_eq_nil_of_take hl q)
    obtain ⟨h1, o', s', g', h2⟩ := hn.follow_hit h hl
    rw [show l :: q = [l] ++ q from rfl, residual_residual] at hr ⊢
    obtain ⟨v, o'', s'', g'', h3, h4⟩ := followString_hit h h2 hr
    refine ⟨v, o'', s'', g'', ?_, h4⟩
    simp only [List.cons_append, List.nil_append, Dictionary.followString, h1, ok_bind, h3, pure_eq_ok, List.length_cons]

/-- The longest prefix of `q` that continues to a key. -/
def longest (L : Lang) : Key → Key
  | [] => []
  | l :: q => if residual L [l] = [] then [] else l :: longest (residual L [l]) q

theorem followString_miss (h : DSem c r acc D B G num) : ∀ {q : Key} {u o s : Nat} {g : Group} {L : Lang}, Node c G D u o s g L → residual L q = [] →
    Clean acc L q → ∃ v, D.followString q u = .ok (false, v, (longest L q).length) ∧
      D.followString (longest L q) u = .ok (true, v, (longest L q).length)
  | [], u, o, s, g, L, hn, hr, _ => by
    rw [residual_nil] at hr
    exact absurd hr (hn.den.ne_nil h.ne (h.ne _ hn.start.mem))
  | l :: q, u, o, s, g, L, hn, hr, hc => by
    by_cases hl : residual L [l] = []
    · have hce := hc [] l (by simp) (by rw [residual_nil]; exact hn.den.ne_nil h.ne (h.ne _ hn.start.mem)) hl
      have h1 := hn.follow_miss_clean h hl hce
      refine ⟨u, ?_, ?_⟩
      · simp only [Dictionary.followString, h1, ok_bind, pure_eq_ok, longest, hl, if_true, List.length_nil]
      · simp only [longest, hl, if_true, Dictionary.followString, List.length_nil]
    · obtain ⟨h1, o', s', g', h2⟩ := hn.follow_hit h hl
      rw [show l :: q = [l] ++ q from rfl, residual_residual] at hr
      obtain ⟨v, h3, h4⟩ := followString_miss h h2 hr hc.tail
      refine ⟨v, ?_, ?_⟩
      · simp only [Dictionary.followString, h1, ok_bind, h3, pure_eq_ok, longest, hl, if_false, List.length_cons]
      · simp only [longest, hl, if_false, Dictionary.followString, h1, ok_bind, h4, pure_eq_ok, List.length_cons]

end

end Dawg.Dict
