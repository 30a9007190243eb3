import Verif.Proof.Dict.Main
import Verif.Model.Ranked
/-! # A finished dictionary as an automaton of languages

What guides, completers and indexes need to know about a dictionary: every reached unit has a language
(the keys that are left), its transitions are the first bytes of that language. -/
namespace Dawg.Guided
attribute [-simp] List.length_flatten
open Dawg.Abs Dawg.Spec Dawg.Dict

/-! ## Languages -/

theorem mem_heads {α : Type} {L : List (Key × α)} {l : UInt8} : l ∈ heads L ↔ residual L [l] ≠ [] := by
  unfold heads
  rw [List.mem_filter]
  have h1 : l ∈ (List.range 256).map UInt8.ofNat := by
    rw [List.mem_map]
    exact ⟨l.toNat, by rw [List.mem_range]; exact label_lt l, by simp⟩
  rw [List.any_eq_true]
  constructor
  · rintro ⟨_, e, he, hh⟩ hc
    obtain ⟨k, v⟩ := e
    cases k with
    | nil => simp at hh
    | cons a k =>
      simp only [List.head?_cons, beq_iff_eq, Option.some.injEq] at hh
      subst hh
      have : (k, v) ∈ residual L [a] := by rw [mem_residual]; exact he
      rw [hc] at this; simp at this
  · intro h
    obtain ⟨e, he⟩ := List.exists_mem_of_ne_nil _ h
    rw [mem_residual] at he
    exact ⟨h1, _, he, by simp⟩

theorem heads_asc {α : Type} (L : List (Key × α)) : (heads L).Pairwise (· < ·) := by
  refine List.Pairwise.filter _ ?_
  rw [List.pairwise_map]
  have : ∀ n, n ≤ 256 → (List.range n).Pairwise (fun a b => UInt8.ofNat a < UInt8.ofNat b) := by
    intro n hn
    induction n with
    | zero => exact List.Pairwise.nil
    | succ n ih =>
      rw [List.range_succ, List.pairwise_append]
      refine ⟨ih (by omega), by simp, ?_⟩
      intro a ha b hb
      simp only [List.mem_singleton] at hb
      subst hb
      rw [List.mem_range] at ha
      rw [UInt8.lt_iff_toNat_lt, UInt8.toNat_ofNat', UInt8.toNat_ofNat', Nat.mod_eq_of_lt (by omega), Nat.mod_eq_of_lt (by omega)]
      exact ha
  exact this 256 (by omega)

theorem heads_nodup {α : Type} (L : List (Key × α)) : (heads L).Nodup :=
  (heads_asc L).imp (fun {a b} h e => by subst e; exact UInt8.lt_irrefl _ h)

/-- Two increasing lists with the same elements are equal. -/
theorem asc_ext {A B : List UInt8} (hA : A.Pairwise (· < ·)) (hB : B.Pairwise (· < ·)) (h : ∀ x, x ∈ A ↔ x ∈ B) : A = B := by
  have nd : ∀ {A : List UInt8}, A.Pairwise (· < ·) → A.Nodup := fun h => h.imp (fun {a b} h e => by subst e; exact UInt8.lt_irrefl _ h)
  have hp : A.Perm B := (List.perm_ext_iff_of_nodup (nd hA) (nd hB)).2 h
  refine hp.eq_of_pairwise (le := (· < ·)) ?_ hA hB
  intro a b _ _ h1 h2
  exact absurd (UInt8.lt_trans h1 h2) (UInt8.lt_irrefl _)

/-- The empty key of a language. -/
def here (L : Lang) : Lang := L.filter (fun e => e.1 == [])

/-- The keys of `L` that start with one of the given bytes. -/
def under (L : Lang) (ls : List UInt8) : Lang := ls.flatMap (fun l => (residual L [l]).map (pre [l]))

theorem under_cons (L : Lang) (l : UInt8) (ls : List UInt8) : under L (l :: ls) = (residual L [l]).map (pre [l]) ++ under L ls := by
  simp [under]

theorem DenG.split {gs g L} (h : DenG gs g L) (ha : Asc g) (h0 : ∀ q ∈ g, q.1 ≠ 0) : L = under L (g.map Prod.fst) := by
  induction h with
  | nil => rfl
  | leaf => exact absurd rfl (h0 _ List.mem_cons_self)
  | @node l b g' L' rest L hl hst hc hr _ ih =>
    obtain ⟨h1, h2⟩ := List.pairwise_cons.1 ha
    have hnl : ∀ q ∈ rest, q.1 ≠ l := fun q hq he => by
      have := h1 q hq; rw [he] at this; exact UInt8.lt_irrefl _ this
    rw [List.map_cons, under_cons]
    have e1 : residual (L'.map (pre [l]) ++ L) [l] = L' := by
      rw [residual_append, residual_pre, residual_none (hr.not_head hnl), List.append_nil]
    rw [e1]
    congr 1
    have e2 : under (L'.map (pre [l]) ++ L) (rest.map Prod.fst) = under L (rest.map Prod.fst) := by
      unfold under
      rw [List.flatMap_def, List.flatMap_def]
      congr 1
      apply List.map_congr_left
      intro m hm
      obtain ⟨q, hq, rfl⟩ := List.mem_map.1 hm
      rw [residual_append, residual_pre_ne (Ne.symm (hnl q hq)), List.nil_append]
    rw [e2]
    exact ih h2 (fun q hq => h0 q (List.mem_cons_of_mem _ hq))

/-- The labels of a state are the first bytes of its language. -/
theorem DenG.heads_eq {gs g L} (h : DenG gs g L) (hne : ∀ g ∈ gs, g ≠ []) (ha : Asc g) (h0 : ∀ q ∈ g, q.1 ≠ 0) : heads L = g.map Prod.fst := by
  refine asc_ext (heads_asc L) ?_ ?_
  · rw [List.pairwise_map]; exact ha
  · intro l
    rw [mem_heads]
    constructor
    · intro hl
      refine Classical.byContradiction fun hc => hl (DenG.residual_eq_nil h ?_)
      exact fun q hq he => hc (List.mem_map.2 ⟨q, hq, he⟩)
    · intro hl
      obtain ⟨q, hq, rfl⟩ := List.mem_map.1 hl
      obtain ⟨g', h1, h2⟩ := h.child ha hq (h0 q hq)
      exact h2.ne_nil hne (hne _ h1.mem)

theorem asc_tail_ne {l : UInt8} {b : Nat} {rest : Group} (ha : Asc ((l, b) :: rest)) : ∀ q ∈ rest, q.1 ≠ 0 := by
  intro q hq h0
  have := (List.pairwise_cons.1 ha).1 q hq
  simp only [h0] at this
  exact UInt8.not_lt_zero this

theorem heads_cons_nil (v : Nat) (L : Lang) : heads ((([] : Key), v) :: L) = heads L := by
  simp [heads]

theorem residual_cons_nil (v : Nat) (L : Lang) (l : UInt8) : residual ((([] : Key), v) :: L) [l] = residual L [l] := by
  rw [show ((([] : Key), v) :: L) = [([], v)] ++ L from rfl, residual_append, residual_none (L := [(([], v) : Entry)]) (by simp), List.nil_append]

theorem under_cons_nil (v : Nat) (L : Lang) (ls : List UInt8) : under ((([] : Key), v) :: L) ls = under L ls := by
  simp [under, residual_cons_nil]

/-- The two shapes of a state. -/
theorem DenG.shape {gs g L} (h : DenG gs g L) (hne : ∀ g ∈ gs, g ≠ []) (ha : Asc g) :
    ((∀ q ∈ g, q.1 ≠ 0) ∧ (∀ e ∈ L, e.1 ≠ []) ∧ heads L = g.map Prod.fst ∧ L = under L (heads L)) ∨
    (∃ b rest M, g = (0, b) :: rest ∧ (∀ q ∈ rest, q.1 ≠ 0) ∧ L = ([], baseValue b) :: M ∧ (∀ e ∈ M, e.1 ≠ []) ∧ DenG gs rest M ∧ heads L = rest.map Prod.fst ∧
      M = under L (heads L)) := by
  have noemp : ∀ {g : Group} {L : Lang}, DenG gs g L → (∀ q ∈ g, q.1 ≠ 0) → ∀ e ∈ L, e.1 ≠ [] := by
    intro g L h h0 e he hc
    obtain ⟨p, hp, h1⟩ := h.heads he
    rcases h1 with ⟨h1, _⟩ | ⟨_, k, h1⟩
    · exact h0 p hp h1
    · rw [hc] at h1; cases h1
  have key : ∀ {g : Group} {L : Lang}, DenG gs g L → Asc g → (∀ q ∈ g, q.1 ≠ 0) → heads L = g.map Prod.fst ∧ L = under L (heads L) := by
    intro g L h ha h0
    have e := DenG.heads_eq h hne ha h0
    exact ⟨e, by rw [e]; exact DenG.split h ha h0⟩
  cases h with
  | nil => exact .inl ⟨by simp, by simp, key .nil ha (by simp)⟩
  | @leaf b rest M hr =>
    right
    have h0 := asc_tail_ne ha
    obtain ⟨e1, e2⟩ := key hr (List.pairwise_cons.1 ha).2 h0
    exact ⟨b, rest, M, rfl, h0, rfl, noemp hr h0, hr, by rw [heads_cons_nil]; exact e1, by rw [heads_cons_nil, under_cons_nil]; exact e2⟩
  | @node l b g' L' rest M hl hst hc hr =>
    left
    have h0 : ∀ q ∈ (l, b) :: rest, q.1 ≠ 0 := by
      intro q hq
      rcases List.mem_cons.1 hq with rfl | hq
      · exact hl
      · exact asc_tail_ne ha q hq
    have hd : DenG gs ((l, b) :: rest) (L'.map (pre [l]) ++ M) := .node hl hst hc hr
    exact ⟨h0, noemp hd h0, key hd ha h0⟩

/-- All transitions of a language: the terminal one (label 0) and the first bytes. -/
def arcs (L : Lang) : List UInt8 := (if L.any (fun e => e.1 == []) then [0] else []) ++ heads L

/-! ## The interface -/

/-- `At u L`: the unit `u` has been reached, `L` is left.  `kid u l` is the unit behind the transition `l`. -/
structure View (D : Dictionary) (At : Nat → Lang → Prop) (kid : Nat → UInt8 → Nat) (clean : UInt8 → Prop) : Prop where
  func : ∀ {u L L'}, At u L → At u L' → L = L'
  lt : ∀ {u L}, At u L → u < D.size
  ne : ∀ {u L}, At u L → L ≠ []
  nul : ∀ {u L}, At u L → residual L [(0 : UInt8)] = []
  shape : ∀ {u L}, At u L → ((∀ e ∈ L, e.1 ≠ []) ∧ L = under L (heads L)) ∨
    (∃ v, L = (([] : Key), v) :: under L (heads L) ∧ ∀ e ∈ under L (heads L), e.1 ≠ [])
  hasValue : ∀ {u L}, At u L → D.hasValue u = .ok (L.any (fun e => e.1 == []))
  value : ∀ {u L v}, At u L → (([] : Key), v) ∈ L → D.value u = .ok v
  fwc : ∀ {u L} (l : UInt8), At u L → RankedBuilder.followWithoutCheck D u l = .ok (kid u l)
  follow : ∀ {u L l}, At u L → l ∈ heads L → D.follow l u = .ok (some (kid u l))
  step : ∀ {u L l}, At u L → l ∈ heads L → At (kid u l) (residual L [l])
  miss : ∀ {u L l}, At u L → l ∉ heads L → clean l → D.follow l u = .ok none
  kid_lt : ∀ {u L l}, At u L → l ∈ arcs L → kid u l < D.size
  kid_ne : ∀ {u L l}, At u L → l ∈ arcs L → kid u l ≠ 0
  leaf : ∀ {u L v}, At u L → (([] : Key), v) ∈ L → ∃ w, rd D.units (kid u 0) = .ok w ∧ dictValue w = v
  uniq : ∀ {u L u' L' l l'}, At u L → At u' L' → l ∈ arcs L → l' ∈ arcs L' → kid u l = kid u' l' → l = l' ∧ L = L'
  mult : D.size % 8 = 0
  total : ∀ {u L}, At u L → L.length < 1073741824

section
variable {D : Dictionary} {At : Nat → Lang → Prop} {kid : Nat → UInt8 → Nat} {clean : UInt8 → Prop}

theorem mem_arcs {L : Lang} {l : UInt8} : l ∈ arcs L ↔ (l = 0 ∧ ∃ v, (([] : Key), v) ∈ L) ∨ l ∈ heads L := by
  unfold arcs
  rw [List.mem_append]
  by_cases h : L.any (fun e => e.1 == []) = true
  · rw [if_pos h]
    rw [List.any_eq_true] at h
    obtain ⟨⟨k, v⟩, h1, h2⟩ := h
    simp only [beq_iff_eq] at h2
    subst h2
    constructor
    · rintro (h | h)
      · exact .inl ⟨by simpa using h, v, h1⟩
      · exact .inr h
    · rintro (⟨h, _⟩ | h)
      · exact .inl (by simp [h])
      · exact .inr h
  · rw [if_neg h]
    constructor
    · rintro (h | h)
      · simp at h
      · exact .inr h
    · rintro (⟨_, v, hv⟩ | h')
      · exact absurd (List.any_eq_true.2 ⟨_, hv, by simp⟩) h
      · exact .inr h'

theorem heads_arcs {L : Lang} {l : UInt8} (h : l ∈ heads L) : l ∈ arcs L := mem_arcs.2 (.inr h)

theorem View.heads_ne_zero (V : View D At kid clean) {u L} (h : At u L) {l : UInt8} (hl : l ∈ heads L) : l ≠ 0 := by
  rintro rfl
  exact mem_heads.1 hl (V.nul h)

/-- The key behind a transition is shorter. -/
theorem depth_lt {L : Lang} {l : UInt8} {e : Entry} (he : e ∈ residual L [l]) : ∃ e' ∈ L, e'.1 = l :: e.1 ∧ e'.2 = e.2 := by
  rw [mem_residual] at he
  exact ⟨_, he, rfl, rfl⟩

theorem View.chain (V : View D At kid clean) : ∀ (n : Nat) {u : Nat} {L : Lang} {m : Entry}, At u L → m ∈ L → m.1.length = n →
    (∀ e ∈ L, e.1.length ≤ n) → ∃ us : List Nat, us.Nodup ∧ us.length = n + 1 ∧ ∀ x ∈ us, x < D.size ∧ ∃ L', At x L' ∧ ∀ e ∈ L', e.1.length ≤ n
  | 0, u, L, m, h, _, _, hall => ⟨[u], by simp, rfl, by
      intro x hx
      simp only [List.mem_singleton] at hx
      subst hx
      exact ⟨V.lt h, L, h, hall⟩⟩
  | n + 1, u, L, m, h, hm, hl, hall => by
    obtain ⟨k, v⟩ := m
    cases k with
    | nil => simp at hl
    | cons a k =>
      simp only [List.length_cons] at hl
      have hmem : (k, v) ∈ residual L [a] := by rw [mem_residual]; exact hm
      have hh : a ∈ heads L := mem_heads.2 (List.ne_nil_of_mem hmem)
      obtain ⟨us, h1, h2, h3⟩ := V.chain n (V.step h hh) hmem (by simp only []; omega) (by
        intro e he
        obtain ⟨e', he', h4, _⟩ := depth_lt he
        have := hall e' he'
        rw [h4] at this
        simp only [List.length_cons] at this; omega)
      refine ⟨u :: us, ?_, by simp [h2], ?_⟩
      · rw [List.nodup_cons]
        refine ⟨fun hu => ?_, h1⟩
        obtain ⟨_, L', h4, h5⟩ := h3 u hu
        rw [V.func h4 h] at h5
        have := h5 _ hm
        simp only [List.length_cons] at this; omega
      · intro x hx
        rcases List.mem_cons.1 hx with rfl | hx
        · exact ⟨V.lt h, L, h, hall⟩
        · obtain ⟨h4, L', h5, h6⟩ := h3 x hx
          exact ⟨h4, L', h5, fun e he => Nat.le_succ_of_le (h6 e he)⟩

theorem View.depth (V : View D At kid clean) {u : Nat} {L : Lang} (h : At u L) : ∀ e ∈ L, e.1.length + 1 ≤ D.size := by
  obtain ⟨m, hm, hall⟩ := exists_longest (V.ne h)
  obtain ⟨us, h1, h2, h3⟩ := V.chain _ h hm rfl hall
  have := List.Nodup.length_le_of_subset h1 (l₂ := List.range D.size) (fun x hx => List.mem_range.2 (h3 x hx).1)
  rw [List.length_range] at this
  intro e he
  have := hall e he
  omega

end

/-! ## Built dictionaries -/

section
variable {c : Core} {r : Nat} {acc : Lang} {D : Dictionary} {B : Nat} {G : List (Nat × Nat)} {num : Nat}

def AtN (c : Core) (G : List (Nat × Nat)) (D : Dictionary) (u : Nat) (L : Lang) : Prop := ∃ o s g, Node c G D u o s g L

/-- The unit behind a transition. -/
def kidOf (D : Dictionary) (u : Nat) (l : UInt8) : Nat := u ^^^ dictOffset (D.units.getD u 0) ^^^ l.toNat

theorem Node.same_state (h : DSem c r acc D B G num) {u o s g L o' s' g' L'} (hn : Node c G D u o s g L) (hn' : Node c G D u o' s' g' L') :
    o = o' ∧ s = s' ∧ g = g' ∧ L = L' := by
  have ho := hn.same hn' rfl
  subst ho
  have hs : s = s' := nodup_fst h.u.nodup hn.mem hn'.mem
  subst hs
  have hg := hn.start.unique hn'.start h.ne
  subst hg
  exact ⟨rfl, rfl, rfl, hn.den.det h.ne hn'.den⟩

theorem _root_.Dawg.Dict.Node.kid_eq {u o s g L} (hn : Node c G D u o s g L) (l : UInt8) : kidOf D u l = o ^^^ l.toNat := by
  obtain ⟨w, h1, _, h2⟩ := hn.offset
  obtain ⟨l', hw⟩ := hn.word
  have := (rd_some hw).symm.trans h1
  cases this
  unfold kidOf
  rw [List.getD_eq_getElem?_getD, hw, Option.getD_some, h2]

theorem Node.arc (h : DSem c r acc D B G num) {u o s g L} (hn : Node c G D u o s g L) {l : UInt8} (hl : l ∈ arcs L) : ∃ q ∈ g, q.1 = l := by
  rcases mem_arcs.1 hl with ⟨rfl, v, hv⟩ | hl
  · obtain ⟨b, hb, _⟩ := (DenG.nil_mem hn.den).1 hv
    exact ⟨_, hb, rfl⟩
  · refine Classical.byContradiction fun hc => mem_heads.1 hl (DenG.residual_eq_nil hn.den ?_)
    exact fun q hq he => hc ⟨q, hq, he⟩

theorem Node.arcKid (h : DSem c r acc D B G num) {u o s g L} (hn : Node c G D u o s g L) {q : Pair} (hq : q ∈ g) :
    Kid c G (kidOf D u q.1) (o, s) q :=
  ⟨hn.mem, by rw [show grp c (o, s).2 = g from hn.start.groupAt h.ne]; exact hq, hn.kid_eq _⟩

theorem view (h : DSem c r acc D B G num) (htot : acc.length < 1073741824) (hplaced : acc ≠ []) :
    View D (AtN c G D) (kidOf D) (fun l => ∀ e ∈ acc, e.2 % 256 ≠ l.toNat) where
  func := by
    rintro u L L' ⟨o, s, g, hn⟩ ⟨o', s', g', hn'⟩
    exact (Node.same_state h hn hn').2.2.2
  lt := by
    rintro u L ⟨o, s, g, hn⟩
    obtain ⟨l, hw⟩ := hn.word
    exact (List.getElem?_eq_some_iff.1 hw).1
  ne := by
    rintro u L ⟨o, s, g, hn⟩
    exact hn.den.ne_nil h.ne (h.ne _ hn.start.mem)
  nul := by
    rintro u L ⟨o, s, g, hn⟩
    exact DenG.residual_zero hn.den
  shape := by
    rintro u L ⟨o, s, g, hn⟩
    rcases DenG.shape hn.den h.ne (h.core.cinv.asc _ hn.start.mem) with ⟨_, h1, _, h2⟩ | ⟨b, rest, M, _, _, h1, h2, _, _, h3⟩
    · exact .inl ⟨h1, h2⟩
    · refine .inr ⟨baseValue b, ?_, ?_⟩
      · rw [← h3]; exact h1
      · rw [← h3]; exact h2
  hasValue := by
    rintro u L ⟨o, s, g, hn⟩
    exact hn.hasValue h
  value := by
    rintro u L v ⟨o, s, g, hn⟩ hv
    exact hn.value h hv
  fwc := by
    rintro u L l ⟨o, s, g, hn⟩
    obtain ⟨w, h1, _, h2⟩ := hn.offset
    simp only [RankedBuilder.followWithoutCheck, h1, ok_bind, pure_eq_ok, h2, hn.kid_eq]
  follow := by
    rintro u L l ⟨o, s, g, hn⟩ hl
    rw [hn.kid_eq]
    exact (hn.follow_hit h (mem_heads.1 hl)).1
  step := by
    rintro u L l ⟨o, s, g, hn⟩ hl
    rw [hn.kid_eq]
    exact (hn.follow_hit h (mem_heads.1 hl)).2
  miss := by
    rintro u L l ⟨o, s, g, hn⟩ hl hc
    have : residual L [l] = [] := Classical.byContradiction fun h => hl (mem_heads.2 h)
    exact hn.follow_miss_clean h this hc
  kid_lt := by
    rintro u L l ⟨o, s, g, hn⟩ hl
    obtain ⟨q, hq, rfl⟩ := Node.arc h hn hl
    have := h.u.kid_lt (Node.arcKid h hn hq)
    unfold Dictionary.size
    rw [h.u.len]; exact this
  kid_ne := by
    rintro u L l ⟨o, s, g, hn⟩ hl
    obtain ⟨q, hq, rfl⟩ := Node.arc h hn hl
    exact h.u.nz (Node.arcKid h hn hq)
  leaf := by
    rintro u L v ⟨o, s, g, hn⟩ hv
    obtain ⟨b, hb, rfl⟩ := (DenG.nil_mem hn.den).1 hv
    obtain ⟨k, hk'⟩ := h.leaf_val hn.start hb rfl
    have := h.val _ hk'
    refine ⟨_, rd_some (h.u.leaf (Node.arcKid h hn hb) rfl).2, ?_⟩
    rw [leafWord_value, Nat.mod_eq_of_lt this]
  uniq := by
    rintro u L u' L' l l' ⟨o, s, g, hn⟩ ⟨o', s', g', hn'⟩ hl hl' he
    obtain ⟨q, hq, rfl⟩ := Node.arc h hn hl
    obtain ⟨q', hq', rfl⟩ := Node.arc h hn' hl'
    have hk := Node.arcKid h hn hq
    have hk' := Node.arcKid h hn' hq'
    rw [he] at hk
    obtain ⟨h1, rfl⟩ := h.u.disj hk hk'
    simp only [Prod.mk.injEq] at h1
    obtain ⟨rfl, rfl⟩ := h1
    have hg := hn.start.unique hn'.start h.ne
    subst hg
    exact ⟨rfl, hn.den.det h.ne hn'.den⟩
  mult := by
    unfold Dictionary.size
    rw [h.u.len]; omega
  total := by
    rintro u L ⟨o, s, g, hn⟩
    obtain ⟨p, u', g', h1, h2⟩ := reach_mem h hplaced hn.mem
    have hg := hn.start.unique h2.start h.ne
    subst hg
    rw [hn.den.det h.ne h2.den]
    unfold residual
    rw [List.length_map]
    exact Nat.lt_of_le_of_lt (List.length_filter_le _ _) htot

theorem root_at (h : DSem c r acc D B G num) (hne : acc ≠ []) : AtN c G D 0 acc := by
  obtain ⟨o, g, hn⟩ := h.root hne
  exact ⟨o, r, g, hn⟩

end

end Dawg.Guided
