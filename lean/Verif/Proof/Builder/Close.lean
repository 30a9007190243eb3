import Verif.Proof.Builder.Sem
/-! # Finishing states: languages and trie nodes -/
namespace Dawg.Abs
attribute [-simp] List.length_flatten

theorem baseChild_baseOf {l : UInt8} {c : Nat} {st sib : Bool} (hl : l ≠ 0) (hc : c < 1073741824) :
    baseChild (baseOf l c st sib) = c := by
  apply Nat.eq_of_testBit_eq
  intro i
  have hn : ∀ j, 30 ≤ j → c.testBit j = false := fun j hj =>
    Nat.testBit_lt_two_pow (Nat.lt_of_lt_of_le hc (by
      have := Nat.pow_le_pow_right (n := 2) (by decide) hj
      simpa using this))
  have h1 : ∀ i, (1 : Nat).testBit (2 + i) = false := fun i => by
    exact Nat.testBit_lt_two_pow (Nat.lt_of_lt_of_le (by decide : 1 < 2 ^ 2) (Nat.pow_le_pow_right (by decide) (by omega)))
  have h2 : ∀ i, (2 : Nat).testBit (2 + i) = false := fun i => by
    exact Nat.testBit_lt_two_pow (Nat.lt_of_lt_of_le (by decide : 2 < 2 ^ 2) (Nat.pow_le_pow_right (by decide) (by omega)))
  have key : (decide (2 + i < 32) && c.testBit i) = c.testBit i := by
    by_cases h : 2 + i < 32
    · simp [h]
    · simp [h, hn i (by omega)]
  simp only [baseChild, baseOf, DawgUnit.base, if_neg hl, Nat.testBit_shiftRight]
  cases st <;> cases sib <;>
    simp [Nat.testBit_or, u32_testBit, Nat.testBit_shiftLeft, h1, h2] <;> simpa using key

theorem baseValue_baseOf (c : Nat) (st sib : Bool) : baseValue (baseOf 0 c st sib) = c % 2147483648 := by
  apply Nat.eq_of_testBit_eq
  intro i
  have h1 : (1 : Nat).testBit (1 + i) = false := by
    exact Nat.testBit_lt_two_pow (Nat.lt_of_lt_of_le (by decide : 1 < 2 ^ 1) (Nat.pow_le_pow_right (by decide) (by omega)))
  have h2 : (c % 2147483648).testBit i = (decide (i < 31) && c.testBit i) := Nat.testBit_mod_two_pow c 31 i
  have h3 : decide (1 + i < 32) = decide (i < 31) := by congr 1; apply propext; omega
  simp only [baseValue, baseOf, DawgUnit.base, if_true, Nat.testBit_shiftRight, h2]
  cases sib <;> simp [Nat.testBit_or, u32_testBit, Nat.testBit_shiftLeft, h1, h3]

/-- Language of the target of a transition. -/
def DenC (gs : List Group) (l : UInt8) (child : Nat) (X : Lang) : Prop :=
  if l = 0 then X = [([], child % 2147483648)] else ∃ g, IsStart gs child g ∧ DenG gs g X

/-- Prefixing a language with the label of a transition. -/
def up (l : UInt8) (X : Lang) : Lang := if l = 0 then X else X.map (pre [l])

/-- Language of finished transitions. -/
def DenE (gs : List Group) : List Edge → Lang → Prop
  | [], L => L = []
  | e :: es, L => ∃ L1 X, DenE gs es L1 ∧ DenC gs e.label e.child X ∧ L = L1 ++ up e.label X

/-- Labels from the root to the state of the topmost frame's open transition's target. -/
def path (fs : List Frame) : List UInt8 := fs.reverse.map Frame.label

theorem path_cons (f : Frame) (fs : List Frame) : path (f :: fs) = path fs ++ [f.label] := by simp [path]
theorem path_nil : path [] = [] := rfl

/-- The part of the language before the open path. -/
def Ctx (gs : List Group) : List Frame → Lang → Prop
  | [], P => P = []
  | f :: fs, P => ∃ P1 Lc, Ctx gs fs P1 ∧ DenE gs f.closed Lc ∧ P = P1 ++ Lc.map (pre (path fs))

theorem DenC.mono {gs l c X} (h : DenC gs l c X) (hs : List Group) : DenC (gs ++ hs) l c X := by
  unfold DenC at *
  split
  · rwa [if_pos (by assumption)] at h
  · rw [if_neg (by assumption)] at h
    obtain ⟨g, h1, h2⟩ := h
    exact ⟨g, h1.append hs, h2.mono hs⟩

theorem DenE.mono {gs} (hs : List Group) : ∀ {es L}, DenE gs es L → DenE (gs ++ hs) es L
  | [], _, h => h
  | _ :: _, _, ⟨L1, X, h1, h2, h3⟩ => ⟨L1, X, DenE.mono hs h1, h2.mono hs, h3⟩

theorem Ctx.mono {gs} (hs : List Group) : ∀ {fs P}, Ctx gs fs P → Ctx (gs ++ hs) fs P
  | [], _, h => h
  | _ :: _, _, ⟨P1, L, h1, h2, h3⟩ => ⟨P1, L, Ctx.mono hs h1, h2.mono hs, h3⟩

theorem DenC.denG {gs l c X st sib} (hlen : poolLen gs ≤ 1073741824) (hne : ∀ g ∈ gs, g ≠ []) (h : DenC gs l c X) :
    DenG gs [(l, baseOf l c st sib)] (up l X) := by
  unfold DenC at h
  unfold up
  by_cases hl : l = 0
  · rw [if_pos hl] at h ⊢
    subst h hl
    have := DenG.leaf (gs := gs) (b := baseOf 0 c st sib) .nil
    rwa [baseValue_baseOf] at this
  · rw [if_neg hl] at h ⊢
    obtain ⟨g, h1, h2⟩ := h
    have hb := h1.bound
    have hg : 0 < g.length := List.length_pos_iff.2 (hne g h1.mem)
    have hc : baseChild (baseOf l c st sib) = c := baseChild_baseOf hl (by omega)
    have := DenG.node (b := baseOf l c st sib) hl (by rw [hc]; exact h1) h2 .nil
    simpa using this

theorem DenE.denG {gs} (hlen : poolLen gs ≤ 1073741824) (hne : ∀ g ∈ gs, g ≠ []) : ∀ {es L}, DenE gs es L →
    DenG gs (encClosed es).reverse L
  | [], _, h => by rw [h]; exact .nil
  | e :: es, _, ⟨L1, X, h1, h2, h3⟩ => by
    subst h3
    rw [encClosed, List.reverse_cons]
    exact (DenE.denG hlen hne h1).append (h2.denG hlen hne)

theorem encNode_denG {gs l c X es L} (hlen : poolLen gs ≤ 1073741824) (hne : ∀ g ∈ gs, g ≠ []) (h : DenE gs es L)
    (hc : DenC gs l c X) : DenG gs (encNode l c es) (L ++ up l X) := by
  unfold encNode
  rw [List.reverse_cons]
  exact (h.denG hlen hne).append (hc.denG hlen hne)

theorem encClosed_labels (es : List Edge) : (encClosed es).map Prod.fst = es.map Edge.label := by
  induction es <;> simp [encClosed, *]

theorem encNode_asc {l c es} (hd : Desc l es) : Asc (encNode l c es) := by
  unfold Asc encNode
  rw [List.pairwise_reverse]
  have : List.Pairwise (fun a b => b < a) (((l, baseOf l c (es == []) false) :: encClosed es).map Prod.fst) := by
    rw [List.map_cons, encClosed_labels]; exact hd
  rwa [List.pairwise_map] at this

theorem put_spec {c : Core} {g : Group} {L : Lang} (hc : CInv c) (hw : GroupWf g) (ha : Asc g) (hd : DenG c.groups g L) :
    CInv (c.put g).1 ∧ (∃ hs, (c.put g).1.groups = c.groups ++ hs) ∧ IsStart (c.put g).1.groups (c.put g).2 g := by
  unfold Core.put
  split
  · rename_i i hi
    exact ⟨⟨hc.wf, hc.asc, hc.nodup, hc.den⟩, ⟨[], by simp⟩, findStart_some hi⟩
  · rename_i hn
    refine ⟨⟨?_, ?_, ?_, ?_⟩, ⟨[g], rfl⟩, IsStart.last _ _⟩
    · intro g' hg'
      rcases List.mem_append.1 hg' with h | h
      · exact hc.wf _ h
      · rw [List.mem_singleton.1 h]; exact hw
    · intro g' hg'
      rcases List.mem_append.1 hg' with h | h
      · exact hc.asc _ h
      · rw [List.mem_singleton.1 h]; exact ha
    · have := findStart_none hn
      simp only [List.nodup_append, hc.nodup, true_and]
      refine ⟨by simp, ?_⟩
      intro a hA b hb
      rw [List.mem_singleton.1 hb]; rintro rfl; exact this hA
    · intro g' hg'
      rcases List.mem_append.1 hg' with h | h
      · obtain ⟨L', h'⟩ := hc.den _ h
        exact ⟨L', h'.mono _⟩
      · rw [List.mem_singleton.1 h]; exact ⟨L, hd.mono _⟩

/-! ## Trie nodes -/

/-- `p` branches off `P` to the left. -/
def Div (p P : List UInt8) : Prop := ∃ q l m r1 r2, p = q ++ l :: r1 ∧ P = q ++ m :: r2 ∧ l < m

/-- `N` lists the finished trie nodes (as prefixes) with the states they are merged into; `pend` is the
state of the finished target of the open transition of the deepest frame, if it is finished. -/
structure NInv (c : Core) (fs : List Frame) (pend : Option Nat) (N : List (List UInt8 × Nat)) : Prop where
  nodup : (N.map Prod.fst).Nodup
  start : ∀ x ∈ N, x.2 ∈ starts 1 c.groups
  count : ∀ s ∈ starts 1 c.groups, 1 ≤ N.countP (fun x => x.2 == s) ∧ (s ∈ c.marked ↔ 2 ≤ N.countP (fun x => x.2 == s))
  markedSub : ∀ s ∈ c.marked, s ∈ starts 1 c.groups
  markedNodup : c.marked.Nodup
  fwd : ∀ p s g q, (p, s) ∈ N → IsStart c.groups s g → q ∈ g → q.1 ≠ 0 → (p ++ [q.1], baseChild q.2) ∈ N
  fwdF : ∀ f fs', (f :: fs') <:+ fs → ∀ e ∈ f.closed, e.label ≠ 0 → (path fs' ++ [e.label], e.child) ∈ N
  pendIn : ∀ s, pend = some s → (path fs, s) ∈ N
  bwd : ∀ p s, (p, s) ∈ N →
    (∃ p' t g q, (p', t) ∈ N ∧ IsStart c.groups t g ∧ q ∈ g ∧ q.1 ≠ 0 ∧ p = p' ++ [q.1] ∧ s = baseChild q.2) ∨
    (∃ f fs' e, (f :: fs') <:+ fs ∧ e ∈ f.closed ∧ e.label ≠ 0 ∧ p = path fs' ++ [e.label] ∧ s = e.child) ∨
    (pend = some s ∧ p = path fs)
  sep : ∀ x ∈ N, Div x.1 (path fs) ∨ (pend.isSome ∧ path fs <+: x.1)
  sum : (N.map fun x => (groupAt 1 c.groups x.2).length).sum = c.groups.flatten.length + c.merged

theorem not_div_snoc {p : List UInt8} {x : UInt8} : ¬ Div p (p ++ [x]) := by
  rintro ⟨q, l, m, r1, r2, h1, h2, h3⟩
  rw [h1] at h2
  rw [List.append_assoc, List.append_cancel_left_eq] at h2
  simp only [List.cons_append, List.cons.injEq] at h2
  rw [h2.1] at h3
  exact absurd h3 (UInt8.lt_irrefl _)

/-- Branching off to the left of `P ++ [l]`. -/
theorem div_snoc {p P : List UInt8} {l : UInt8} (h : Div p (P ++ [l])) : Div p P ∨ (∃ l' r, p = P ++ l' :: r ∧ l' < l) := by
  obtain ⟨q, a, m, r1, r2, h1, h2, h3⟩ := h
  rcases List.eq_nil_or_concat r2 with rfl | ⟨r2', x, rfl⟩
  · have : P = q ∧ [l] = [m] := List.append_inj' h2 rfl
    obtain ⟨rfl, hm⟩ := this
    simp only [List.cons.injEq, and_true] at hm
    exact .inr ⟨a, r1, h1, by rw [hm]; exact h3⟩
  · rw [show q ++ m :: (r2'.concat x) = (q ++ m :: r2') ++ [x] by simp] at h2
    have := (List.append_inj' h2 rfl).1
    exact .inl ⟨q, a, m, r1, r2', h1, this, h3⟩

theorem Div.append {p P : List UInt8} (h : Div p P) (s : List UInt8) : Div p (P ++ s) := by
  obtain ⟨q, l, m, r1, r2, h1, h2, h3⟩ := h
  exact ⟨q, l, m, r1, r2 ++ s, h1, by rw [h2]; simp, h3⟩

theorem encNode_mem {l : UInt8} {c : Nat} {es : List Edge} {p : Pair} (h : p ∈ encNode l c es) :
    ∃ e ∈ (⟨l, c⟩ :: es : List Edge), ∃ st sib, p = (e.label, baseOf e.label e.child st sib) := by
  obtain ⟨i, hi, rfl⟩ := List.mem_iff_getElem.1 h
  obtain ⟨_, e, he, hp⟩ := encNode_get l c es i _ (List.getElem?_eq_getElem hi)
  exact ⟨e, List.mem_of_getElem? he, _, _, hp⟩

theorem mem_encClosed {es : List Edge} {e : Edge} (h : e ∈ es) : ∃ st sib, (e.label, baseOf e.label e.child st sib) ∈ encClosed es := by
  induction es with
  | nil => simp at h
  | cons a es ih =>
    rcases List.mem_cons.1 h with rfl | h
    · exact ⟨_, _, List.mem_cons_self⟩
    · obtain ⟨st, sib, h⟩ := ih h; exact ⟨st, sib, List.mem_cons_of_mem _ h⟩

theorem mem_encNode {l : UInt8} {c : Nat} {es : List Edge} {e : Edge} (h : e ∈ (⟨l, c⟩ :: es : List Edge)) :
    ∃ st sib, (e.label, baseOf e.label e.child st sib) ∈ encNode l c es := by
  unfold encNode
  rcases List.mem_cons.1 h with rfl | h
  · exact ⟨_, _, by rw [List.mem_reverse]; exact List.mem_cons_self⟩
  · obtain ⟨st, sib, h⟩ := mem_encClosed h
    exact ⟨st, sib, by rw [List.mem_reverse]; exact List.mem_cons_of_mem _ h⟩

theorem groupAt_append {gs hs : List Group} {s : Nat} (hs' : s ∈ starts 1 gs) (hne : ∀ g ∈ gs ++ hs, g ≠ []) :
    groupAt 1 (gs ++ hs) s = groupAt 1 gs s := by
  obtain ⟨g, hg⟩ := mem_starts.1 hs'
  rw [(hg.append hs).groupAt hne, hg.groupAt (fun g h => hne g (by simp [h]))]

theorem NInv.close {c : Core} {f : Frame} {fs : List Frame} {pend : Option Nat} {N : List (List UInt8 × Nat)} {child : Nat}
    (h : NInv c (f :: fs) pend N) (hc : CInv c) (hp : f.label ≠ 0 → pend = some child) (hp0 : f.label = 0 → pend = none)
    (hlen : poolLen c.groups ≤ 1073741824) (hc' : CInv (c.put (encNode f.label child f.closed)).1) :
    NInv (c.put (encNode f.label child f.closed)).1 fs (some (c.put (encNode f.label child f.closed)).2)
      (N ++ [(path fs, (c.put (encNode f.label child f.closed)).2)]) := by
  generalize hg : encNode f.label child f.closed = g at *
  have hlt : ∀ s ∈ starts 1 c.groups, s < 1073741824 := fun s hs =>
    Nat.lt_of_lt_of_le (starts_lt hc.ne hs) (by simpa [poolLen] using hlen)
  have hext : ∃ hs, (c.put g).1.groups = c.groups ++ hs := by
    unfold Core.put; split
    · exact ⟨[], by simp⟩
    · exact ⟨[g], rfl⟩
  have hst : IsStart (c.put g).1.groups (c.put g).2 g := by
    unfold Core.put; split
    · rename_i i hi; exact findStart_some hi
    · exact IsStart.last _ _
  obtain ⟨hs, hext⟩ := hext
  have hold : ∀ s ∈ starts 1 c.groups, s ∈ starts 1 (c.put g).1.groups := by
    intro s hs'; rw [hext, starts_append]; exact List.mem_append_left _ hs'
  have hnew : path fs ∉ N.map Prod.fst := by
    intro hm
    obtain ⟨x, hx, he⟩ := List.mem_map.1 hm
    rcases h.sep x hx with hd | ⟨_, hpre⟩
    · rw [he, path_cons] at hd; exact not_div_snoc hd
    · rw [he, path_cons] at hpre
      have := hpre.length_le
      simp at this
      omega
  -- children of the new node
  have hkids : ∀ e ∈ (⟨f.label, child⟩ :: f.closed : List Edge), e.label ≠ 0 → (path fs ++ [e.label], e.child) ∈ N := by
    intro e he hl
    rcases List.mem_cons.1 he with rfl | he
    · have := h.pendIn child (hp hl)
      rwa [path_cons] at this
    · exact h.fwdF f fs (List.suffix_refl _) e he hl
  have hkid' : ∀ e ∈ (⟨f.label, child⟩ :: f.closed : List Edge), e.label ≠ 0 →
      ∃ q ∈ g, q.1 = e.label ∧ baseChild q.2 = e.child := by
    intro e he hl
    obtain ⟨st, sib, hm⟩ := mem_encNode he
    rw [hg] at hm
    exact ⟨_, hm, rfl, baseChild_baseOf hl (hlt _ (h.start _ (hkids e he hl)))⟩
  have hbwdnew : ∀ e ∈ (⟨f.label, child⟩ :: f.closed : List Edge), e.label ≠ 0 →
      ∃ p' t g' q, (p', t) ∈ N ++ [(path fs, (c.put g).2)] ∧ IsStart (c.put g).1.groups t g' ∧ q ∈ g' ∧ q.1 ≠ 0 ∧
        path fs ++ [e.label] = p' ++ [q.1] ∧ e.child = baseChild q.2 := by
    intro e he hl
    obtain ⟨q, hq, h1, h2⟩ := hkid' e he hl
    exact ⟨path fs, (c.put g).2, g, q, by simp, hst, hq, by rw [h1]; exact hl, by rw [h1], h2.symm⟩
  refine ⟨?_, ?_, ?_, ?_, ?_, ?_, ?_, ?_, ?_, ?_, ?_⟩
  · rw [List.map_append, List.nodup_append]
    refine ⟨h.nodup, by simp, ?_⟩
    intro a ha b hb
    simp at hb; subst hb
    rintro rfl; exact hnew ha
  · intro x hx
    rcases List.mem_append.1 hx with hx | hx
    · exact hold _ (h.start x hx)
    · rw [List.mem_singleton.1 hx]; exact mem_starts.2 ⟨g, hst⟩
  · intro s hs'
    rw [List.countP_append]
    unfold Core.put at hs' ⊢
    split at hs'
    · rename_i i hi
      simp only [hi]
      have hin : i ∈ starts 1 c.groups := mem_starts.2 ⟨g, findStart_some hi⟩
      obtain ⟨h1, h2⟩ := h.count s hs'
      by_cases hsi : i = s
      · subst hsi
        simp only [List.countP_singleton, beq_self_eq_true, if_true]
        refine ⟨by omega, ?_⟩
        constructor
        · intro _; omega
        · intro _; split
          · assumption
          · simp
      · have hb : (i == s) = false := beq_eq_false_iff_ne.2 hsi
        simp only [List.countP_singleton, hb, Bool.false_eq_true, if_false, Nat.add_zero]
        refine ⟨h1, ?_⟩
        rw [← h2]
        split
        · rfl
        · rw [List.mem_cons]; constructor
          · rintro (rfl | h)
            · exact absurd rfl hsi
            · exact h
          · exact .inr
    · rename_i hn
      simp only [hn]
      simp only at hs'
      rw [starts_snoc] at hs'
      have hz : N.countP (fun x => x.2 == poolLen c.groups) = 0 := by
        rw [List.countP_eq_zero]
        intro x hx he
        have := starts_lt hc.ne (h.start x hx)
        simp only [beq_iff_eq] at he
        rw [he] at this
        simp [poolLen] at this
      rcases List.mem_append.1 hs' with hs' | hs'
      · obtain ⟨h1, h2⟩ := h.count s hs'
        have hsi : poolLen c.groups ≠ s := by
          have := starts_lt hc.ne hs'
          simp only [poolLen]; omega
        have hb : (poolLen c.groups == s) = false := beq_eq_false_iff_ne.2 hsi
        simp only [List.countP_singleton, hb, Bool.false_eq_true, if_false, Nat.add_zero]
        exact ⟨h1, h2⟩
      · rw [List.mem_singleton.1 hs', hz]
        simp only [List.countP_singleton, beq_self_eq_true, if_true]
        refine ⟨by omega, ?_⟩
        constructor
        · intro hm
          have := starts_lt hc.ne (h.markedSub _ hm)
          simp [poolLen] at this
        · omega
  · intro s hs'
    unfold Core.put at hs'
    split at hs'
    · rename_i i hi
      unfold Core.put
      simp only [hi] at hs' ⊢
      split at hs'
      · exact h.markedSub _ hs'
      · rcases List.mem_cons.1 hs' with rfl | hs'
        · exact mem_starts.2 ⟨g, findStart_some hi⟩
        · exact h.markedSub _ hs'
    · exact hold _ (h.markedSub _ hs')
  · unfold Core.put
    split
    · simp only
      split
      · exact h.markedNodup
      · rename_i hni; exact List.nodup_cons.2 ⟨hni, h.markedNodup⟩
    · exact h.markedNodup
  · intro p s g' q hps hst' hq hl
    rcases List.mem_append.1 hps with hps | hps
    · apply List.mem_append_left
      obtain ⟨g0, hg0⟩ := mem_starts.1 (h.start _ hps)
      have := hg0.append hs
      rw [← hext] at this
      have := this.unique hst' hc'.ne
      subst this
      exact h.fwd p s g0 q hps hg0 hq hl
    · apply List.mem_append_left
      simp only [List.mem_singleton, Prod.mk.injEq] at hps
      obtain ⟨rfl, rfl⟩ := hps
      have := hst.unique hst' hc'.ne
      subst this
      rw [← hg] at hq
      obtain ⟨e, he, st, sib, rfl⟩ := encNode_mem hq
      have hk := hkids e he hl
      rw [baseChild_baseOf hl (hlt _ (h.start _ hk))]
      exact hk
  · intro f' fs' hsuf e he hl
    exact List.mem_append_left _ (h.fwdF f' fs' (hsuf.trans (List.suffix_cons _ _)) e he hl)
  · intro s hs'
    simp only [Option.some.injEq] at hs'
    subst hs'
    simp
  · intro p s hps
    rcases List.mem_append.1 hps with hps | hps
    · rcases h.bwd p s hps with ⟨p', t, g', q, h1, h2, h3⟩ | ⟨f', fs', e, h1, h2, h3, h4, h5⟩ | ⟨h1, h2⟩
      · refine .inl ⟨p', t, g', q, List.mem_append_left _ h1, ?_, h3⟩
        rw [hext]; exact h2.append hs
      · rcases List.suffix_cons_iff.1 h1 with heq | h1
        · simp only [List.cons.injEq] at heq
          obtain ⟨rfl, rfl⟩ := heq
          left
          rw [h4, h5]
          exact hbwdnew e (List.mem_cons_of_mem _ h2) h3
        · exact .inr (.inl ⟨f', fs', e, h1, h2, h3, h4, h5⟩)
      · left
        have hl : f.label ≠ 0 := by
          intro h0; rw [hp0 h0] at h1; simp at h1
        rw [hp hl] at h1
        simp only [Option.some.injEq] at h1
        rw [h2, ← h1, path_cons]
        exact hbwdnew ⟨f.label, child⟩ List.mem_cons_self hl
    · simp only [List.mem_singleton, Prod.mk.injEq] at hps
      exact .inr (.inr ⟨by rw [hps.2], hps.1⟩)
  · intro x hx
    rcases List.mem_append.1 hx with hx | hx
    · rcases h.sep x hx with hd | ⟨_, hpre⟩
      · rw [path_cons] at hd
        rcases div_snoc hd with hd | ⟨l', r, he, _⟩
        · exact .inl hd
        · exact .inr ⟨rfl, by rw [he]; exact List.prefix_append _ _⟩
      · rw [path_cons] at hpre
        exact .inr ⟨rfl, (List.prefix_append _ _).trans hpre⟩
    · rw [List.mem_singleton.1 hx]
      exact .inr ⟨rfl, List.prefix_refl _⟩
  · rw [List.map_append, List.sum_append]
    have h1 : (N.map fun x => (groupAt 1 (c.put g).1.groups x.2).length) = N.map fun x => (groupAt 1 c.groups x.2).length := by
      apply List.map_congr_left
      intro x hx
      rw [hext, groupAt_append (h.start x hx) (by rw [← hext]; exact hc'.ne)]
    rw [h1, h.sum]
    simp only [List.map_cons, List.map_nil, List.sum_cons, List.sum_nil, hst.groupAt hc'.ne]
    unfold Core.put
    split
    · simp only; omega
    · simp only [List.flatten_append, List.length_append, List.flatten_cons, List.flatten_nil, List.length_nil]; omega

theorem closeFrames_spec : ∀ (ds : List Frame) (c : Core) (child : Nat) (fs : List Frame) (P X : Lang)
    (pend : Option Nat) (N : List (List UInt8 × Nat)) (f : Frame),
    CInv c → (∀ d ∈ f :: ds, Desc d.label d.closed) → poolLen c.groups + edges (f :: ds) ≤ 1073741824 →
    DenC c.groups f.label child X → (∀ d ∈ ds, d.label ≠ 0) → Ctx c.groups (f :: ds ++ fs) P →
    NInv c (f :: ds ++ fs) pend N → (f.label ≠ 0 → pend = some child) → (f.label = 0 → pend = none) →
    let r := closeFrames (f :: ds) child c
    CInv r.1 ∧ (∃ hs, r.1.groups = c.groups ++ hs) ∧
    (∃ g Y P0, IsStart r.1.groups r.2 g ∧ DenG r.1.groups g Y ∧ Ctx r.1.groups fs P0 ∧
      P ++ (up f.label X).map (pre (path (ds ++ fs))) = P0 ++ Y.map (pre (path fs))) ∧
    ∃ N', NInv r.1 fs (some r.2) N' := by
  intro ds
  induction ds with
  | nil =>
    intro c child fs P X pend N f hc hd hlen hX hnz hctx hN hp hp0
    obtain ⟨P1, Lc, hc1, hE, rfl⟩ := hctx
    have hlen' : poolLen c.groups ≤ 1073741824 := by omega
    have hden := encNode_denG hlen' hc.ne hE hX
    have hdf := hd f (by simp)
    obtain ⟨hc', ⟨hs, hext⟩, hst⟩ := put_spec hc (encNode_wf hdf) (encNode_asc hdf) hden
    simp only [closeFrames]
    refine ⟨hc', ⟨hs, hext⟩, ⟨_, _, P1, hst, by rw [hext]; exact hden.mono hs, by rw [hext]; exact hc1.mono hs, by simp⟩, ?_⟩
    exact ⟨_, hN.close hc hp hp0 hlen' hc'⟩
  | cons f' ds ih =>
    intro c child fs P X pend N f hc hd hlen hX hnz hctx hN hp hp0
    obtain ⟨P1, Lc, hc1, hE, rfl⟩ := hctx
    have hlen' : poolLen c.groups ≤ 1073741824 := by omega
    have hden := encNode_denG hlen' hc.ne hE hX
    have hdf := hd f (by simp)
    obtain ⟨hc', ⟨hs, hext⟩, hst⟩ := put_spec hc (encNode_wf hdf) (encNode_asc hdf) hden
    have hN' := hN.close hc hp hp0 hlen' hc'
    have hl' : f'.label ≠ 0 := hnz f' (by simp)
    have hpl := c.put_poolLen (encNode f.label child f.closed)
    rw [encNode_length] at hpl
    have := ih (c.put (encNode f.label child f.closed)).1 (c.put (encNode f.label child f.closed)).2 fs P1
      (Lc ++ up f.label X) _ _ f' hc' (fun d hd' => hd d (List.mem_cons_of_mem _ hd'))
      (by simp only [edges, List.length_cons] at hlen ⊢; omega)
      (by unfold DenC; rw [if_neg hl']; exact ⟨_, hst, by rw [hext]; exact hden.mono hs⟩)
      (fun d hd' => hnz d (List.mem_cons_of_mem _ hd')) (by rw [hext]; exact hc1.mono hs) hN' (fun _ => rfl) (fun h => absurd h hl')
    simp only at this
    obtain ⟨r1, ⟨hs2, r2⟩, ⟨g, Y, P0, r3, r4, r5, r6⟩, r7⟩ := this
    rw [closeFrames]
    refine ⟨r1, ⟨hs ++ hs2, by rw [r2, hext, List.append_assoc]⟩, ⟨g, Y, P0, r3, r4, r5, ?_⟩, r7⟩
    rw [← r6]
    have hup : ∀ Z, up f'.label Z = Z.map (pre [f'.label]) := fun Z => if_neg hl'
    rw [hup, map_pre_map_pre, List.cons_append, path_cons, List.map_append, List.append_assoc]
    rw [show (f' :: ds).append fs = f' :: (ds ++ fs) from rfl, path_cons]

end Dawg.Abs
