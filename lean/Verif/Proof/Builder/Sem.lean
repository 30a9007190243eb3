import Verif.Proof.Builder.Run
/-! # Languages of finished states -/
namespace Dawg.Abs
attribute [-simp] List.length_flatten

/-- A key (or suffix of a key) with its value word. -/
abbrev Entry := List UInt8 × Nat
abbrev Lang := List Entry

/-- Prefixing all keys. -/
def pre (p : List UInt8) (e : Entry) : Entry := (p ++ e.1, e.2)

theorem pre_nil (e : Entry) : pre [] e = e := by simp [pre]
theorem map_pre_nil (L : Lang) : L.map (pre []) = L := by
  rw [show (pre []) = id from funext pre_nil]; simp
theorem map_pre_map_pre (p q : List UInt8) (L : Lang) : (L.map (pre q)).map (pre p) = L.map (pre (p ++ q)) := by
  simp [pre, Function.comp_def]
theorem pre_inj {p : List UInt8} {a b : Entry} (h : pre p a = pre p b) : a = b := by
  simp [pre] at h; exact Prod.ext h.1 h.2
theorem map_pre_inj {p : List UInt8} {L L' : Lang} (h : L.map (pre p) = L'.map (pre p)) : L = L' :=
  (List.map_inj_right (fun _ _ => pre_inj)).1 h

/-- `L` is the language of the transitions `g`. -/
inductive DenG (gs : List Group) : Group → Lang → Prop
  | nil : DenG gs [] []
  | leaf {b rest L} : DenG gs rest L → DenG gs ((0, b) :: rest) (([], baseValue b) :: L)
  | node {l b g' L' rest L} : l ≠ 0 → IsStart gs (baseChild b) g' → DenG gs g' L' → DenG gs rest L →
      DenG gs ((l, b) :: rest) (L'.map (pre [l]) ++ L)

theorem DenG.append {gs g L g' L'} (h : DenG gs g L) (h' : DenG gs g' L') : DenG gs (g ++ g') (L ++ L') := by
  induction h with
  | nil => simpa
  | leaf _ ih => exact .leaf ih
  | node hl hs hc _ _ ih => rw [List.append_assoc]; exact .node hl hs hc ih

theorem DenG.mono {gs g L} (h : DenG gs g L) (hs : List Group) : DenG (gs ++ hs) g L := by
  induction h with
  | nil => exact .nil
  | leaf _ ih => exact .leaf ih
  | node hl hst _ _ ih1 ih2 => exact .node hl (hst.append hs) ih1 ih2

/-- Ascending labels. -/
def Asc (g : Group) : Prop := List.Pairwise (fun a b => a.1 < b.1) g

/-- Flag bits, by recursion. -/
def Flags : Bool → Group → Prop
  | _, [] => True
  | first, p :: rest => (p.1 == 0 || baseIsState p.2) = first ∧ baseHasSibling p.2 = !rest.isEmpty ∧ Flags false rest

theorem GroupWf.flags {g : Group} (h : GroupWf g) : Flags true g := by
  suffices ∀ (g : Group) (first : Bool), (∀ (i : Nat) p, g[i]? = some p → baseHasSibling p.2 = decide (i + 1 < g.length)) →
      (∀ (i : Nat) p, g[i]? = some p → (p.1 == 0 || baseIsState p.2) = (first && decide (i = 0))) → Flags first g by
    exact this g true h.sib (by simpa using h.first)
  intro g
  induction g with
  | nil => intros; trivial
  | cons p g ih =>
    intro first h1 h2
    refine ⟨by simpa using h2 0 p rfl, ?_, ih false ?_ ?_⟩
    · rw [h1 0 p rfl]; cases g <;> simp
    · intro i q hq; rw [h1 (i + 1) q (by simpa using hq)]; simp
    · intro i q hq; rw [h2 (i + 1) q (by simpa using hq)]; simp

/-- The finished core. -/
structure CInv (c : Core) : Prop where
  wf : ∀ g ∈ c.groups, GroupWf g
  asc : ∀ g ∈ c.groups, Asc g
  nodup : c.groups.Nodup
  den : ∀ g ∈ c.groups, ∃ L, DenG c.groups g L

theorem CInv.ne {c} (h : CInv c) : ∀ g ∈ c.groups, g ≠ [] := fun g hg => (h.wf g hg).ne

theorem DenG.ne_nil {gs g L} (h : DenG gs g L) (hne : ∀ g ∈ gs, g ≠ []) (hg : g ≠ []) : L ≠ [] := by
  induction h with
  | nil => exact absurd rfl hg
  | leaf => simp
  | node _ hst _ _ ih _ =>
    have := ih (hne _ hst.mem)
    simp [this]

theorem DenG.det {gs g L L'} (h : DenG gs g L) (hne : ∀ g ∈ gs, g ≠ []) (h' : DenG gs g L') : L = L' := by
  induction h generalizing L' with
  | nil => cases h'; rfl
  | leaf _ ih =>
    cases h' with
    | leaf h2 => rw [ih h2]
    | node hl => exact absurd rfl hl
  | node hl hst _ _ ih1 ih2 =>
    cases h' with
    | leaf => exact absurd rfl hl
    | node _ hst' hc' hr' =>
      have := hst.unique hst' hne
      subst this
      rw [ih1 hc', ih2 hr']

/-- First symbols of the language. -/
theorem DenG.heads {gs g L} (h : DenG gs g L) {e : Entry} (he : e ∈ L) :
    ∃ p ∈ g, (p.1 = 0 ∧ e.1 = []) ∨ (p.1 ≠ 0 ∧ ∃ k, e.1 = p.1 :: k) := by
  induction h with
  | nil => simp at he
  | leaf _ ih =>
    rcases List.mem_cons.1 he with rfl | he
    · exact ⟨_, List.mem_cons_self, .inl ⟨rfl, rfl⟩⟩
    · obtain ⟨p, hp, h⟩ := ih he; exact ⟨p, List.mem_cons_of_mem _ hp, h⟩
  | node hl _ _ _ _ ih =>
    rcases List.mem_append.1 he with he | he
    · simp only [List.mem_map] at he
      obtain ⟨a, _, rfl⟩ := he
      exact ⟨_, List.mem_cons_self, .inr ⟨hl, a.1, rfl⟩⟩
    · obtain ⟨p, hp, h⟩ := ih he; exact ⟨p, List.mem_cons_of_mem _ hp, h⟩

theorem base_ext_node {b b' : Nat} (h1 : baseChild b = baseChild b') (h2 : baseIsState b = baseIsState b')
    (h3 : baseHasSibling b = baseHasSibling b') : b = b' := by
  unfold baseIsState baseHasSibling at *
  rw [and_one_ne_zero, and_one_ne_zero] at h3
  rw [and_two_ne_zero, and_two_ne_zero] at h2
  apply Nat.eq_of_testBit_eq
  intro i
  match i with
  | 0 => exact h3
  | 1 => exact h2
  | i + 2 =>
    have := congrArg (fun x => x.testBit i) h1
    simpa [baseChild, Nat.testBit_shiftRight, Nat.add_comm] using this

theorem base_ext_leaf {b b' : Nat} (h1 : baseValue b = baseValue b') (h3 : baseHasSibling b = baseHasSibling b') : b = b' := by
  unfold baseHasSibling at *
  rw [and_one_ne_zero, and_one_ne_zero] at h3
  apply Nat.eq_of_testBit_eq
  intro i
  match i with
  | 0 => exact h3
  | i + 1 =>
    have := congrArg (fun x => x.testBit i) h1
    simpa [baseValue, Nat.testBit_shiftRight, Nat.add_comm] using this

/-- Splitting a language at its first symbol is unambiguous. -/
theorem split_unique {l : UInt8} {A A' B B' : Lang} (h : A.map (pre [l]) ++ B = A'.map (pre [l]) ++ B')
    (hB : ∀ e ∈ B, ∀ k, e.1 ≠ l :: k) (hB' : ∀ e ∈ B', ∀ k, e.1 ≠ l :: k) : A = A' ∧ B = B' := by
  induction A generalizing A' with
  | nil =>
    cases A' with
    | nil => exact ⟨rfl, by simpa using h⟩
    | cons a A' =>
      simp at h
      exact absurd (by simp [pre]) (hB (pre [l] a) (by rw [h]; simp) a.1)
  | cons a A ih =>
    cases A' with
    | nil =>
      simp at h
      exact absurd (by simp [pre]) (hB' (pre [l] a) (by rw [← h]; simp) a.1)
    | cons a' A' =>
      simp only [List.map_cons, List.cons_append, List.cons.injEq] at h
      obtain ⟨h1, h2⟩ := ih h.2
      exact ⟨by rw [pre_inj h.1, h1], h2⟩

theorem DenG.inj {c : Core} (hc : CInv c) {g L} (h : DenG c.groups g L) : ∀ {g'} {fl : Bool}, DenG c.groups g' L →
    Flags fl g → Flags fl g' → Asc g → Asc g' → g = g' := by
  induction h with
  | nil =>
    intro g' fl h' _ _ _ _
    cases g' with
    | nil => rfl
    | cons p g' => exact absurd rfl (h'.ne_nil hc.ne (by simp))
  | @leaf b rest L hr ih =>
    intro g' fl h' hf hf' ha ha'
    generalize hL : ([], baseValue b) :: L = M at h'
    cases h' with
    | nil => simp at hL
    | @leaf b' rest' L' hr' =>
      simp only [List.cons.injEq, Prod.mk.injEq, true_and] at hL
      obtain ⟨hv, rfl⟩ := hL
      have := ih hr' hf.2.2 hf'.2.2 (List.pairwise_cons.1 ha).2 (List.pairwise_cons.1 ha').2
      subst this
      rw [base_ext_leaf hv (hf.2.1.trans hf'.2.1.symm)]
    | @node l b' g1 L1 rest' L' hl hst hc' hr' =>
      have h1 := hc'.ne_nil hc.ne (hc.ne _ hst.mem)
      cases L1 with
      | nil => exact absurd rfl h1
      | cons a L1 => simp [pre] at hL
  | @node l b g1 L1 rest L hl hst hcd hr ih1 ih2 =>
    intro g' fl h' hf hf' ha ha'
    have hn1 := hcd.ne_nil hc.ne (hc.ne _ hst.mem)
    generalize hL : L1.map (pre [l]) ++ L = M at h'
    cases h' with
    | nil => simp at hL; exact absurd hL.1 hn1
    | @leaf b' rest' L' hr' =>
      cases L1 with
      | nil => exact absurd rfl hn1
      | cons a L1 => simp [pre] at hL
    | @node l' b' g1' L1' rest' L' hl' hst' hcd' hr' =>
      have hn1' := hcd'.ne_nil hc.ne (hc.ne _ hst'.mem)
      have hll : l = l' := by
        cases L1 with
        | nil => exact absurd rfl hn1
        | cons a L1 =>
          cases L1' with
          | nil => exact absurd rfl hn1'
          | cons a' L1' => simp [pre] at hL; exact hL.1.1.1
      subst hll
      have aux : ∀ {rest : Group} {b : Nat} {L : Lang}, Asc ((l, b) :: rest) → DenG c.groups rest L →
          ∀ e ∈ L, ∀ k, e.1 ≠ l :: k := by
        intro rest b L ha hr e he k hk
        obtain ⟨p, hp, h⟩ := hr.heads he
        have hlt := (List.pairwise_cons.1 ha).1 p hp
        rcases h with ⟨_, h⟩ | ⟨_, k', h⟩
        · rw [h] at hk; simp at hk
        · rw [h] at hk
          simp only [List.cons.injEq] at hk
          rw [hk.1] at hlt
          exact absurd hlt (UInt8.lt_irrefl _)
      obtain ⟨e1, e2⟩ := split_unique hL (aux ha hr) (aux ha' hr')
      subst e1 e2
      have r1 := ih1 hcd' (hc.wf _ hst.mem).flags (hc.wf _ hst'.mem).flags (hc.asc _ hst.mem) (hc.asc _ hst'.mem)
      subst r1
      have r2 := ih2 hr' hf.2.2 hf'.2.2 (List.pairwise_cons.1 ha).2 (List.pairwise_cons.1 ha').2
      subst r2
      have hch := hst.inj hc.nodup hst'
      have hst1 : baseIsState b = baseIsState b' := by
        have := hf.1.trans hf'.1.symm
        have hb : (l == 0) = false := beq_eq_false_iff_ne.2 hl
        simpa only [hb, Bool.false_or] using this
      rw [base_ext_node hch hst1 (hf.2.1.trans hf'.2.1.symm)]

/-- Distinct finished states have distinct languages. -/
theorem CInv.minimal {c : Core} (hc : CInv c) {g g' L} (hg : g ∈ c.groups) (hg' : g' ∈ c.groups) (h : DenG c.groups g L)
    (h' : DenG c.groups g' L) : g = g' :=
  h.inj hc h' (hc.wf g hg).flags (hc.wf g' hg').flags (hc.asc g hg) (hc.asc g' hg')

theorem lex_append_left {p a b : List UInt8} (h : a < b) : p ++ a < p ++ b := by
  induction p with
  | nil => simpa
  | cons x p ih => simp [ih]

/-- Languages are sorted. -/
theorem DenG.sorted {gs g L} (h : DenG gs g L) (hasc : ∀ g ∈ gs, Asc g) (ha : Asc g) :
    L.Pairwise (fun a b => a.1 < b.1) := by
  induction h with
  | nil => exact List.Pairwise.nil
  | leaf hr ih =>
    obtain ⟨h1, h2⟩ := List.pairwise_cons.1 ha
    refine List.pairwise_cons.2 ⟨?_, ih h2⟩
    intro e he
    obtain ⟨p, hp, h⟩ := hr.heads he
    have := h1 p hp
    rcases h with ⟨h0, _⟩ | ⟨_, k, hk⟩
    · rw [h0] at this; exact absurd this (UInt8.lt_irrefl _)
    · rw [hk]; simp
  | node hl hst hc hr ih1 ih2 =>
    obtain ⟨h1, h2⟩ := List.pairwise_cons.1 ha
    refine List.pairwise_append.2 ⟨?_, ih2 h2, ?_⟩
    · rw [List.pairwise_map]
      exact (ih1 (hasc _ hst.mem)).imp (fun h => by simpa [pre, List.cons_lt_cons_iff] using h)
    · intro a ha' b hb
      simp only [List.mem_map] at ha'
      obtain ⟨a, _, rfl⟩ := ha'
      obtain ⟨p, hp, h⟩ := hr.heads hb
      have := h1 p hp
      rcases h with ⟨h0, _⟩ | ⟨_, k, hk⟩
      · rw [h0] at this; exact absurd this UInt8.not_lt_zero
      · rw [hk]; simp [pre, List.cons_lt_cons_iff]; exact .inl this

end Dawg.Abs
