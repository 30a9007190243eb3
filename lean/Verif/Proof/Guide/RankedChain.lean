import Verif.Proof.Guide.RankedBuild
import Verif.Proof.Guide.Heap
/-! # The RankedCompleter: creating a chain of nodes -/
namespace Dawg.Guided
attribute [-simp] List.length_flatten
open Dawg.Abs Dawg.Spec Dawg.Dict

/-- What lies behind the transitions `ls`; 0 is the terminal. -/
def underT (L : Lang) (ls : List UInt8) : Lang := ls.flatMap (fun l => if l = 0 then here L else (residual L [l]).map (pre [l]))

theorem underT_cons (L : Lang) (l : UInt8) (ls : List UInt8) : underT L (l :: ls) = underT L [l] ++ underT L ls := by
  simp [underT]

theorem underT_zero (L : Lang) : underT L [0] = here L := by simp [underT]
theorem underT_one (L : Lang) {l : UInt8} (h : l ≠ 0) : underT L [l] = (residual L [l]).map (pre [l]) := by simp [underT, h]

theorem underT_heads (L : Lang) {ls : List UInt8} (h : ∀ l ∈ ls, l ≠ 0) : underT L ls = under L ls := by
  unfold underT under
  rw [List.flatMap_def, List.flatMap_def]
  congr 1
  apply List.map_congr_left
  intro l hl
  rw [if_neg (h l hl)]

section
variable {D : Dictionary} {At : Nat → Lang → Prop} {kid : Nat → UInt8 → Nat} {clean : UInt8 → Prop} {gd : Guide} {ord : Lang → List UInt8}

theorem View.here_eq (V : View D At kid clean) {u L v} (h : At u L) (hv : (([] : Key), v) ∈ L) : here L = [([], v)] := by
  rcases V.shape h with ⟨h1, _⟩ | ⟨w, h1, h2⟩
  · exact absurd rfl (h1 _ hv)
  · have hw : v = w := by
      rw [h1] at hv
      rcases List.mem_cons.1 hv with hv | hv
      · cases hv; rfl
      · exact absurd rfl (h2 _ hv)
    subst hw
    unfold here
    rw [h1, List.filter_cons, if_pos (by simp)]
    congr 1
    rw [List.filter_eq_nil_iff]
    intro e he
    simpa using h2 e he

/-- The order of the transitions lists all of them. -/
def OrdPerm (At : Nat → Lang → Prop) (ord : Lang → List UInt8) : Prop := ∀ {u L}, At u L → (ord L).Perm (arcs L)

theorem underT_arcs (V : View D At kid clean) {u L} (h : At u L) : underT L (arcs L) = L := by
  rcases V.shape h with ⟨h1, h2⟩ | ⟨v, h1, h2⟩
  · have hany : (L.any (fun e => e.1 == [])) = false := by
      rw [List.any_eq_false]
      intro e he hc
      exact h1 e he (by simpa using hc)
    unfold arcs
    rw [hany, if_neg (by simp), List.nil_append, underT_heads L (fun l hl => V.heads_ne_zero h hl), ← h2]
  · have hmem : (([] : Key), v) ∈ L := by rw [h1]; simp
    have hany : (L.any (fun e => e.1 == [])) = true := List.any_eq_true.2 ⟨_, hmem, by simp⟩
    unfold arcs
    rw [hany, if_pos rfl, List.singleton_append, underT_cons, underT_zero, V.here_eq h hmem, underT_heads L (fun l hl => V.heads_ne_zero h hl),
      List.singleton_append, ← h1]

theorem underT_ord (V : View D At kid clean) (ho : OrdPerm At ord) {u L} (h : At u L) : (underT L (ord L)).Perm L := by
  have := List.Perm.flatMap_right (fun l => if l = 0 then here L else (residual L [l]).map (pre [l])) (ho h)
  refine List.Perm.trans this ?_
  exact List.Perm.of_eq (underT_arcs V h)

theorem zero_mem_ord (V : View D At kid clean) (ho : OrdPerm At ord) {u L} (h : At u L) : decide ((0 : UInt8) ∈ ord L) = L.any (fun e => e.1 == []) := by
  rw [Bool.eq_iff_iff, decide_eq_true_iff, (ho h).mem_iff, mem_arcs, List.any_eq_true]
  constructor
  · rintro (⟨_, v, hv⟩ | hh)
    · exact ⟨_, hv, by simp⟩
    · exact absurd rfl (V.heads_ne_zero h hh)
  · rintro ⟨⟨k, v⟩, h1, h2⟩
    simp only [beq_iff_eq] at h2
    subst h2
    exact .inl ⟨rfl, v, h1⟩

theorem ord_split (V : View D At kid clean) (ho : OrdPerm At ord) {u L A l post} (h : At u L) (hL : ord L = A ++ l :: post) :
    (l ≠ 0 → l ∈ heads L) ∧ (l = 0 → ∃ v, (([] : Key), v) ∈ L) ∧ l ∉ post := by
  have hl : l ∈ arcs L := (ho h).mem_iff.1 (by rw [hL]; simp)
  refine ⟨?_, ?_, ?_⟩
  · intro h0
    rcases mem_arcs.1 hl with ⟨h1, _⟩ | h1
    · exact absurd h1 h0
    · exact h1
  · rintro rfl
    rcases mem_arcs.1 hl with ⟨_, h1⟩ | h1
    · exact h1
    · exact absurd rfl (V.heads_ne_zero h h1)
  · have := (ho h).nodup_iff.2 (arcs_nodup V h)
    rw [hL, List.nodup_append] at this
    exact (List.nodup_cons.1 this.2.1).1

/-! ## Nodes and what they stand for -/

/-- What a node stands for: its parent (node, key, unit, language), its label, and the labels after it. -/
structure Item where
  par : Nat
  key : Key
  unit : Nat
  lang : Lang
  label : UInt8
  post : List UInt8

/-- The constant part of a node. -/
def stat (n : RNode) : Nat × Nat × UInt8 := (n.dictIndex, n.prevNodeIndex, n.label)

/-- Node `p` is the start node or a node with a label. -/
def Own (kid : Nat → UInt8 → Nat) (u0 : Nat) (L0 : Lang) (gs : List Item) (p : Nat) (k : Key) (u : Nat) (L : Lang) : Prop :=
  (p = 0 ∧ k = [] ∧ u = u0 ∧ L = L0) ∨
  (0 < p ∧ ∃ q, gs[p]? = some q ∧ q.label ≠ 0 ∧ k = q.key ++ [q.label] ∧ u = kid q.unit q.label ∧ L = residual q.lang [q.label])

structure Sound (At : Nat → Lang → Prop) (kid : Nat → UInt8 → Nat) (ord : Lang → List UInt8) (u0 : Nat) (L0 : Lang) (gs : List Item) (st : List (Nat × Nat × UInt8)) : Prop where
  len : st.length = gs.length
  root : ∃ p, st[0]? = some (u0, p, 88)
  ok : ∀ i g, 0 < i → gs[i]? = some g → st[i]? = some (kid g.unit g.label, g.par, g.label) ∧ g.par < i ∧ Own kid u0 L0 gs g.par g.key g.unit g.lang ∧
    At g.unit g.lang ∧ ∃ A, ord g.lang = A ++ g.label :: g.post

variable {u0 : Nat} {L0 : Lang}

theorem Own.append {gs p k u L} (h : Own kid u0 L0 gs p k u L) (gs' : List Item) : Own kid u0 L0 (gs ++ gs') p k u L := by
  rcases h with h | ⟨h0, q, h1, h2⟩
  · exact .inl h
  · exact .inr ⟨h0, q, by rw [List.getElem?_append_left (List.getElem?_eq_some_iff.1 h1).1]; exact h1, h2⟩

theorem Sound.lt {gs st} (h : Sound At kid ord u0 L0 gs st) : 0 < gs.length := by
  obtain ⟨_, hr⟩ := h.root
  rw [← h.len]
  exact (List.getElem?_eq_some_iff.1 hr).1

theorem Sound.push {gs st} (h : Sound At kid ord u0 L0 gs st) {p k u L A l post} (hown : Own kid u0 L0 gs p k u L) (hp : p < gs.length) (hat : At u L)
    (hL : ord L = A ++ l :: post) : Sound At kid ord u0 L0 (gs ++ [⟨p, k, u, L, l, post⟩]) (st ++ [(kid u l, p, l)]) where
  len := by simp [h.len]
  root := by
    obtain ⟨q, hq⟩ := h.root
    exact ⟨q, by rw [List.getElem?_append_left (List.getElem?_eq_some_iff.1 hq).1]; exact hq⟩
  ok := by
    intro i g hi hg
    by_cases hlt : i < gs.length
    · rw [List.getElem?_append_left hlt] at hg
      obtain ⟨h1, h2, h3, h4, h5⟩ := h.ok i g hi hg
      exact ⟨by rw [List.getElem?_append_left (by rw [h.len]; exact hlt)]; exact h1, h2, h3.append _, h4, h5⟩
    · have hi' : i = gs.length := by
        have := (List.getElem?_eq_some_iff.1 hg).1
        simp only [List.length_append, List.length_singleton] at this; omega
      subst hi'
      rw [List.getElem?_append_right (Nat.le_refl _)] at hg
      simp only [Nat.sub_self, List.getElem?_cons_zero, Option.some.injEq] at hg
      subst hg
      refine ⟨?_, hp, hown.append _, hat, A, hL⟩
      rw [List.getElem?_append_right (by rw [h.len]; exact Nat.le_refl _), h.len]
      simp

/-- The start node or a node with a label has its unit in the table. -/
theorem Own.stat {gs st p k u L} (hs : Sound At kid ord u0 L0 gs st) (h : Own kid u0 L0 gs p k u L) : ∃ x l, st[p]? = some (u, x, l) ∧ l ≠ 0 := by
  rcases h with ⟨rfl, _, rfl, _⟩ | ⟨h0, q, h1, h2, _, rfl, _⟩
  · obtain ⟨x, hx⟩ := hs.root
    exact ⟨x, 88, hx, by decide⟩
  · exact ⟨_, _, (hs.ok p q h0 h1).1, h2⟩

theorem Own.at (V : View D At kid clean) (ho : OrdPerm At ord) {gs st p k u L} (hs : Sound At kid ord u0 L0 gs st) (h0 : At u0 L0) (h : Own kid u0 L0 gs p k u L) : At u L := by
  rcases h with ⟨rfl, _, rfl, rfl⟩ | ⟨hp, q, h1, h2, _, rfl, rfl⟩
  · exact h0
  · obtain ⟨_, _, _, h4, A, h5⟩ := hs.ok p q hp h1
    exact V.step h4 ((ord_split V ho h4 h5).1 h2)

/-- What follows a node. -/
def Item.rest (g : Item) : Lang := (underT g.lang g.post).map (pre g.key)

/-- What is left to be listed at a key: the key, the language behind it, and the labels that have not been taken yet. -/
abbrev Task := Key × Lang × List UInt8
def Item.task (g : Item) : Task := (g.key, g.lang, g.post)

/-- The way down from a key along the first labels: the key and the value at its end, and what is left on the way. -/
inductive Dive (ord : Lang → List UInt8) : Key → Lang → List UInt8 → Entry → List Task → Prop
  | here {k L post v} : (([] : Key), v) ∈ L → Dive ord k L (0 :: post) (k, v) [(k, L, post)]
  | step {k L l post e ts} : l ≠ 0 → Dive ord (k ++ [l]) (residual L [l]) (ord (residual L [l])) e ts → Dive ord k L (l :: post) e ((k, L, post) :: ts)

/-- Earlier transitions lead to values that are at least as good. -/
def Desc (R : Nat → Nat → Prop) (At : Nat → Lang → Prop) (ord : Lang → List UInt8) : Prop :=
  ∀ {u L A l post}, At u L → ord L = A ++ l :: post → ∀ e ∈ underT L post, ∃ e' ∈ underT L [l], R e.2 e'.2

theorem rd_node {nodes : List RNode} {p : Nat} {x : Nat × Nat × UInt8} (h : (nodes.map stat)[p]? = some x) : ∃ n, nodes[p]? = some n ∧ rd nodes p = .ok n ∧ stat n = x := by
  rw [List.getElem?_map] at h
  cases hn : nodes[p]? with
  | none => rw [hn] at h; simp at h
  | some n =>
    rw [hn] at h
    exact ⟨n, rfl, rd_some hn, by simpa using h⟩

theorem createNode_eq (D : Dictionary) (rc : RankedCompleter) {x p : Nat} {l : UInt8} {b : Bool} (hl : l ≠ 0 → D.hasValue x = .ok b) (hb : l = 0 → b = false)
    (hlt : rc.nodes.length < 4294967296) :
    RankedCompleter.createNode D rc x p l = .ok ({ rc with nodes := rc.nodes ++ [⟨x, p, l, false, b⟩] }, rc.nodes.length) := by
  unfold RankedCompleter.createNode
  have e : u32 ((rc.nodes ++ [(⟨x, p, l, false, b⟩ : RNode)]).length - 1) = rc.nodes.length := by
    rw [List.length_append, List.length_singleton, Nat.add_sub_cancel, u32_of_lt hlt]
  by_cases h : l = 0
  · subst h
    have := hb rfl
    subst this
    rw [if_neg (by simp)]
    simp only [pure_eq_ok, ok_bind, e]
  · rw [if_pos h, hl h]
    simp only [ok_bind, pure_eq_ok, e]

/-- `findTerminal` from a new node: a chain of new nodes. -/
theorem chain_spec (V : View D At kid clean) (ho : OrdPerm At ord) (hg : GuideIs D At kid ord gd) (S : Prop) {R : Nat → Nat → Prop} (hR : ∀ a, R a a) (hT : ∀ {a b c}, R a b → R b c → R a c) (hS : S → Desc R At ord) :
    ∀ (fuel : Nat) {rc : RankedCompleter} {gs nodes p k u L A l post b}, Sound At kid ord u0 L0 gs (nodes.map stat) → Own kid u0 L0 gs p k u L → p < gs.length → At u L →
    ord L = A ++ l :: post → (nodes.map RNode.hasTerminal)[p]? = some (decide (0 ∈ post)) →
    (∀ e ∈ underT L [l], e.1.length < fuel) → (∀ e ∈ underT L [l], nodes.length + e.1.length + 1 < 4294967296) →
    rc.nodes = nodes ++ [⟨kid u l, p, l, false, b⟩] → b = decide (l ≠ 0 ∧ 0 ∈ ord (residual L [l])) →
    ∃ gs' nodes' m k' v, RankedCompleter.findTerminalLoop D gd fuel rc nodes.length = .ok ({ rc with nodes := nodes ++ nodes' }, nodes.length + m) ∧
      Sound At kid ord u0 L0 (gs ++ gs') ((nodes ++ nodes').map stat) ∧ gs'.length = m + 1 ∧ (∀ n ∈ nodes', n.isQueued = false) ∧
      (∀ j g, gs'[j]? = some g → g.par = if j = 0 then p else nodes.length + (j - 1)) ∧
      (∀ g ∈ gs', ((nodes ++ nodes').map RNode.hasTerminal)[g.par]? = some (decide (0 ∈ g.post))) ∧
      (∃ g, gs'[m]? = some g ∧ g.key = k' ∧ g.label = 0) ∧
      (∃ n w, (nodes ++ nodes')[nodes.length + m]? = some n ∧ rd D.units n.dictIndex = .ok w ∧ dictValue w = v) ∧
      ((underT L (l :: post)).map (pre k)).Perm ((k', v) :: gs'.flatMap Item.rest) ∧ k.length + m = k'.length ∧
      (S → ∀ e ∈ underT L (l :: post), R e.2 v) ∧ Dive ord k L (l :: post) (k', v) (gs'.map Item.task) := by
  intro fuel
  induction fuel with
  | zero =>
    intro rc gs nodes p k u L A l post b _ _ _ hat hL _ hfu
    exfalso
    have h1 := ord_split V ho hat hL
    by_cases h0 : l = 0
    · obtain ⟨v, hv⟩ := h1.2.1 h0
      have := hfu ([], v) (by rw [h0, underT_zero, V.here_eq hat hv]; simp)
      omega
    · obtain ⟨e, he⟩ := List.exists_mem_of_ne_nil _ (V.ne (V.step hat (h1.1 h0)))
      have := hfu (pre [l] e) (by rw [underT_one L h0]; exact List.mem_map_of_mem he)
      omega
  | succ fuel ih =>
    intro rc gs nodes p k u L A l post b hs hown hp hat hL hterm hfu hroom hrc hb
    obtain ⟨hl1, hl2, hl3⟩ := ord_split V ho hat hL
    have hlen : nodes.length = gs.length := by rw [← hs.len, List.length_map]
    have hrd : rd rc.nodes nodes.length = .ok ⟨kid u l, p, l, false, b⟩ := by rw [hrc, rd_some]; simp
    rw [RankedCompleter.findTerminalLoop, hrd]
    simp only [ok_bind]
    by_cases h0 : l = 0
    · subst h0
      obtain ⟨v, hv⟩ := hl2 rfl
      rw [if_pos rfl]
      obtain ⟨w, hw1, hw2⟩ := V.leaf hat hv
      refine ⟨[⟨p, k, u, L, 0, post⟩], [⟨kid u 0, p, 0, false, b⟩], 0, k, v, ?_, ?_, rfl, by simp, ?_, ?_, ⟨_, rfl, rfl, rfl⟩, ⟨⟨kid u 0, p, 0, false, b⟩, w, by simp, hw1, hw2⟩, ?_, rfl, ?_, .here hv⟩
      · rw [← hrc]; rfl
      · rw [List.map_append]
        exact hs.push hown hp hat hL
      · intro j g hj
        cases j with
        | zero => simp only [List.getElem?_cons_zero, Option.some.injEq] at hj; subst hj; rfl
        | succ j => simp at hj
      · intro g hg
        simp only [List.mem_singleton] at hg
        subst hg
        simp only [List.map_append]
        rw [List.getElem?_append_left (by rw [List.length_map, hlen]; exact hp)]
        exact hterm
      · rw [underT_cons, underT_zero, V.here_eq hat hv]
        simp [pre, Item.rest]
      · intro hs' e he
        rw [underT_cons, List.mem_append] at he
        have hone : ∀ e' ∈ underT L [0], e'.2 = v := by
          intro e' he'
          rw [underT_zero, V.here_eq hat hv, List.mem_singleton] at he'
          rw [he']
        rcases he with he | he
        · rw [hone e he]; exact hR _
        · obtain ⟨e', h1, h2⟩ := hS hs' hat hL e he
          rw [hone e' h1] at h2
          exact h2
    · rw [if_neg h0]
      have hh := hl1 h0
      have hat' := V.step hat hh
      rw [hg.child hat']
      simp only [ok_bind]
      -- the first transition of the child
      obtain ⟨l', post', hL'⟩ : ∃ l' post', ord (residual L [l]) = l' :: post' := by
        cases hc : ord (residual L [l]) with
        | nil =>
          have := ho hat'
          rw [hc] at this
          exact absurd this.symm.eq_nil (arcs_ne V hat')
        | cons a as => exact ⟨a, as, rfl⟩
      rw [hL', List.headD_cons]
      have hb' : b = decide (0 ∈ l' :: post') := by
        rw [hb, hL']; simp [h0]
      obtain ⟨hl1', hl2', hl3'⟩ := ord_split V ho hat' (A := []) hL'
      have hmem1 : ∀ e ∈ underT (residual L [l]) [l'], ∃ e' ∈ underT L [l], e'.1.length = e.1.length + 1 := by
        intro e he
        rw [underT_one L h0]
        refine ⟨pre [l] e, List.mem_map_of_mem ?_, by simp [pre]⟩
        by_cases h0' : l' = 0
        · subst h0'
          rw [underT_zero] at he
          exact (List.mem_filter.1 he).1
        · rw [underT_one _ h0'] at he
          obtain ⟨e', he', rfl⟩ := List.mem_map.1 he
          exact mem_residual.1 he'
      -- node with the flag as it is left
      have hs1 : Sound At kid ord u0 L0 (gs ++ [⟨p, k, u, L, l, post⟩]) ((nodes ++ [(⟨kid u l, p, l, false, decide (0 ∈ post')⟩ : RNode)]).map stat) := by
        rw [List.map_append]
        exact hs.push hown hp hat hL
      have hown1 : Own kid u0 L0 (gs ++ [⟨p, k, u, L, l, post⟩]) nodes.length (k ++ [l]) (kid u l) (residual L [l]) := by
        refine .inr ⟨by rw [hlen]; exact hs.lt, ⟨p, k, u, L, l, post⟩, by rw [hlen]; simp, h0, rfl, rfl, rfl⟩
      have hrc1 : (if l' = 0 then do
            let nodes ← wr rc.nodes nodes.length { (⟨kid u l, p, l, false, b⟩ : RNode) with hasTerminal := false }
            pure { rc with nodes := nodes }
          else pure rc : Go RankedCompleter) = .ok { rc with nodes := nodes ++ [⟨kid u l, p, l, false, decide (0 ∈ post')⟩] } := by
        by_cases h0' : l' = 0
        · subst h0'
          rw [if_pos rfl, hrc, wr_lt (by simp)]
          have : decide ((0 : UInt8) ∈ post') = false := by simpa using hl3'
          simp [this, pure_eq_ok, ok_bind]
        · rw [if_neg h0', pure_eq_ok, ← show decide (0 ∈ l' :: post') = decide (0 ∈ post') by simp [Ne.symm h0'], ← hb', ← hrc]
      -- the next node
      obtain ⟨e1, he1⟩ : ∃ e, e ∈ underT (residual L [l]) [l'] := by
        by_cases h0' : l' = 0
        · subst h0'
          obtain ⟨v, hv⟩ := hl2' rfl
          exact ⟨_, by rw [underT_zero, V.here_eq hat' hv]; exact List.mem_singleton_self _⟩
        · obtain ⟨e, he⟩ := List.exists_mem_of_ne_nil _ (V.ne (V.step hat' (hl1' h0')))
          exact ⟨pre [l'] e, by rw [underT_one _ h0']; exact List.mem_map_of_mem he⟩
      obtain ⟨e2, he2, hlen2⟩ := hmem1 e1 he1
      have hroom2 := hroom e2 he2
      have hcreate := createNode_eq D { rc with nodes := nodes ++ [⟨kid u l, p, l, false, decide (0 ∈ post')⟩] } (x := kid (kid u l) l') (p := nodes.length) (l := l')
        (b := decide (l' ≠ 0 ∧ 0 ∈ ord (residual (residual L [l]) [l'])))
        (by
          intro h0'
          rw [V.hasValue (V.step hat' (hl1' h0')), ← zero_mem_ord V ho (V.step hat' (hl1' h0'))]
          simp [h0'])
        (by intro h; simp [h])
        (by simp only [List.length_append, List.length_singleton]; omega)
      have htail : (do
            let x ← RankedBuilder.followWithoutCheck D (kid u l) l'
            let __discr ← RankedCompleter.createNode D { rc with nodes := nodes ++ [⟨kid u l, p, l, false, decide (0 ∈ post')⟩] } x nodes.length l'
            match __discr with
            | (rc, j) => RankedCompleter.findTerminalLoop D gd fuel rc j) =
          RankedCompleter.findTerminalLoop D gd fuel { rc with nodes := nodes ++ [⟨kid u l, p, l, false, decide (0 ∈ post')⟩] ++
            [⟨kid (kid u l) l', nodes.length, l', false, decide (l' ≠ 0 ∧ 0 ∈ ord (residual (residual L [l]) [l']))⟩] } (nodes.length + 1) := by
        rw [V.fwc l' hat']
        simp only [ok_bind, hcreate, List.length_append, List.length_singleton]
      obtain ⟨gs2, nodes2, m, k', v, f1, f2, f3, f4, f5, f6, f7, f8, f9, f10, f11, f12⟩ :=
        ih (rc := { rc with nodes := nodes ++ [⟨kid u l, p, l, false, decide (0 ∈ post')⟩] ++
            [⟨kid (kid u l) l', nodes.length, l', false, decide (l' ≠ 0 ∧ 0 ∈ ord (residual (residual L [l]) [l']))⟩] })
          (A := []) (gs := gs ++ [⟨p, k, u, L, l, post⟩]) (nodes := nodes ++ [⟨kid u l, p, l, false, decide (0 ∈ post')⟩]) (p := nodes.length) hs1 hown1 (by rw [hlen]; simp) hat' hL'
          (by
            rw [List.getElem?_map, List.getElem?_append_right (Nat.le_refl _)]
            simp)
          (by
            intro e he
            obtain ⟨e', he', hl'⟩ := hmem1 e he
            have := hfu e' he'
            omega)
          (by
            intro e he
            obtain ⟨e', he', hl'⟩ := hmem1 e he
            have := hroom e' he'
            simp only [List.length_append, List.length_singleton]
            omega)
          rfl rfl
      refine ⟨⟨p, k, u, L, l, post⟩ :: gs2, ⟨kid u l, p, l, false, decide (0 ∈ post')⟩ :: nodes2, m + 1, k', v, ?_, ?_, by simp [f3], ?_, ?_, ?_, ?_, ?_, ?_, ?_, ?_, .step h0 (by rw [hL']; exact f12)⟩
      · have e3 : ∀ {α} (f : RankedCompleter → Go α), (do
            let rc ← (if l' = 0 then do
              let nodes ← wr rc.nodes nodes.length { (⟨kid u l, p, l, false, b⟩ : RNode) with hasTerminal := false }
              pure { rc with nodes := nodes }
            else pure rc : Go RankedCompleter)
            f rc) = f { rc with nodes := nodes ++ [⟨kid u l, p, l, false, decide (0 ∈ post')⟩] } := by
          intro α f
          by_cases h0' : l' = 0
          · rw [if_pos h0'] at hrc1 ⊢
            rw [← ok_bind { rc with nodes := nodes ++ [⟨kid u l, p, l, false, decide (0 ∈ post')⟩] } f, ← hrc1]
          · rw [if_neg h0'] at hrc1 ⊢
            rw [← ok_bind { rc with nodes := nodes ++ [⟨kid u l, p, l, false, decide (0 ∈ post')⟩] } f, ← hrc1]
        have e4 := e3 (fun rc => do
            let x ← RankedBuilder.followWithoutCheck D (kid u l) l'
            let __discr ← RankedCompleter.createNode D rc x nodes.length l'
            match __discr with
            | (rc, j) => RankedCompleter.findTerminalLoop D gd fuel rc j)
        have e5 := e4.trans htail
        simp only [List.length_append, List.length_singleton] at f1
        rw [f1] at e5
        have e6 : nodes.length + 1 + m = nodes.length + (m + 1) := by omega
        rw [e6, List.append_assoc, List.singleton_append] at e5
        rw [← e5]
        by_cases h0' : l' = 0
        · simp only [if_pos h0', bind_assoc]
        · simp only [if_neg h0', bind_assoc]
      · rw [List.append_assoc, List.append_assoc, List.singleton_append, List.singleton_append] at f2
        exact f2
      · intro n hn
        rcases List.mem_cons.1 hn with rfl | hn
        · rfl
        · exact f4 n hn
      · intro j g hj
        cases j with
        | zero => simp only [List.getElem?_cons_zero, Option.some.injEq] at hj; subst hj; rfl
        | succ j =>
          rw [List.getElem?_cons_succ] at hj
          rw [f5 j g hj]
          by_cases hj0 : j = 0
          · subst hj0; simp
          · rw [if_neg hj0, if_neg (by omega), List.length_append, List.length_singleton]; omega
      · rw [List.append_assoc, List.singleton_append] at f6
        intro g hg
        rcases List.mem_cons.1 hg with rfl | hg
        · rw [List.map_append, List.getElem?_append_left (by rw [List.length_map, hlen]; exact hp)]
          exact hterm
        · exact f6 g hg
      · obtain ⟨g, h1, h2⟩ := f7
        exact ⟨g, by rw [List.getElem?_cons_succ]; exact h1, h2⟩
      · obtain ⟨n, w, h1, h2⟩ := f8
        refine ⟨n, w, ?_, h2⟩
        rw [List.append_assoc, List.singleton_append, List.length_append, List.length_singleton] at h1
        rw [← h1]; congr 1; omega
      · have hp1 : ((residual L [l]).map (pre (k ++ [l]))).Perm ((k', v) :: gs2.flatMap Item.rest) := by
          refine List.Perm.trans (List.Perm.map _ ?_) f9
          rw [← hL']
          exact (underT_ord V ho hat').symm
        rw [underT_cons, underT_one L h0, List.map_append, map_pre_map_pre]
        refine (hp1.append_right _).trans ?_
        simp only [List.flatMap_cons, List.cons_append]
        exact List.Perm.cons _ List.perm_append_comm
      · simp only [List.length_append, List.length_singleton] at f10; omega
      · intro hs' e he
        have hall : ∀ e' ∈ underT L [l], R e'.2 v := by
          intro e' he'
          rw [underT_one L h0] at he'
          obtain ⟨e2, he2, rfl⟩ := List.mem_map.1 he'
          have := f11 hs' e2 (by rw [← hL']; exact (underT_ord V ho hat').symm.mem_iff.1 he2)
          exact this
        rw [underT_cons, List.mem_append] at he
        rcases he with he | he
        · exact hall e he
        · obtain ⟨e', h1, h2⟩ := hS hs' hat hL e he
          exact hT h2 (hall e' h1)

end
end Dawg.Guided
