import Verif.Proof.Guide.RankedCompleter
/-! # The RankedCompleter: `Next` -/
namespace Dawg.Guided
attribute [-simp] List.length_flatten
open Dawg.Abs Dawg.Spec Dawg.Dict

section
variable {D : Dictionary} {At : Nat → Lang → Prop} {kid : Nat → UInt8 → Nat} {clean : UInt8 → Prop} {gd : Guide} {ord : Lang → List UInt8}
  {u0 : Nat} {L0 : Lang} {S : Prop} {R : Nat → Nat → Prop} {B : Nat}

theorem Own.lt {gs : List Item} {p k u L} (h : Own kid u0 L0 gs p k u L) (h0 : 0 < gs.length) : p < gs.length := by
  rcases h with ⟨rfl, _⟩ | ⟨_, q, h1, _⟩
  · exact h0
  · exact (List.getElem?_eq_some_iff.1 h1).1

theorem set_stat {nodes : List RNode} {p : Nat} {n n' : RNode} (hn : nodes[p]? = some n) (he : stat n' = stat n) : (nodes.set p n').map stat = nodes.map stat := by
  rw [List.map_set, he]
  apply List.ext_getElem?
  intro j
  rw [List.getElem?_set]
  by_cases hj : p = j
  · subst hj
    rw [if_pos rfl, List.length_map, if_pos (List.getElem?_eq_some_iff.1 hn).1, List.getElem?_map, hn]; rfl
  · rw [if_neg hj]

theorem set_queued {nodes : List RNode} {p : Nat} {n n' : RNode} (hn : nodes[p]? = some n) (he : n'.isQueued = n.isQueued) :
    (nodes.set p n').map RNode.isQueued = nodes.map RNode.isQueued := by
  rw [List.map_set, he]
  apply List.ext_getElem?
  intro j
  rw [List.getElem?_set]
  by_cases hj : p = j
  · subst hj
    rw [if_pos rfl, List.length_map, if_pos (List.getElem?_eq_some_iff.1 hn).1, List.getElem?_map, hn]; rfl
  · rw [if_neg hj]

/-- The terminal flag of a node changes, and no live node has it as its parent. -/
theorem Inv.clear {gs nodes Q chains cq p n b} (h : Inv R At kid ord u0 L0 S B gs nodes Q chains cq) (hn : nodes[p]? = some n)
    (hfree : p ∉ (Q ++ chains.flatMap Chain.ids).map (parOf gs)) : Inv R At kid ord u0 L0 S B gs (nodes.set p { n with hasTerminal := b }) Q chains cq := by
  have e1 := set_stat (n' := { n with hasTerminal := b }) hn rfl
  have e2 := set_queued (n' := { n with hasTerminal := b }) hn rfl
  refine ⟨by rw [e1]; exact h.sound, by rw [e2]; exact h.pos, h.nodup, ?_, h.bound, h.up, by rw [e2]; exact h.top, h.last, by rw [e2]; exact h.fresh, by rw [e2]; exact h.closed,
    h.perm, h.heap, h.room, h.dom, h.short, h.late⟩
  intro i hi g hg
  rw [List.map_set, List.getElem?_set, if_neg]
  · exact h.term i hi g hg
  · rintro rfl
    exact hfree (List.mem_map.2 ⟨i, hi, parOf_eq hg⟩)

/-- Without a queued node. -/
theorem Inv.drop {gs nodes i Q chains cq} (h : Inv R At kid ord u0 L0 S B gs nodes (i :: Q) chains cq) : Inv R At kid ord u0 L0 S B gs nodes Q chains cq := by
  refine ⟨h.sound, fun j hj => h.pos j (List.mem_cons_of_mem _ hj), ?_, fun j hj => h.term j (List.mem_cons_of_mem _ hj), h.bound, h.up, h.top, h.last, h.fresh, h.closed,
    h.perm, h.heap, ?_, h.dom, h.short, h.late⟩
  · have := h.nodup
    rw [List.cons_append, List.map_cons, List.nodup_cons] at this
    exact this.2
  · have := h.room
    rw [List.flatMap_cons, W_append] at this
    omega

theorem rem_append {gs : List Item} {Q : List Nat} {chains : List Chain} (hQ : ∀ i ∈ Q, i < gs.length) (hC : ∀ i ∈ chains.flatMap Chain.ids, i < gs.length) (gs' : List Item) :
    rem (gs ++ gs') Q chains = rem gs Q chains := by
  unfold rem
  rw [flatMap_restOf_append hQ]
  congr 1
  rw [List.flatMap_def, List.flatMap_def]
  congr 1
  apply List.map_congr_left
  intro ch hch
  congr 1
  exact flatMap_restOf_append (fun i hi => hC i (List.mem_flatMap.2 ⟨ch, hch, hi⟩)) _

/-- What a candidate stands for: its key and its value, and what is left on the way to it. -/
abbrev Cand := Entry × List Task

def candOf (gs : List Item) (ch : Chain) : Cand := ((ch.k, ch.v), ch.ids.map (taskOf gs))

/-- The candidates for what is left at some keys. -/
inductive Opened (ord : Lang → List UInt8) : List Task → List Cand → Prop
  | nil : Opened ord [] []
  | skip {k L ts cs} : Opened ord ts cs → Opened ord ((k, L, []) :: ts) cs
  | dive {k L l post e ts' ts cs} : Dive ord k L (l :: post) e ts' → Opened ord ts cs → Opened ord ((k, L, l :: post) :: ts) ((e, ts') :: cs)

theorem Opened.append {ts cs ts' cs'} (h : Opened ord ts cs) (h' : Opened ord ts' cs') : Opened ord (ts ++ ts') (cs ++ cs') := by
  induction h with
  | nil => exact h'
  | skip _ ih => exact .skip ih
  | dive hd _ ih => exact .dive hd ih

theorem candOf_append {gs : List Item} {chains : List Chain} (hC : ∀ i ∈ chains.flatMap Chain.ids, i < gs.length) (gs' : List Item) :
    chains.map (candOf (gs ++ gs')) = chains.map (candOf gs) := by
  apply List.map_congr_left
  intro ch hch
  unfold candOf
  rw [map_taskOf_append (fun i hi => hC i (List.mem_flatMap.2 ⟨ch, hch, hi⟩))]

theorem drain_spec (V : View D At kid clean) (ho : OrdPerm At ord) (hg : GuideIs D At kid ord gd) (hR : ∀ a, R a a) (hT : ∀ {a b c}, R a b → R b c → R a c) (hS : S → Desc R At ord) (hB : B < 4294967296) :
    ∀ (Q : List Nat) {rc : RankedCompleter} {gs chains}, Inv R At kid ord u0 L0 S B gs rc.nodes Q chains rc.candidateQueue → rc.value ≠ -1 →
    ∃ gs' nodes' chains' cq', RankedCompleter.drainQueue D gd Q rc = .ok { rc with nodes := nodes', candidateQueue := cq' } ∧
      Inv R At kid ord u0 L0 S B gs' nodes' [] chains' cq' ∧ (rem gs' [] chains').Perm (rem gs Q chains) ∧
      cq'.length ≤ rc.candidateQueue.length + Q.length ∧ (∀ M, (∀ e ∈ rem gs Q chains, e.1.length ≤ M) → nodes'.length ≤ rc.nodes.length + Q.length * (M + 1)) ∧
      ∃ new, Opened ord (Q.reverse.map (taskOf gs)) new ∧ chains'.map (candOf gs') = new ++ chains.map (candOf gs)
  | [], rc, gs, chains, h, _ => ⟨gs, rc.nodes, chains, rc.candidateQueue, rfl, h, List.Perm.refl _, Nat.le_refl _, fun _ _ => Nat.le_add_right _ _, [], .nil, rfl⟩
  | i :: Q, rc, gs, chains, h, hv => by
    obtain ⟨hi0, hil, hiq⟩ := h.pos i List.mem_cons_self
    have hgi : gs[i]? = some gs[i] := by simp [hil]
    generalize gs[i] = g at hgi
    obtain ⟨s1, s2, s3, s4, A, s5⟩ := h.sound.ok i g hi0 hgi
    obtain ⟨ni, a1, a2, a3⟩ := rd_node s1
    obtain ⟨x, lp, s6, _⟩ := s3.stat h.sound
    obtain ⟨np, b1, b2, b3⟩ := rd_node s6
    have hterm := h.term i List.mem_cons_self g hgi
    rw [List.getElem?_map, b1, Option.map_some, Option.some.injEq] at hterm
    have hn1 : ni.dictIndex = kid g.unit g.label ∧ ni.prevNodeIndex = g.par := by
      unfold stat at a3; simp only [Prod.mk.injEq] at a3; exact ⟨a3.1, a3.2.1⟩
    have hn2 : np.dictIndex = g.unit := by
      unfold stat at b3; simp only [Prod.mk.injEq] at b3; exact b3.1
    have hfree : g.par ∉ (Q ++ chains.flatMap Chain.ids).map (parOf gs) := by
      have := h.nodup
      rw [List.cons_append, List.map_cons, List.nodup_cons, parOf_eq hgi] at this
      exact this.1
    rw [RankedCompleter.drainQueue, if_pos hv]
    unfold RankedCompleter.findSibling
    rw [a2]
    simp only [ok_bind, hn1.1, hn1.2, hg.sibling s4 s5, b2]
    cases hpost : g.post with
    | nil =>
      rw [hpost] at hterm
      simp only [List.not_mem_nil, decide_false] at hterm
      rw [List.headD_nil, if_pos (by simp [hterm])]
      simp only [pure_eq_ok, ok_bind]
      obtain ⟨gs', nodes', chains', cq', d1, d2, d3, d4, d5, new, d6, d7⟩ := drain_spec V ho hg hR hT hS hB Q h.drop hv
      have e0 : rem gs (i :: Q) chains = rem gs Q chains := by
        unfold rem
        rw [List.flatMap_cons, restOf_eq hgi]
        unfold Item.rest
        rw [hpost]
        simp [underT]
      rw [e0]
      refine ⟨gs', nodes', chains', cq', d1, d2, d3, by rw [List.length_cons]; omega, fun M hM => ?_, new, ?_, d7⟩
      · have := d5 M hM
        rw [List.length_cons, Nat.add_mul]
        omega
      · rw [List.reverse_cons, List.map_append, List.map_singleton, taskOf_eq hgi]
        unfold Item.task
        rw [hpost]
        have := d6.append (.skip (k := g.key) (L := g.lang) .nil)
        rwa [List.append_nil] at this
    | cons l post =>
      rw [hpost] at hterm s5
      rw [List.headD_cons, if_neg (by
        rintro ⟨rfl, h2⟩
        rw [hterm] at h2
        simp at h2)]
      have s5' : ord g.lang = (A ++ [g.label]) ++ l :: post := by rw [s5]; simp
      obtain ⟨hl1, hl2, hl3⟩ := ord_split V ho s4 s5'
      have hplt : g.par < rc.nodes.length := (List.getElem?_eq_some_iff.1 b1).1
      have hlen : rc.nodes.length = gs.length := by rw [← h.sound.len, List.length_map]
      -- the flag as it is left
      have hset : (if l = 0 then do
            let nodes ← wr rc.nodes g.par { np with hasTerminal := false }
            pure { rc with nodes := nodes }
          else pure rc : Go RankedCompleter) = .ok { rc with nodes := rc.nodes.set g.par { np with hasTerminal := decide (0 ∈ post) } } := by
        by_cases h0 : l = 0
        · subst h0
          rw [if_pos rfl, wr_lt hplt]
          have : decide ((0 : UInt8) ∈ post) = false := by simpa using hl3
          simp [this, pure_eq_ok, ok_bind]
        · rw [if_neg h0, pure_eq_ok]
          have e : { np with hasTerminal := decide (0 ∈ post) } = np := by
            have : decide (0 ∈ l :: post) = decide ((0 : UInt8) ∈ post) := by simp [Ne.symm h0]
            rw [← this, ← hterm]
          rw [e]
          congr 1
          have : rc.nodes.set g.par np = rc.nodes := by
            have h1 : rc.nodes[g.par] = np := (List.getElem?_eq_some_iff.1 b1).2
            rw [← h1]; exact List.set_getElem_self hplt
          rw [this]
      have hI := (h.drop.clear (b := decide (0 ∈ post)) b1 hfree)
      have hroom : gs.length + W (Q.flatMap (restOf gs)) + W ((chains.flatMap Chain.ids).flatMap (restOf gs)) + W ((underT g.lang (l :: post)).map (pre g.key)) ≤ B := by
        have := h.room
        rw [List.flatMap_cons, W_append, restOf_eq hgi] at this
        unfold Item.rest at this
        rw [hpost] at this
        omega
      have hcreate := createNode_eq D { rc with nodes := rc.nodes.set g.par { np with hasTerminal := decide (0 ∈ post) } } (x := kid g.unit l) (p := g.par) (l := l)
        (b := decide (l ≠ 0 ∧ 0 ∈ ord (residual g.lang [l])))
        (by
          intro h0
          rw [V.hasValue (V.step s4 (hl1 h0)), ← zero_mem_ord V ho (V.step s4 (hl1 h0))]
          simp [h0])
        (by intro h; simp [h])
        (by
          simp only [List.length_set]
          rw [hlen]
          omega)
      obtain ⟨gs', nodes', ch, cq', c1, c2, c3, c4, c5⟩ := add_chain V ho hg hR hT hS hB (rc := { rc with nodes := rc.nodes.set g.par { np with hasTerminal := decide (0 ∈ post) } ++
          [⟨kid g.unit l, g.par, l, false, decide (l ≠ 0 ∧ 0 ∈ ord (residual g.lang [l]))⟩] }) (fuel := 2 * D.size + 2) (by omega) hI hroom hfree
          (by
            rcases h.closed i hi0 hiq with h1 | h1
            · rw [parOf_eq hgi] at h1; exact .inl h1
            · rw [parOf_eq hgi] at h1; rw [set_queued b1 (by rfl)]; exact .inr h1)
          s3 (by rw [← hlen]; exact hplt) s4 s5'
          (by rw [List.map_set, List.getElem?_set, if_pos rfl, List.length_map, if_pos hplt]) rfl
      obtain ⟨gs2, nodes2, chains2, cq2, d1, d2, d3, d4, d5, new, d6, d7⟩ := drain_spec V ho hg hR hT hS hB Q (rc := { rc with nodes := nodes', candidateQueue := cq' }) c2 hv
      have e0 : (rem (gs ++ gs') Q (ch :: chains)).Perm (rem gs (i :: Q) chains) := by
        unfold rem
        rw [List.flatMap_cons, List.flatMap_cons, flatMap_restOf_append (fun j hj => (h.pos j (List.mem_cons_of_mem _ hj)).2.1)]
        have e1 : chains.flatMap (fun ch => (ch.k, ch.v) :: ch.ids.flatMap (restOf (gs ++ gs'))) = chains.flatMap (fun ch => (ch.k, ch.v) :: ch.ids.flatMap (restOf gs)) := by
          have := rem_append (gs := gs) (Q := []) (chains := chains) (by simp) (fun i hi => (h.ids_lt i hi).2) gs'
          simpa [rem] using this
        rw [e1]
        have e2 : ((ch.k, ch.v) :: ch.ids.flatMap (restOf (gs ++ gs'))).Perm (restOf gs i) := by
          rw [restOf_eq hgi]
          unfold Item.rest
          rw [hpost]
          exact c3
        have e3 := (e2.append_left (Q.flatMap (restOf gs))).append_right (chains.flatMap (fun ch => (ch.k, ch.v) :: ch.ids.flatMap (restOf gs)))
        simp only [List.append_assoc] at e3 ⊢
        refine e3.trans ?_
        rw [← List.append_assoc, ← List.append_assoc]
        exact List.perm_append_comm.append_right _
      refine ⟨gs2, nodes2, chains2, cq2, ?_, d2, d3.trans e0, ?_, fun M hM => ?_, new ++ [candOf (gs ++ gs') ch], ?_, ?_⟩
      · simp only [List.length_set] at c1 hcreate
        have htail : (do
            let x ← RankedBuilder.followWithoutCheck D np.dictIndex l
            let (rc', j) ← RankedCompleter.createNode D { rc with nodes := rc.nodes.set g.par { np with hasTerminal := decide (0 ∈ post) } } x g.par l
            let (rc', t) ← RankedCompleter.findTerminal D gd rc' j
            let rc' ← RankedCompleter.enqueueCandidate D rc' t
            RankedCompleter.drainQueue D gd Q rc') = .ok { rc with nodes := nodes2, candidateQueue := cq2 } := by
          have hf : RankedBuilder.followWithoutCheck D np.dictIndex l = .ok (kid g.unit l) := by rw [hn2]; exact V.fwc l s4
          rw [hf]
          simp only [ok_bind, hcreate]
          unfold RankedCompleter.findTerminal
          rw [bind_eq_ok] at c1
          obtain ⟨⟨rc1, t⟩, c11, c12⟩ := c1
          rw [c11]
          simp only [ok_bind, c12]
          exact d1
        rw [← htail]
        by_cases h0 : l = 0
        · simp only [if_pos h0] at hset ⊢
          rw [bind_eq_ok] at hset
          obtain ⟨y, y1, y2⟩ := hset
          rw [y1]
          simp only [pure_eq_ok, Except.ok.injEq, ok_bind, bind_assoc] at y2 ⊢
          rw [y2]
        · simp only [if_neg h0, pure_eq_ok, Except.ok.injEq] at hset ⊢
          simp only [ok_bind, bind_assoc]
          rw [← hset]
      · have h1 := c2.perm.length_eq
        have h2 := h.perm.length_eq
        simp only [List.length_map, List.length_cons] at h1 h2 d4 ⊢
        omega
      · have h1 := d5 M (fun e he => hM e (e0.mem_iff.1 he))
        have h2 : ch.k.length ≤ M := hM (ch.k, ch.v) (e0.mem_iff.1 (by unfold rem; simp))
        have h3 := c2.sound.len
        simp only [List.length_map, List.length_append, List.length_cons] at h1 h3 ⊢
        rw [Nat.add_mul]
        omega
      · rw [List.reverse_cons, List.map_append, List.map_singleton, taskOf_eq hgi]
        unfold Item.task
        rw [hpost]
        refine Opened.append ?_ (.dive c5 .nil)
        rwa [map_taskOf_append (fun j hj => (h.pos j (List.mem_cons_of_mem _ (List.mem_reverse.1 hj))).2.1)] at d6
      · rw [d7, List.map_cons, candOf_append (fun i hi => (h.ids_lt i hi).2)]
        simp

/-! ## Walking up -/

theorem walkUp_queued {gs : List Item} {nodes : List RNode} (hs : Sound At kid ord u0 L0 gs (nodes.map stat)) : ∀ (fuel : Nat) {rc : RankedCompleter} {i k u L}, i < fuel →
    rc.nodes = nodes → Own kid u0 L0 gs i k u L →
    (∀ j, 0 < j → j ≤ i → (nodes.map RNode.isQueued)[j]? = some true → parOf gs j = 0 ∨ (nodes.map RNode.isQueued)[parOf gs j]? = some true) →
    (i = 0 ∨ (nodes.map RNode.isQueued)[i]? = some true) → RankedCompleter.walkUp fuel rc i = .ok { rc with path := rc.path ++ k.reverse }
  | 0, _, _, _, _, _, h, _, _, _, _ => by omega
  | fuel + 1, rc, i, k, u, L, hf, hrc, hown, hcl, hq => by
    rw [RankedCompleter.walkUp]
    rcases hown with ⟨rfl, rfl, _, _⟩ | ⟨h0, q, h1, h2, rfl, rfl, rfl⟩
    · rw [if_pos rfl]; simp
    · rw [if_neg (by omega)]
      obtain ⟨s1, s2, s3, s4, A, s5⟩ := hs.ok i q h0 h1
      obtain ⟨n, a1, a2, a3⟩ := rd_node s1
      unfold stat at a3
      simp only [Prod.mk.injEq] at a3
      have hqi : n.isQueued = true := by
        rcases hq with h | h
        · omega
        · rw [List.getElem?_map, a1] at h; simpa using h
      unfold RankedCompleter.enqueueNode
      rw [hrc]
      simp only [a2, ok_bind, hqi, if_true, pure_eq_ok]
      have := walkUp_queued hs fuel (rc := { rc with path := rc.path ++ [n.label], nodes := nodes }) (i := n.prevNodeIndex) (by rw [a3.2.1]; omega) rfl (by rw [a3.2.1]; exact s3)
        (by intro j hj hji; rw [a3.2.1] at hji; exact hcl j hj (by omega))
        (by
          rw [a3.2.1, ← parOf_eq h1]
          exact hcl i h0 (Nat.le_refl _) (by rw [List.getElem?_map, a1]; simp [hqi]))
      rw [← hrc] at this ⊢
      rw [this, a3.2.2]
      simp

theorem walkUp_chain {gs : List Item} {nodes : List RNode} (hs : Sound At kid ord u0 L0 gs (nodes.map stat)) {a : Nat} (ha : 0 < a)
    (hcl : ∀ j, 0 < j → j < a → (nodes.map RNode.isQueued)[j]? = some true → parOf gs j = 0 ∨ (nodes.map RNode.isQueued)[parOf gs j]? = some true)
    (htop : parOf gs a = 0 ∨ (nodes.map RNode.isQueued)[parOf gs a]? = some true) : ∀ (s : Nat) {g : Item} {fuel} {rc : RankedCompleter} {ids : List Nat},
    gs[a + s]? = some g → (∀ j, j < s → parOf gs (a + (j + 1)) = a + j) → (∀ j, a ≤ j → j < a + s → (nodes.map RNode.isQueued)[j]? = some false) →
    (∀ j ∈ ids, a + s ≤ j) → a + s ≤ fuel → rc.nodes = mark ids nodes →
    RankedCompleter.walkUp fuel rc g.par = .ok { rc with path := rc.path ++ g.key.reverse, nodes := mark (ids ++ List.range' a s) nodes, nodeQueue := rc.nodeQueue ++ (List.range' a s).reverse }
  | 0, g, fuel, rc, ids, hgs, _, _, hids, hf, hrc => by
    obtain ⟨s1, s2, s3, s4, A, s5⟩ := hs.ok (a + 0) g (by omega) hgs
    have hg := parOf_eq hgs
    rw [Nat.add_zero] at hg s2 hids hf
    have hsame : ∀ j, j < a → ((mark ids nodes).map RNode.isQueued)[j]? = (nodes.map RNode.isQueued)[j]? := by
      intro j hj
      rw [mark_queued]
      have : j ∉ ids := fun h => by have := hids j h; omega
      cases (nodes.map RNode.isQueued)[j]? <;> simp [this]
    have hpl : ∀ j, 0 < j → j < a → parOf gs j < j := by
      intro j hj hja
      have hlt : j < gs.length := by have := (List.getElem?_eq_some_iff.1 hgs).1; omega
      have hg : gs[j]? = some gs[j] := by simp [hlt]
      rw [parOf_eq hg]
      exact (hs.ok j _ hj hg).2.1
    rw [walkUp_queued (nodes := mark ids nodes) (by rw [mark_stat]; exact hs) fuel (by omega) hrc s3
      (by
        intro j hj hji hjq
        rw [hsame j (by omega)] at hjq
        rcases hcl j hj (by omega) hjq with h | h
        · exact .inl h
        · right
          rw [hsame _ (by have := hpl j hj (by omega); omega)]
          exact h)
      (by
        rw [← hg]
        rcases htop with h | h
        · exact .inl h
        · right
          rw [hsame _ (by omega)]
          exact h)]
    simp [← hrc]
  | s + 1, g, fuel, rc, ids, hgs, hup, hfr, hids, hf, hrc => by
    obtain ⟨fuel, rfl⟩ : ∃ n, fuel = n + 1 := ⟨fuel - 1, by omega⟩
    obtain ⟨s1, s2, s3, s4, A, s5⟩ := hs.ok (a + (s + 1)) g (by omega) hgs
    have hpar : g.par = a + s := by rw [← parOf_eq hgs]; exact hup s (by omega)
    rcases s3 with ⟨h, _⟩ | ⟨h0, q, h1, h2, h3, _⟩
    · omega
    · rw [hpar] at h1
      obtain ⟨t1, t2, t3, t4, A', t5⟩ := hs.ok (a + s) q (by omega) h1
      obtain ⟨n, a1, a2, a3⟩ := rd_node t1
      unfold stat at a3
      simp only [Prod.mk.injEq] at a3
      have hq := hfr (a + s) (by omega) (by omega)
      rw [List.getElem?_map, a1, Option.map_some, Option.some.injEq] at hq
      have hnot : (a + s) ∉ ids := fun h => by have := hids _ h; omega
      have hget : (mark ids nodes)[a + s]? = some n := by
        rw [mark_get, a1]
        simp [hnot]
      rw [RankedCompleter.walkUp, hpar, if_neg (by omega)]
      unfold RankedCompleter.enqueueNode
      rw [hrc, rd_some hget]
      simp only [ok_bind, rd_some hget, hq, Bool.false_eq_true, if_false]
      rw [mark_set hget, mark_mark]
      simp only [ok_bind, pure_eq_ok, a3.2.1]
      rw [walkUp_chain hs ha hcl htop s (g := q) (rc := { rc with path := rc.path ++ [n.label], nodes := mark (ids ++ [a + s]) nodes, nodeQueue := rc.nodeQueue ++ [a + s] }) h1
        (fun j hj => hup j (by omega)) (fun j h1 h2 => hfr j h1 (by omega))
        (by
          intro j hj
          rcases List.mem_append.1 hj with hj | hj
          · have := hids j hj; omega
          · simp only [List.mem_singleton] at hj; omega) (by omega) rfl]
      have e1 : List.range' a (s + 1) = List.range' a s ++ [a + s] := by
        rw [List.range'_concat]; simp
      have e2 : mark (ids ++ [a + s] ++ List.range' a s) nodes = mark (ids ++ List.range' a (s + 1)) nodes := by
        apply mark_congr
        intro j
        rw [e1]
        simp only [List.mem_append]
        constructor
        · rintro ((h | h) | h)
          · exact .inl h
          · exact .inr (.inr h)
          · exact .inr (.inl h)
        · rintro (h | h | h)
          · exact .inl (.inl h)
          · exact .inr h
          · exact .inl (.inr h)
      rw [e2, h3, a3.2.2, e1]
      simp

/-! ## Next -/

/-- A RankedCompleter between two calls of `Next`: `T` is still to be listed; `ts` is what is to be opened, `cs` are the candidates. -/
inductive RState (R : Nat → Nat → Prop) (At : Nat → Lang → Prop) (kid : Nat → UInt8 → Nat) (ord : Lang → List UInt8) (u0 : Nat) (L0 : Lang) (S : Prop) (B : Nat) (P : Key) :
    RankedCompleter → Lang → List Task → List Cand → Prop
  | fresh : RState R At kid ord u0 L0 S B P ⟨P, P.length, -1, [⟨u0, 0, 88, true, L0.any (fun e => e.1 == [])⟩], [0], []⟩ L0 [([], L0, ord L0)] []
  | after {rc gs chains T} : rc.path.take P.length = P → rc.prefixLength = P.length → 0 ≤ rc.value →
      Inv R At kid ord u0 L0 S B gs rc.nodes rc.nodeQueue chains rc.candidateQueue → (rem gs rc.nodeQueue chains).Perm T →
      RState R At kid ord u0 L0 S B P rc T (rc.nodeQueue.reverse.map (taskOf gs)) (chains.map (candOf gs))

/-- The same without the order. -/
def RReady (R : Nat → Nat → Prop) (At : Nat → Lang → Prop) (kid : Nat → UInt8 → Nat) (ord : Lang → List UInt8) (u0 : Nat) (L0 : Lang) (S : Prop) (B : Nat) (P : Key) (rc : RankedCompleter) (T : Lang) : Prop :=
  ∃ ts cs, RState R At kid ord u0 L0 S B P rc T ts cs

theorem RReady.fresh {P : Key} : RReady R At kid ord u0 L0 S B P ⟨P, P.length, -1, [⟨u0, 0, 88, true, L0.any (fun e => e.1 == [])⟩], [0], []⟩ L0 := ⟨_, _, .fresh⟩

/-- Taking the first candidate. -/
theorem take_spec (hR : ∀ a, R a a) (hT : ∀ {a b c}, R a b → R b c → R a c) {rc : RankedCompleter} {gs chains} {P : Key} (hpath : rc.path.take P.length = P) (hpre : rc.prefixLength = P.length)
    (h : Inv R At kid ord u0 L0 S B gs rc.nodes [] chains rc.candidateQueue) (hQ : rc.nodeQueue = []) {c : Candidate} {cs : List Candidate} (hcq : rc.candidateQueue = c :: cs) :
    ∃ rc' gs' chains' k v, (do
      let rc ← RankedCompleter.enqueueNode rc c.nodeIndex
      let n ← rd rc.nodes c.nodeIndex
      if rc.path.length < rc.prefixLength then .error .panic
      let rc := { rc with path := rc.path.take rc.prefixLength }
      let rc ← RankedCompleter.walkUp (rc.nodes.length + 1) rc n.prevNodeIndex
      let path := rc.path.take rc.prefixLength ++ (rc.path.drop rc.prefixLength).reverse ++ [0]
      let q ← Heap.pop rc.candidateQueue
      return ({ rc with path := path, value := Int.ofNat c.value, candidateQueue := q }, true)) = .ok (rc', true) ∧
      rc'.path = P ++ k ++ [0] ∧ rc'.prefixLength = P.length ∧ rc'.value = Int.ofNat v ∧ Inv R At kid ord u0 L0 S B gs' rc'.nodes rc'.nodeQueue chains' rc'.candidateQueue ∧
      (rem gs [] chains).Perm ((k, v) :: rem gs' rc'.nodeQueue chains') ∧ (S → (chains.length = 1 ∨ ∀ a b, a ≤ b → R a b) → ∀ e ∈ rem gs [] chains, R e.2 v) ∧
      rc'.nodes.length = rc.nodes.length ∧ rc'.nodeQueue.length ≤ k.length + 1 ∧ rc'.candidateQueue.length + 1 = rc.candidateQueue.length ∧
      ∃ A C, chains.map (candOf gs) = A ++ ((k, v), rc'.nodeQueue.reverse.map (taskOf gs')) :: C ∧ (∀ x ∈ A, x.1.2 < v) ∧ (∀ x ∈ C, x.1.2 ≤ v) ∧
        chains'.map (candOf gs') = A ++ C := by
  have hc : c ∈ chains.map Chain.cand := h.perm.mem_iff.1 (by rw [hcq]; simp)
  obtain ⟨ch, hch, rfl⟩ := List.mem_map.1 hc
  obtain ⟨A, C, rfl⟩ := List.append_of_mem hch
  have hcand : ch.cand.nodeIndex = ch.a + ch.m := rfl
  rw [hcand]
  obtain ⟨hb0, hbl⟩ := h.bound ch hch
  obtain ⟨g, l1, l2, l3⟩ := h.last ch hch
  obtain ⟨s1, s2, s3, s4, A', s5⟩ := h.sound.ok (ch.a + ch.m) g (by omega) l1
  obtain ⟨n, a1, a2, a3⟩ := rd_node s1
  unfold stat at a3
  simp only [Prod.mk.injEq] at a3
  have hlen : rc.nodes.length = gs.length := by rw [← h.sound.len, List.length_map]
  have hfr : ∀ j, ch.a ≤ j → j ≤ ch.a + ch.m → (rc.nodes.map RNode.isQueued)[j]? = some false := by
    intro j h1 h2
    exact h.fresh j (List.mem_flatMap.2 ⟨ch, hch, Chain.mem_ids.2 ⟨h1, h2⟩⟩)
  have hq := hfr (ch.a + ch.m) (by omega) (by omega)
  rw [List.getElem?_map, a1, Option.map_some, Option.some.injEq] at hq
  have henq : RankedCompleter.enqueueNode rc (ch.a + ch.m) = .ok { rc with nodeQueue := [ch.a + ch.m], nodes := mark [ch.a + ch.m] rc.nodes } := by
    unfold RankedCompleter.enqueueNode
    rw [a2]
    simp only [ok_bind, hq, Bool.false_eq_true, if_false, mark_set a1, pure_eq_ok, hQ, List.nil_append]
  have hget : (mark [ch.a + ch.m] rc.nodes)[ch.a + ch.m]? = some { n with isQueued := true } := by
    rw [mark_get, a1]; simp
  have hplen : ¬ rc.path.length < rc.prefixLength := by
    rw [hpre]
    intro hlt
    have := congrArg List.length hpath
    rw [List.length_take] at this; omega
  rw [henq]
  simp only [ok_bind, rd_some hget]
  rw [if_neg hplen]
  have hidsE : ∀ j, j ∈ [ch.a + ch.m] ++ List.range' ch.a ch.m ↔ j ∈ ch.ids := by
    intro j
    rw [Chain.mem_ids, List.mem_append, List.mem_singleton, List.mem_range'_1]; omega
  have hwalk := walkUp_chain h.sound hb0 (fun j hj _ hjq => h.closed j hj hjq) (h.top ch hch) ch.m (g := g)
    (rc := { rc with path := rc.path.take rc.prefixLength, nodeQueue := [ch.a + ch.m], nodes := mark [ch.a + ch.m] rc.nodes }) (ids := [ch.a + ch.m]) (fuel := (mark [ch.a + ch.m] rc.nodes).length + 1)
    l1 (h.up ch hch) (fun j h1 h2 => hfr j h1 (by omega)) (by simp) (by rw [mark_length]; omega) rfl
  rw [mark_congr hidsE] at hwalk
  have hqueue : [ch.a + ch.m] ++ (List.range' ch.a ch.m).reverse = ch.ids.reverse := by
    unfold Chain.ids
    rw [List.range'_concat, List.reverse_append]; simp
  obtain ⟨q, p1, p2, p3⟩ := Heap.pop_spec (x := ch.cand) (q := cs) (by rw [← hcq]; exact h.heap)
  have hcs : cs.Perm ((A ++ C).map Chain.cand) := by
    have h1 := h.perm
    rw [hcq] at h1
    have h2 : ((A ++ ch :: C).map Chain.cand).Perm (ch.cand :: (A ++ C).map Chain.cand) := by
      rw [← List.map_cons]
      exact List.Perm.map _ List.perm_middle
    exact (List.perm_cons _).1 (h1.trans h2)
  have htk : (rc.path.take rc.prefixLength ++ g.key.reverse).take rc.prefixLength = P := by
    rw [hpre, hpath, List.take_append_of_le_length (Nat.le_refl _), List.take_length]
  have hdr : ((rc.path.take rc.prefixLength ++ g.key.reverse).drop rc.prefixLength).reverse = g.key := by
    rw [hpre, hpath, List.drop_append_of_le_length (Nat.le_refl _), List.drop_length]; simp
  have hrp : ((A ++ ch :: C).flatMap (fun ch => (ch.k, ch.v) :: ch.ids.flatMap (restOf gs))).Perm
      ((ch.k, ch.v) :: (ch.ids.flatMap (restOf gs) ++ (A ++ C).flatMap (fun ch => (ch.k, ch.v) :: ch.ids.flatMap (restOf gs)))) := by
    have := List.Perm.flatMap_right (fun ch => (ch.k, ch.v) :: ch.ids.flatMap (restOf gs)) (List.perm_middle (a := ch) (l₁ := A) (l₂ := C))
    rwa [List.flatMap_cons, List.cons_append] at this
  have hidsP : (ch.ids.reverse ++ (A ++ C).flatMap Chain.ids).Perm ((A ++ ch :: C).flatMap Chain.ids) := by
    have := List.Perm.flatMap_right Chain.ids (List.perm_middle (a := ch) (l₁ := A) (l₂ := C))
    rw [List.flatMap_cons] at this
    exact ((List.reverse_perm _).append_right _).trans this.symm
  have hnd : (ch.ids.reverse ++ (A ++ C).flatMap Chain.ids).Nodup := by
    have h1 := h.nodup
    rw [List.nil_append] at h1
    have h2 : ((A ++ ch :: C).flatMap Chain.ids).Nodup := by
      have := List.Pairwise.of_map (S := (· ≠ ·)) (f := parOf gs) (R := (· ≠ ·)) (fun a b hab (he : a = b) => hab (by rw [he])) h1
      exact this
    exact hidsP.nodup_iff.2 h2
  have hsubC : ∀ x ∈ A ++ C, x ∈ A ++ ch :: C := by
    intro x hx
    simp only [List.mem_append, List.mem_cons] at hx ⊢
    rcases hx with h | h
    · exact .inl h
    · exact .inr (.inr h)
  have hbest : ∀ x ∈ A ++ ch :: C, Heap.less x.cand ch.cand = false := by
    intro x hx
    have hxc : x.cand ∈ rc.candidateQueue := h.perm.mem_iff.2 (List.mem_map_of_mem hx)
    obtain ⟨i, hi, hxe⟩ := List.getElem_of_mem hxc
    have htop := h.heap.top i hi
    have e1 : Heap.at' rc.candidateQueue i = x.cand := by simp [Heap.at', hi, hxe]
    have e2 : Heap.at' rc.candidateQueue 0 = ch.cand := by rw [hcq]; rfl
    rw [e1, e2] at htop
    exact htop
  refine ⟨{ rc with path := P ++ g.key ++ [0], value := Int.ofNat ch.v, nodes := mark ch.ids rc.nodes, nodeQueue := ch.ids.reverse, candidateQueue := q }, gs, A ++ C, ch.k, ch.v,
    ?_, by rw [l2], hpre, rfl, ?_, ?_, ?_, mark_length _ _, ?_, ?_, A.map (candOf gs), C.map (candOf gs), ?_, ?_, ?_, by rw [List.map_append]⟩
  · simp only [a3.2.1, pure_eq_ok] at hwalk ⊢
    rw [hwalk]
    simp only [ok_bind, htk, hdr, hcq, p1, hqueue]
    rfl
  · refine ⟨by rw [mark_stat]; exact h.sound, ?_, ?_, ?_, fun x hx => h.bound x (hsubC x hx), fun x hx => h.up x (hsubC x hx), ?_, fun x hx => h.last x (hsubC x hx), ?_, ?_,
      p2.trans hcs, p3, ?_, fun hs x hx => h.dom hs x (hsubC x hx), fun x hx => h.short x (hsubC x hx), ?_⟩
    · intro i hi
      rw [List.mem_reverse] at hi
      have hi' := Chain.mem_ids.1 hi
      refine ⟨by omega, by omega, ?_⟩
      rw [mark_queued, hfr i hi'.1 hi'.2]
      simp [hi]
    · have := hidsP.map (parOf gs)
      rw [this.nodup_iff]
      exact h.nodup
    · intro i hi g' hg'
      rw [mark_term]
      exact h.term i (hidsP.mem_iff.1 hi) g' hg'
    · intro x hx
      rcases h.top x (hsubC x hx) with h1 | h1
      · exact .inl h1
      · right
        rw [mark_queued, h1]; simp
    · intro i hi
      rw [mark_queued, h.fresh i (hidsP.mem_iff.1 (List.mem_append_right _ hi))]
      have : i ∉ ch.ids := by
        intro hc
        rw [List.nodup_append] at hnd
        exact hnd.2.2 i (List.mem_reverse.2 hc) i hi rfl
      simp [this]
    · intro i hi0 hi
      rw [mark_queued] at hi
      by_cases hmem : i ∈ ch.ids
      · have hmem' := Chain.mem_ids.1 hmem
        by_cases hia : i = ch.a
        · subst hia
          rcases h.top ch hch with h1 | h1
          · exact .inl h1
          · right
            rw [mark_queued, h1]; simp
        · right
          have := h.up ch hch (i - ch.a - 1) (by omega)
          rw [show ch.a + (i - ch.a - 1 + 1) = i by omega] at this
          rw [this, mark_queued, hfr _ (by omega) (by omega)]
          have : ch.a + (i - ch.a - 1) ∈ ch.ids := Chain.mem_ids.2 (by omega)
          simp [this]
      · have hi' : (rc.nodes.map RNode.isQueued)[i]? = some true := by
          cases hb : (rc.nodes.map RNode.isQueued)[i]? with
          | none => rw [hb] at hi; simp at hi
          | some b => rw [hb] at hi; simpa [hmem] using hi
        rcases h.closed i hi0 hi' with h1 | h1
        · exact .inl h1
        · right
          rw [mark_queued, h1]; simp
    · show gs.length + W (ch.ids.reverse.flatMap (restOf gs)) + W (((A ++ C).flatMap Chain.ids).flatMap (restOf gs)) ≤ B
      have h1 := h.room
      have h2 := W_perm (List.Perm.flatMap_right (restOf gs) hidsP)
      rw [List.flatMap_append, W_append] at h2
      simp only [List.flatMap_nil] at h1
      have h3 : W ([] : Lang) = 0 := rfl
      omega
    · exact h.late.sublist ((List.sublist_cons_self ch C).append_left A)
  · unfold rem
    rw [List.flatMap_nil, List.nil_append]
    refine hrp.trans (List.Perm.cons _ ?_)
    exact (List.Perm.flatMap_right _ (List.reverse_perm _).symm).append_right _
  · intro hs hor e he
    unfold rem at he
    rw [List.flatMap_nil, List.nil_append, List.mem_flatMap] at he
    obtain ⟨x, hx, he⟩ := he
    have hle : R e.2 x.v := by
      rcases List.mem_cons.1 he with rfl | he
      · exact hR _
      · obtain ⟨i, hi, he⟩ := List.mem_flatMap.1 he
        exact h.dom hs x hx i hi e he
    rcases hor with hone | hor
    · have hxc : x = ch := by
        rw [List.length_append, List.length_cons] at hone
        have hA : A = [] := List.eq_nil_of_length_eq_zero (by omega)
        have hC : C = [] := List.eq_nil_of_length_eq_zero (by omega)
        subst hA hC
        simpa using hx
      rw [← hxc]; exact hle
    refine hT hle (hor _ _ ?_)
    have hxc : x.cand ∈ rc.candidateQueue := h.perm.mem_iff.2 (List.mem_map_of_mem hx)
    obtain ⟨i, hi, hxe⟩ := List.getElem_of_mem hxc
    have htop := h.heap.top i hi
    have e1 : Heap.at' rc.candidateQueue i = x.cand := by simp [Heap.at', hi, hxe]
    have e2 : Heap.at' rc.candidateQueue 0 = ch.cand := by rw [hcq]; rfl
    rw [e1, e2] at htop
    by_cases hv : x.v = ch.v
    · omega
    · simp [Heap.less, Chain.cand, hv] at htop
      omega
  · have := h.short ch hch
    simp only [List.length_reverse, Chain.ids, List.length_range']
    omega
  · simp only [hcq, List.length_cons]
    rw [p2.length_eq]
  · rw [List.map_append, List.map_cons, List.reverse_reverse]
    rfl
  · intro y hy
    obtain ⟨x, hx, rfl⟩ := List.mem_map.1 hy
    have h1 := hbest x (List.mem_append_left _ hx)
    have h2 := (List.pairwise_append.1 h.late).2.2 x hx ch List.mem_cons_self
    show x.v < ch.v
    by_cases hv : x.v = ch.v
    · simp [Heap.less, Chain.cand, hv] at h1
      omega
    · simp [Heap.less, Chain.cand, hv] at h1
      omega
  · intro y hy
    obtain ⟨x, hx, rfl⟩ := List.mem_map.1 hy
    have h1 := hbest x (List.mem_append_right _ (List.mem_cons_of_mem _ hx))
    show x.v ≤ ch.v
    by_cases hv : x.v = ch.v
    · omega
    · simp [Heap.less, Chain.cand, hv] at h1
      omega

theorem rstate_next (V : View D At kid clean) (ho : OrdPerm At ord) (hg : GuideIs D At kid ord gd) (hR : ∀ a, R a a) (hT : ∀ {a b c}, R a b → R b c → R a c) (hS : S → Desc R At ord) (h0 : At u0 L0) (hW : 1 + W L0 ≤ B) (hB : B < 4294967296)
    {P : Key} {rc T ts cs} (h : RState R At kid ord u0 L0 S B P rc T ts cs) :
    (T = [] ∧ (∃ rc', RankedCompleter.next D gd rc = .ok (rc', false) ∧ rc'.nodeQueue = [] ∧ rc'.candidateQueue = []) ∧ Opened ord ts [] ∧ cs = []) ∨
    (∃ k v T' rc', T.Perm ((k, v) :: T') ∧ RankedCompleter.next D gd rc = .ok (rc', true) ∧ rc'.key = P ++ k ++ [0] ∧ rc'.value = Int.ofNat v ∧
      (∃ new A ts' C, Opened ord ts new ∧ new ++ cs = A ++ ((k, v), ts') :: C ∧ (∀ x ∈ A, x.1.2 < v) ∧ (∀ x ∈ C, x.1.2 ≤ v) ∧
        RState R At kid ord u0 L0 S B P rc' T' ts' (A ++ C)) ∧ (S → (rc.value = -1 ∨ ∀ a b, a ≤ b → R a b) → ∀ e ∈ T, R e.2 v) ∧
      rc'.nodeQueue.length ≤ k.length + 1 ∧ rc'.candidateQueue.length + 1 ≤ rc.candidateQueue.length + rc.nodeQueue.length ∧
      ∀ M, (∀ e ∈ T, e.1.length ≤ M) → rc'.nodes.length ≤ rc.nodes.length + rc.nodeQueue.length * (M + 1)) := by
  -- draining leads to a state without queued nodes
  have hdrain : ∃ rc1 gs chains, RankedCompleter.drainQueue D gd rc.nodeQueue rc = .ok rc1 ∧ rc1.path = rc.path ∧ rc1.prefixLength = rc.prefixLength ∧ rc1.value = rc.value ∧
      Inv R At kid ord u0 L0 S B gs rc1.nodes [] chains rc1.candidateQueue ∧ (rem gs [] chains).Perm T ∧ (rc.value = -1 → chains.length = 1) ∧
      rc1.candidateQueue.length ≤ rc.candidateQueue.length + rc.nodeQueue.length ∧
      (∀ M, (∀ e ∈ T, e.1.length ≤ M) → rc1.nodes.length ≤ rc.nodes.length + rc.nodeQueue.length * (M + 1)) ∧
      ∃ new, Opened ord ts new ∧ chains.map (candOf gs) = new ++ cs := by
    cases h with
    | @after rc gs chains T h1 h2 h3 h4 h5 =>
      obtain ⟨gs', nodes', chains', cq', d1, d2, d3, d4, d5, d6⟩ := drain_spec V ho hg hR hT hS hB rc.nodeQueue h4 (by omega)
      exact ⟨_, gs', chains', d1, rfl, rfl, rfl, d2, d3.trans h5, fun h => by omega, d4, fun M hM => d5 M (fun e he => hM e (h5.mem_iff.1 he)), d6⟩
    | fresh =>
      obtain ⟨l, post, hL⟩ : ∃ l post, ord L0 = l :: post := by
        cases hc : ord L0 with
        | nil =>
          have := ho h0
          rw [hc] at this
          exact absurd this.symm.eq_nil (arcs_ne V h0)
        | cons a as => exact ⟨a, as, rfl⟩
      obtain ⟨hl1, hl2, hl3⟩ := ord_split V ho h0 (A := []) hL
      simp only
      rw [RankedCompleter.drainQueue, if_neg (by simp)]
      simp only [pure_eq_ok, ok_bind]
      unfold RankedCompleter.findTerminal
      rw [RankedCompleter.findTerminalLoop]
      have hrd : rd [(⟨u0, 0, 88, true, L0.any (fun e => e.1 == [])⟩ : RNode)] 0 = .ok ⟨u0, 0, 88, true, L0.any (fun e => e.1 == [])⟩ := rd_some rfl
      simp only [hrd, ok_bind]
      rw [if_neg (by decide), hg.child h0, hL, List.headD_cons]
      simp only [ok_bind]
      have hany : L0.any (fun e => e.1 == []) = decide (0 ∈ l :: post) := by rw [← hL]; exact (zero_mem_ord V ho h0).symm
      have hSound : Sound At kid ord u0 L0 [⟨0, [], 0, [], 0, []⟩] ([(⟨u0, 0, 88, true, decide (0 ∈ post)⟩ : RNode)].map stat) := by
        refine ⟨rfl, ⟨0, rfl⟩, ?_⟩
        intro i g hi hgi
        have := (List.getElem?_eq_some_iff.1 hgi).1
        simp at this; omega
      have hI : Inv R At kid ord u0 L0 S B [⟨0, [], 0, [], 0, []⟩] [⟨u0, 0, 88, true, decide (0 ∈ post)⟩] [] [] [] := by
        refine ⟨hSound, by simp, by simp, by simp, by simp, by simp, by simp, by simp, by simp, ?_, by simp, ?_, ?_, by simp, by simp, by simp⟩
        · intro i hi hq
          have := (List.getElem?_eq_some_iff.1 hq).1
          simp at this; omega
        · intro i hi hil; simp at hil
        · simp [W]; omega
      have hcreate := createNode_eq D ⟨P, P.length, -1, [⟨u0, 0, 88, true, decide (0 ∈ post)⟩], [0], []⟩ (x := kid u0 l) (p := 0) (l := l)
        (b := decide (l ≠ 0 ∧ 0 ∈ ord (residual L0 [l])))
        (by
          intro h0'
          rw [V.hasValue (V.step h0 (hl1 h0')), ← zero_mem_ord V ho (V.step h0 (hl1 h0'))]
          simp [h0'])
        (by intro h; simp [h]) (by simp)
      obtain ⟨gs', nodes', ch, cq', c1, c2, c3, c4, c5⟩ := add_chain V ho hg hR hT hS hB (rc := ⟨P, P.length, -1, [⟨u0, 0, 88, true, decide (0 ∈ post)⟩] ++
          [⟨kid u0 l, 0, l, false, decide (l ≠ 0 ∧ 0 ∈ ord (residual L0 [l]))⟩], [0], []⟩) (fuel := 2 * D.size + 1) (by omega) hI
          (by
            rw [map_pre_nil, ← hL, W_perm (underT_ord V ho h0)]
            simp only [List.flatMap_nil, List.length_singleton]
            have : W ([] : Lang) = 0 := rfl
            omega)
          (by simp) (.inl rfl) (.inl ⟨rfl, rfl, rfl, rfl⟩) (by simp) h0 (A := []) hL (by simp) rfl
      have e0 : (rem ([⟨0, [], 0, [], 0, []⟩] ++ gs') [] [ch]).Perm L0 := by
        unfold rem
        simp only [List.flatMap_nil, List.nil_append, List.flatMap_cons, List.append_nil]
        refine c3.trans ?_
        rw [map_pre_nil, ← hL]
        exact underT_ord V ho h0
      refine ⟨⟨P, P.length, -1, nodes', [0], cq'⟩, _, [ch], ?_, rfl, rfl, rfl, c2, e0, fun _ => rfl, ?_, fun M hM => ?_, [candOf ([⟨0, [], 0, [], 0, []⟩] ++ gs') ch], .dive c5 .nil, rfl⟩
      · have hset : (if l = 0 then do
              let nodes ← wr [(⟨u0, 0, 88, true, L0.any (fun e => e.1 == [])⟩ : RNode)] 0 ⟨u0, 0, 88, true, false⟩
              pure (⟨P, P.length, -1, nodes, [0], []⟩ : RankedCompleter)
            else pure ⟨P, P.length, -1, [⟨u0, 0, 88, true, L0.any (fun e => e.1 == [])⟩], [0], []⟩ : Go RankedCompleter) =
            .ok ⟨P, P.length, -1, [⟨u0, 0, 88, true, decide (0 ∈ post)⟩], [0], []⟩ := by
          by_cases h0' : l = 0
          · subst h0'
            rw [if_pos rfl, wr_lt (by simp)]
            have : decide ((0 : UInt8) ∈ post) = false := by simpa using hl3
            simp [this, pure_eq_ok, ok_bind]
          · rw [if_neg h0', pure_eq_ok, hany]
            have : decide (0 ∈ l :: post) = decide ((0 : UInt8) ∈ post) := by simp [Ne.symm h0']
            rw [this]
        have htail : (do
            let x ← RankedBuilder.followWithoutCheck D u0 l
            let (rc', j) ← RankedCompleter.createNode D ⟨P, P.length, -1, [⟨u0, 0, 88, true, decide (0 ∈ post)⟩], [0], []⟩ x 0 l
            let (rc', t) ← RankedCompleter.findTerminalLoop D gd (2 * D.size + 1) rc' j
            let rc' ← RankedCompleter.enqueueCandidate D rc' t
            RankedCompleter.drainQueue D gd [] rc') = .ok ⟨P, P.length, -1, nodes', [0], cq'⟩ := by
          rw [V.fwc l h0]
          simp only [ok_bind, hcreate]
          rw [bind_eq_ok] at c1
          obtain ⟨⟨rc1, t⟩, c11, c12⟩ := c1
          simp only [List.length_singleton] at c11 ⊢
          rw [c11]
          simp only [ok_bind, c12]
          rfl
        rw [← htail]
        by_cases h0' : l = 0
        · simp only [if_pos h0'] at hset ⊢
          rw [bind_eq_ok] at hset
          obtain ⟨y, y1, y2⟩ := hset
          rw [y1]
          simp only [pure_eq_ok, Except.ok.injEq, ok_bind, bind_assoc] at y2 ⊢
          rw [y2]
        · simp only [if_neg h0', pure_eq_ok, Except.ok.injEq] at hset ⊢
          simp only [ok_bind, bind_assoc]
          rw [hset]
      · have := c2.perm.length_eq
        simp only [List.length_map, List.length_cons, List.length_nil] at this ⊢
        omega
      · have h1 : ch.k.length ≤ M := hM (ch.k, ch.v) (e0.mem_iff.1 (by unfold rem; simp))
        have h2 := c2.sound.len
        simp only [List.length_map, List.length_append, List.length_cons, List.length_nil] at h2 ⊢
        omega
  have hbase : rc.path.take P.length = P ∧ rc.prefixLength = P.length := by
    cases h with
    | after h1 h2 => exact ⟨h1, h2⟩
    | fresh => exact ⟨by simp, rfl⟩
  obtain ⟨rc1, gs, chains, d1, d2, d3, d4, d5, d6, d7, d8, d9, new, d10, d11⟩ := hdrain
  unfold RankedCompleter.next
  rw [d1]
  simp only [ok_bind]
  cases hcq : rc1.candidateQueue with
  | nil =>
    left
    have hch : chains = [] := by
      have := d5.perm
      rw [hcq] at this
      exact List.map_eq_nil_iff.1 this.nil_eq.symm
    subst hch
    have hT : T = [] := by
      have : rem gs [] [] = ([] : Lang) := rfl
      rw [this] at d6
      exact d6.symm.eq_nil
    subst hT
    have h1 := List.append_eq_nil_iff.1 d11.symm
    exact ⟨rfl, ⟨_, rfl, rfl, rfl⟩, by rw [← h1.1]; exact d10, h1.2⟩
  | cons c cs =>
    right
    obtain ⟨rc', gs', chains', k, v, t1, t2, t3, t4, t5, t6, t7, t8, t9, t10, A, C, t11, t12, t13, t14⟩ := take_spec hR hT (rc := { rc1 with nodeQueue := [] }) (P := P) (by simp only [d2]; exact hbase.1) (d3.trans hbase.2) d5 rfl hcq
    refine ⟨k, v, _, rc', d6.symm.trans t6, ?_, t2, t4, ⟨new, A, _, C, d10, by rw [← d11]; exact t11, t12, t13, by rw [← t14]; exact .after (by rw [t2]; simp) t3 (by rw [t4]; simp) t5 (List.Perm.refl _)⟩, fun hs hor e he => t7 hs (hor.imp d7 id) e (d6.mem_iff.2 he), t9,
      by simp only at t10; omega, fun M hM => by rw [t8]; exact d9 M hM⟩
    rw [hcq] at t1
    exact t1

theorem rnext_spec (V : View D At kid clean) (ho : OrdPerm At ord) (hg : GuideIs D At kid ord gd) (hR : ∀ a, R a a) (hT : ∀ {a b c}, R a b → R b c → R a c) (hS : S → Desc R At ord) (h0 : At u0 L0) (hW : 1 + W L0 ≤ B) (hB : B < 4294967296)
    {P : Key} {rc T} (h : RReady R At kid ord u0 L0 S B P rc T) :
    (T = [] ∧ ∃ rc', RankedCompleter.next D gd rc = .ok (rc', false) ∧ rc'.nodeQueue = [] ∧ rc'.candidateQueue = []) ∨
    (∃ k v T' rc', T.Perm ((k, v) :: T') ∧ RankedCompleter.next D gd rc = .ok (rc', true) ∧ rc'.key = P ++ k ++ [0] ∧ rc'.value = Int.ofNat v ∧
      RReady R At kid ord u0 L0 S B P rc' T' ∧ (S → (rc.value = -1 ∨ ∀ a b, a ≤ b → R a b) → ∀ e ∈ T, R e.2 v) ∧
      rc'.nodeQueue.length ≤ k.length + 1 ∧ rc'.candidateQueue.length + 1 ≤ rc.candidateQueue.length + rc.nodeQueue.length ∧
      ∀ M, (∀ e ∈ T, e.1.length ≤ M) → rc'.nodes.length ≤ rc.nodes.length + rc.nodeQueue.length * (M + 1)) := by
  obtain ⟨ts, cs, h⟩ := h
  rcases rstate_next V ho hg hR hT hS h0 hW hB h with ⟨h1, h2, _⟩ | ⟨k, v, T', rc', h1, h2, h3, h4, ⟨new, A, ts', C, _, _, _, _, h5⟩, h6⟩
  · exact .inl ⟨h1, h2⟩
  · exact .inr ⟨k, v, T', rc', h1, h2, h3, h4, ⟨_, _, h5⟩, h6⟩

end
end Dawg.Guided
