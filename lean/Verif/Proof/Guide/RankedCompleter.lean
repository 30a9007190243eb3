import Verif.Proof.Guide.RankedChain
/-! # The RankedCompleter: `Next` -/
namespace Dawg.Guided
attribute [-simp] List.length_flatten
open Dawg.Abs Dawg.Spec Dawg.Dict

/-- The nodes made for one candidate: `a`, `a + 1`, …, `a + m`; the key and the value of the candidate. -/
structure Chain where
  a : Nat
  m : Nat
  k : Key
  v : Nat

def Chain.ids (ch : Chain) : List Nat := List.range' ch.a (ch.m + 1)
def Chain.cand (ch : Chain) : Candidate := ⟨ch.a + ch.m, ch.v⟩

def parOf (gs : List Item) (i : Nat) : Nat := (gs[i]?.map Item.par).getD 0
def restOf (gs : List Item) (i : Nat) : Lang := (gs[i]?.map Item.rest).getD []
def taskOf (gs : List Item) (i : Nat) : Task := (gs[i]?.map Item.task).getD ([], [], [])

/-- Bytes and terminators. -/
def W (L : Lang) : Nat := (L.map fun e => e.1.length + 1).sum

theorem W_perm {L L' : Lang} (h : L.Perm L') : W L = W L' := (h.map _).sum_nat
theorem W_append (L L' : Lang) : W (L ++ L') = W L + W L' := by simp [W]
theorem W_cons (e : Entry) (L : Lang) : W (e :: L) = e.1.length + 1 + W L := by simp [W]
theorem W_mem {L : Lang} {e : Entry} (h : e ∈ L) : e.1.length + 1 ≤ W L := by
  induction L with
  | nil => simp at h
  | cons x L ih =>
    rw [W_cons]
    rcases List.mem_cons.1 h with rfl | h
    · omega
    · have := ih h; omega

/-- Marks nodes as queued. -/
def mark (ids : List Nat) (nodes : List RNode) : List RNode := nodes.mapIdx (fun j n => { n with isQueued := n.isQueued || decide (j ∈ ids) })

theorem mark_get (ids : List Nat) (nodes : List RNode) (j : Nat) : (mark ids nodes)[j]? = nodes[j]?.map (fun n => { n with isQueued := n.isQueued || decide (j ∈ ids) }) := by
  simp [mark]

theorem mark_length (ids : List Nat) (nodes : List RNode) : (mark ids nodes).length = nodes.length := by simp [mark]

theorem mark_stat (ids : List Nat) (nodes : List RNode) : (mark ids nodes).map stat = nodes.map stat := by
  apply List.ext_getElem?
  intro j
  rw [List.getElem?_map, List.getElem?_map, mark_get, Option.map_map]; rfl

theorem mark_term (ids : List Nat) (nodes : List RNode) : (mark ids nodes).map RNode.hasTerminal = nodes.map RNode.hasTerminal := by
  apply List.ext_getElem?
  intro j
  rw [List.getElem?_map, List.getElem?_map, mark_get, Option.map_map]; rfl

theorem mark_queued (ids : List Nat) (nodes : List RNode) (j : Nat) :
    ((mark ids nodes).map RNode.isQueued)[j]? = (nodes.map RNode.isQueued)[j]?.map (fun b => b || decide (j ∈ ids)) := by
  rw [List.getElem?_map, List.getElem?_map, mark_get, Option.map_map, Option.map_map]; rfl

theorem mark_mark (ids ids' : List Nat) (nodes : List RNode) : mark ids (mark ids' nodes) = mark (ids' ++ ids) nodes := by
  apply List.ext_getElem?
  intro j
  rw [mark_get, mark_get, mark_get, Option.map_map]
  congr 1
  funext n
  simp [Bool.or_assoc]

theorem mark_nil (nodes : List RNode) : mark [] nodes = nodes := by
  apply List.ext_getElem?
  intro j
  rw [mark_get]
  simp

theorem mark_congr {ids ids' : List Nat} (h : ∀ j, j ∈ ids ↔ j ∈ ids') (nodes : List RNode) : mark ids nodes = mark ids' nodes := by
  apply List.ext_getElem?
  intro j
  rw [mark_get, mark_get]
  simp [h j]

theorem mark_set {nodes : List RNode} {i : Nat} {n : RNode} (h : nodes[i]? = some n) : wr nodes i { n with isQueued := true } = .ok (mark [i] nodes) := by
  have hi := (List.getElem?_eq_some_iff.1 h).1
  rw [wr_lt hi]
  congr 1
  apply List.ext_getElem?
  intro j
  rw [mark_get, List.getElem?_set]
  by_cases hj : i = j
  · subst hj
    rw [if_pos rfl, if_pos hi, h]
    simp
  · rw [if_neg hj]
    have : ¬ j = i := fun h => hj h.symm
    simp [this]

theorem parOf_eq {gs : List Item} {i : Nat} {g : Item} (h : gs[i]? = some g) : parOf gs i = g.par := by simp [parOf, h]
theorem restOf_eq {gs : List Item} {i : Nat} {g : Item} (h : gs[i]? = some g) : restOf gs i = g.rest := by simp [restOf, h]
theorem parOf_append {gs : List Item} {i : Nat} (h : i < gs.length) (gs' : List Item) : parOf (gs ++ gs') i = parOf gs i := by
  simp [parOf, List.getElem?_append_left h]
theorem restOf_append {gs : List Item} {i : Nat} (h : i < gs.length) (gs' : List Item) : restOf (gs ++ gs') i = restOf gs i := by
  simp [restOf, List.getElem?_append_left h]

theorem taskOf_eq {gs : List Item} {i : Nat} {g : Item} (h : gs[i]? = some g) : taskOf gs i = g.task := by simp [taskOf, h]
theorem taskOf_append {gs : List Item} {i : Nat} (h : i < gs.length) (gs' : List Item) : taskOf (gs ++ gs') i = taskOf gs i := by
  simp [taskOf, List.getElem?_append_left h]

theorem map_taskOf_append {gs : List Item} {ids : List Nat} (h : ∀ i ∈ ids, i < gs.length) (gs' : List Item) : ids.map (taskOf (gs ++ gs')) = ids.map (taskOf gs) :=
  List.map_congr_left (fun i hi => taskOf_append (h i hi) gs')

theorem map_taskOf_new : ∀ (gs' gs : List Item), (List.range' gs.length gs'.length).map (taskOf (gs ++ gs')) = gs'.map Item.task
  | [], gs => by simp
  | g :: gs', gs => by
    rw [List.length_cons, List.range'_succ, List.map_cons, List.map_cons, taskOf_eq (g := g) (by simp)]
    congr 1
    have := map_taskOf_new gs' (gs ++ [g])
    simpa using this

theorem flatMap_restOf_append {gs : List Item} {ids : List Nat} (h : ∀ i ∈ ids, i < gs.length) (gs' : List Item) :
    ids.flatMap (restOf (gs ++ gs')) = ids.flatMap (restOf gs) := by
  rw [List.flatMap_def, List.flatMap_def]
  congr 1
  apply List.map_congr_left
  intro i hi
  exact restOf_append (h i hi) gs'

theorem flatMap_restOf_new : ∀ (gs' gs : List Item), (List.range' gs.length gs'.length).flatMap (restOf (gs ++ gs')) = gs'.flatMap Item.rest
  | [], gs => by simp
  | g :: gs', gs => by
    rw [List.length_cons, List.range'_succ, List.flatMap_cons, List.flatMap_cons, restOf_eq (g := g) (by simp)]
    congr 1
    have := flatMap_restOf_new gs' (gs ++ [g])
    simpa using this

section
variable {D : Dictionary} {At : Nat → Lang → Prop} {kid : Nat → UInt8 → Nat} {clean : UInt8 → Prop} {gd : Guide} {ord : Lang → List UInt8}
  {u0 : Nat} {L0 : Lang} {S : Prop} {R : Nat → Nat → Prop} {B : Nat}

/-- The state between two calls: queued nodes `Q`, the chains of the candidates. -/
structure Inv (R : Nat → Nat → Prop) (At : Nat → Lang → Prop) (kid : Nat → UInt8 → Nat) (ord : Lang → List UInt8) (u0 : Nat) (L0 : Lang) (S : Prop) (B : Nat)
    (gs : List Item) (nodes : List RNode) (Q : List Nat) (chains : List Chain) (cq : List Candidate) : Prop where
  sound : Sound At kid ord u0 L0 gs (nodes.map stat)
  pos : ∀ i ∈ Q, 0 < i ∧ i < gs.length ∧ (nodes.map RNode.isQueued)[i]? = some true
  nodup : ((Q ++ chains.flatMap Chain.ids).map (parOf gs)).Nodup
  term : ∀ i ∈ Q ++ chains.flatMap Chain.ids, ∀ g, gs[i]? = some g → (nodes.map RNode.hasTerminal)[g.par]? = some (decide (0 ∈ g.post))
  bound : ∀ ch ∈ chains, 0 < ch.a ∧ ch.a + ch.m < gs.length
  up : ∀ ch ∈ chains, ∀ j, j < ch.m → parOf gs (ch.a + (j + 1)) = ch.a + j
  top : ∀ ch ∈ chains, parOf gs ch.a = 0 ∨ (nodes.map RNode.isQueued)[parOf gs ch.a]? = some true
  last : ∀ ch ∈ chains, ∃ g, gs[ch.a + ch.m]? = some g ∧ g.key = ch.k ∧ g.label = 0
  fresh : ∀ i ∈ chains.flatMap Chain.ids, (nodes.map RNode.isQueued)[i]? = some false
  closed : ∀ i, 0 < i → (nodes.map RNode.isQueued)[i]? = some true → parOf gs i = 0 ∨ (nodes.map RNode.isQueued)[parOf gs i]? = some true
  perm : cq.Perm (chains.map Chain.cand)
  heap : Heap.IsHeap cq cq.length
  room : gs.length + W (Q.flatMap (restOf gs)) + W ((chains.flatMap Chain.ids).flatMap (restOf gs)) ≤ B
  dom : S → ∀ ch ∈ chains, ∀ i ∈ ch.ids, ∀ e ∈ restOf gs i, R e.2 ch.v
  short : ∀ ch ∈ chains, ch.m ≤ ch.k.length
  late : chains.Pairwise (fun ch ch' => ch'.a + ch'.m < ch.a)

/-- What is left to be listed. -/
def rem (gs : List Item) (Q : List Nat) (chains : List Chain) : Lang :=
  Q.flatMap (restOf gs) ++ chains.flatMap (fun ch => (ch.k, ch.v) :: ch.ids.flatMap (restOf gs))

theorem Chain.mem_ids {ch : Chain} {i : Nat} : i ∈ ch.ids ↔ ch.a ≤ i ∧ i ≤ ch.a + ch.m := by
  unfold Chain.ids
  rw [List.mem_range'_1]; omega

theorem Inv.ids_lt {gs nodes Q chains cq} (h : Inv R At kid ord u0 L0 S B gs nodes Q chains cq) : ∀ i ∈ chains.flatMap Chain.ids, 0 < i ∧ i < gs.length := by
  intro i hi
  obtain ⟨ch, h1, h2⟩ := List.mem_flatMap.1 hi
  rw [Chain.mem_ids] at h2
  have := h.bound ch h1
  omega

theorem Inv.live_lt {gs nodes Q chains cq} (h : Inv R At kid ord u0 L0 S B gs nodes Q chains cq) : ∀ i ∈ Q ++ chains.flatMap Chain.ids, 0 < i ∧ i < gs.length := by
  intro i hi
  rcases List.mem_append.1 hi with hi | hi
  · exact ⟨(h.pos i hi).1, (h.pos i hi).2.1⟩
  · exact h.ids_lt i hi

theorem Inv.par_lt {gs nodes Q chains cq} (h : Inv R At kid ord u0 L0 S B gs nodes Q chains cq) {i : Nat} (h0 : 0 < i) (hi : i < gs.length) : parOf gs i < i := by
  have hg : gs[i]? = some gs[i] := by simp [hi]
  rw [parOf_eq hg]
  exact (h.sound.ok i _ h0 hg).2.1

theorem enqueueCandidate_spec {rc : RankedCompleter} {t : Nat} {n : RNode} {w : Nat} (hn : rc.nodes[t]? = some n) (hw : rd D.units n.dictIndex = .ok w)
    (hh : Heap.IsHeap rc.candidateQueue rc.candidateQueue.length) :
    ∃ q, RankedCompleter.enqueueCandidate D rc t = .ok { rc with candidateQueue := q } ∧ q.Perm (⟨t, dictValue w⟩ :: rc.candidateQueue) ∧ Heap.IsHeap q q.length := by
  obtain ⟨q, h1, h2, h3⟩ := Heap.push_spec hh ⟨t, dictValue w⟩
  refine ⟨q, ?_, h2, h3⟩
  unfold RankedCompleter.enqueueCandidate
  simp only [rd_some hn, ok_bind, hw, h1, pure_eq_ok]

/-- A new chain. -/
theorem add_chain (V : View D At kid clean) (ho : OrdPerm At ord) (hg : GuideIs D At kid ord gd) (hR : ∀ a, R a a) (hT : ∀ {a b c}, R a b → R b c → R a c) (hS : S → Desc R At ord) (hB : B < 4294967296)
    {rc : RankedCompleter} {gs nodes Q chains p k u L A l post fuel} (hfuel : 2 * D.size + 1 ≤ fuel)
    (h : Inv R At kid ord u0 L0 S B gs nodes Q chains rc.candidateQueue)
    (hroom : gs.length + W (Q.flatMap (restOf gs)) + W ((chains.flatMap Chain.ids).flatMap (restOf gs)) + W ((underT L (l :: post)).map (pre k)) ≤ B)
    (hfree : p ∉ (Q ++ chains.flatMap Chain.ids).map (parOf gs)) (hq : p = 0 ∨ (nodes.map RNode.isQueued)[p]? = some true)
    (hown : Own kid u0 L0 gs p k u L) (hp : p < gs.length) (hat : At u L) (hL : ord L = A ++ l :: post)
    (hterm : (nodes.map RNode.hasTerminal)[p]? = some (decide (0 ∈ post)))
    (hrc : rc.nodes = nodes ++ [⟨kid u l, p, l, false, decide (l ≠ 0 ∧ 0 ∈ ord (residual L [l]))⟩]) :
    ∃ gs' nodes' ch cq', (do
        let (rc, t) ← RankedCompleter.findTerminalLoop D gd fuel rc nodes.length
        RankedCompleter.enqueueCandidate D rc t) = .ok { rc with nodes := nodes', candidateQueue := cq' } ∧
      Inv R At kid ord u0 L0 S B (gs ++ gs') nodes' Q (ch :: chains) cq' ∧
      ((ch.k, ch.v) :: ch.ids.flatMap (restOf (gs ++ gs'))).Perm ((underT L (l :: post)).map (pre k)) ∧ gs'.length ≤ ch.k.length + 1 ∧
      Dive ord k L (l :: post) (ch.k, ch.v) (ch.ids.map (taskOf (gs ++ gs'))) := by
  have hlen : nodes.length = gs.length := by rw [← h.sound.len, List.length_map]
  have hsub : ∀ e ∈ underT L [l], e ∈ L ∧ e ∈ underT L (l :: post) := by
    intro e he
    have h1 : e ∈ underT L (l :: post) := by rw [underT_cons]; exact List.mem_append_left _ he
    refine ⟨(underT_ord V ho hat).mem_iff.1 ?_, h1⟩
    rw [hL]
    unfold underT at h1 ⊢
    rw [List.flatMap_append]
    exact List.mem_append_right _ h1
  obtain ⟨gs', nodes', m, k', v, f1, f2, f3, f4, f5, f6, f7, ⟨n, w, f8, f8', f8''⟩, f9, f10, f11, f12⟩ :=
    chain_spec V ho hg S hR hT hS fuel (rc := rc) h.sound hown hp hat hL hterm
      (by
        intro e he
        have := V.depth hat e (hsub e he).1
        omega)
      (by
        intro e he
        have := W_mem (List.mem_map_of_mem (f := pre k) (hsub e he).2)
        simp only [pre, List.length_append] at this
        omega) hrc rfl
  obtain ⟨cq', c1, c2, c3⟩ := enqueueCandidate_spec (D := D) (rc := { rc with nodes := nodes ++ nodes' }) (t := nodes.length + m) f8 f8' h.heap
  have hnl : nodes'.length = gs'.length := by
    have := f2.len
    simp only [List.length_map, List.length_append] at this
    omega
  have hidsE : (⟨nodes.length, m, k', v⟩ : Chain).ids = List.range' gs.length gs'.length := by
    unfold Chain.ids
    rw [hlen, f3]
  have hids : (⟨nodes.length, m, k', v⟩ : Chain).ids.flatMap (restOf (gs ++ gs')) = gs'.flatMap Item.rest := by
    rw [hidsE, flatMap_restOf_new]
  have hget : ∀ j, (gs ++ gs')[gs.length + j]? = gs'[j]? := by
    intro j
    rw [List.getElem?_append_right (by omega)]
    congr 1; omega
  have hparN : ∀ j, j ≤ m → parOf (gs ++ gs') (gs.length + j) = if j = 0 then p else gs.length + (j - 1) := by
    intro j hj
    have hg' : gs'[j]? = some gs'[j] := by simp
    rw [parOf_eq ((hget j).trans hg'), f5 j _ hg', hlen]
  have hparO : (Q ++ chains.flatMap Chain.ids).map (parOf (gs ++ gs')) = (Q ++ chains.flatMap Chain.ids).map (parOf gs) :=
    List.map_congr_left (fun i hi => parOf_append (h.live_lt i hi).2 _)
  have hqO : ∀ {j : Nat} {b : Bool}, (nodes.map RNode.isQueued)[j]? = some b → ((nodes ++ nodes').map RNode.isQueued)[j]? = some b := by
    intro j b hj
    rw [List.map_append, List.getElem?_append_left (List.getElem?_eq_some_iff.1 hj).1]
    exact hj
  have htO : ∀ {j : Nat} {b : Bool}, (nodes.map RNode.hasTerminal)[j]? = some b → ((nodes ++ nodes').map RNode.hasTerminal)[j]? = some b := by
    intro j b hj
    rw [List.map_append, List.getElem?_append_left (List.getElem?_eq_some_iff.1 hj).1]
    exact hj
  have hqN : ∀ j : Nat, gs.length ≤ j → j < gs.length + gs'.length → ((nodes ++ nodes').map RNode.isQueued)[j]? = some false := by
    intro j h1 h2
    rw [List.getElem?_map, List.getElem?_append_right (by omega)]
    have hj : j - nodes.length < nodes'.length := by omega
    rw [List.getElem?_eq_getElem hj, Option.map_some, f4 _ (List.getElem_mem hj)]
  refine ⟨gs', nodes ++ nodes', ⟨nodes.length, m, k', v⟩, cq', ?_, ?_, ?_, by simp only; omega, by rw [hidsE, map_taskOf_new]; exact f12⟩
  · rw [f1]
    simp only [ok_bind, c1]
  · refine ⟨f2, ?_, ?_, ?_, ?_, ?_, ?_, ?_, ?_, ?_, ?_, c3, ?_, ?_, ?_, ?_⟩
    · intro i hi
      obtain ⟨h1, h2, h3⟩ := h.pos i hi
      exact ⟨h1, by rw [List.length_append]; omega, hqO h3⟩
    · have hpm : ((Q ++ (⟨nodes.length, m, k', v⟩ :: chains).flatMap Chain.ids).map (parOf (gs ++ gs'))).Perm
          ((List.range' gs.length gs'.length).map (parOf (gs ++ gs')) ++ (Q ++ chains.flatMap Chain.ids).map (parOf gs)) := by
        rw [← hparO, ← List.map_append]
        apply List.Perm.map
        rw [List.flatMap_cons, hidsE, ← List.append_assoc, ← List.append_assoc]
        exact List.perm_append_comm.append_right _
      rw [hpm.nodup_iff, List.nodup_append]
      refine ⟨?_, h.nodup, ?_⟩
      · rw [List.Nodup, List.pairwise_map]
        refine (List.nodup_range' (s := gs.length) (n := gs'.length)).imp_of_mem ?_
        intro x y hx hy hxy he
        rw [List.mem_range'_1] at hx hy
        obtain ⟨x, rfl⟩ : ∃ z, x = gs.length + z := ⟨x - gs.length, by omega⟩
        obtain ⟨y, rfl⟩ : ∃ z, y = gs.length + z := ⟨y - gs.length, by omega⟩
        rw [hparN x (by omega), hparN y (by omega)] at he
        split at he <;> split at he <;> omega
      · intro x hx y hy he
        subst he
        obtain ⟨i, hi, rfl⟩ := List.mem_map.1 hx
        rw [List.mem_range'_1] at hi
        obtain ⟨z, rfl⟩ : ∃ z, i = gs.length + z := ⟨i - gs.length, by omega⟩
        rw [hparN z (by omega)] at hy
        split at hy
        · exact hfree hy
        · obtain ⟨i, hi', he⟩ := List.mem_map.1 hy
          have h1 := h.live_lt i hi'
          have := h.par_lt h1.1 h1.2
          omega
    · intro i hi g hgi
      rw [List.flatMap_cons] at hi
      have hsplit : i ∈ (⟨nodes.length, m, k', v⟩ : Chain).ids ∨ i ∈ Q ++ chains.flatMap Chain.ids := by
        simp only [List.mem_append] at hi ⊢
        rcases hi with hi | hi | hi
        · exact .inr (.inl hi)
        · exact .inl hi
        · exact .inr (.inr hi)
      rcases hsplit with hi | hi
      · rw [hidsE, List.mem_range'_1] at hi
        rw [List.getElem?_append_right hi.1] at hgi
        exact f6 g (List.mem_of_getElem? hgi)
      · rw [List.getElem?_append_left (h.live_lt i hi).2] at hgi
        exact htO (h.term i hi g hgi)
    · intro ch hch
      rcases List.mem_cons.1 hch with rfl | hch
      · have := h.sound.lt
        simp only [List.length_append]; omega
      · have := h.bound ch hch
        rw [List.length_append]; omega
    · intro ch hch j hj
      rcases List.mem_cons.1 hch with rfl | hch
      · simp only at hj ⊢
        rw [hlen, hparN (j + 1) (by omega), if_neg (by omega), Nat.add_sub_cancel]
      · have := h.bound ch hch
        rw [parOf_append (by omega)]
        exact h.up ch hch j hj
    · intro ch hch
      rcases List.mem_cons.1 hch with rfl | hch
      · simp only
        have := hparN 0 (by omega)
        rw [if_pos rfl, Nat.add_zero] at this
        rw [hlen, this]
        rcases hq with hq | hq
        · exact .inl hq
        · exact .inr (hqO hq)
      · have := h.bound ch hch
        rw [parOf_append (by omega)]
        rcases h.top ch hch with h1 | h1
        · exact .inl h1
        · exact .inr (hqO h1)
    · intro ch hch
      rcases List.mem_cons.1 hch with rfl | hch
      · obtain ⟨g, h1, h2, h3⟩ := f7
        exact ⟨g, by simp only; rw [hlen, hget]; exact h1, h2, h3⟩
      · obtain ⟨g, h1, h2⟩ := h.last ch hch
        exact ⟨g, by rw [List.getElem?_append_left (List.getElem?_eq_some_iff.1 h1).1]; exact h1, h2⟩
    · intro i hi
      rw [List.flatMap_cons, List.mem_append, hidsE, List.mem_range'_1] at hi
      rcases hi with hi | hi
      · exact hqN i hi.1 hi.2
      · exact hqO (h.fresh i hi)
    · intro i h0 hi
      by_cases hlt : i < gs.length
      · rw [parOf_append hlt]
        rw [List.map_append, List.getElem?_append_left (by rw [List.length_map]; omega)] at hi
        rcases h.closed i h0 hi with h1 | h1
        · exact .inl h1
        · exact .inr (hqO h1)
      · have hl := (List.getElem?_eq_some_iff.1 hi).1
        simp only [List.length_map, List.length_append] at hl
        rw [hqN i (by omega) (by omega)] at hi
        simp at hi
    · rw [List.map_cons]
      refine c2.trans ?_
      rw [f8'']
      exact h.perm.cons _
    · rw [List.flatMap_cons, List.flatMap_append, hids, flatMap_restOf_append (fun i hi => (h.pos i hi).2.1), flatMap_restOf_append (fun i hi => (h.ids_lt i hi).2),
        W_append, List.length_append]
      have := W_perm f9
      rw [W_cons] at this
      simp only at this
      omega
    · intro hs ch hch i hi e he
      rcases List.mem_cons.1 hch with rfl | hch
      · have : e ∈ (⟨nodes.length, m, k', v⟩ : Chain).ids.flatMap (restOf (gs ++ gs')) := List.mem_flatMap.2 ⟨i, hi, he⟩
        rw [hids] at this
        have := f9.mem_iff.2 (List.mem_cons_of_mem (k', v) this)
        obtain ⟨e', h1, rfl⟩ := List.mem_map.1 this
        exact f11 hs e' h1
      · rw [restOf_append (h.ids_lt i (List.mem_flatMap.2 ⟨ch, hch, hi⟩)).2] at he
        exact h.dom hs ch hch i hi e he
    · intro ch hch
      rcases List.mem_cons.1 hch with rfl | hch
      · simp only; omega
      · exact h.short ch hch
    · rw [List.pairwise_cons]
      refine ⟨fun ch hch => ?_, h.late⟩
      have := h.bound ch hch
      simp only
      omega
  · rw [hids]
    exact f9.symm

end
end Dawg.Guided
