import Verif.Props.Corrupt
import Verif.Proof.Guide.Heap
/-! # The ranked completer over any dictionary and guide -/
namespace Dawg.Props
open Dawg Dawg.Spec Dawg.Client Dawg.Abs Dawg.Dict Dawg.Guided Dawg.Tool
attribute [-simp] List.length_flatten

/-- The units that a ranked completer visits from unit `i`, with their labels (without any check), and whether the terminal of `i` is still to come. -/
inductive RKid (D : Dictionary) (g : Guide) (i : Nat) : Nat → UInt8 → Bool → Prop
  | first {u hv j} : g.units[i]? = some u → D.hasValue i = .ok hv → RankedBuilder.followWithoutCheck D i u.child = .ok j → RKid D g i j u.child (hv && u.child != 0)
  | next {k l t u j} : RKid D g i k l t → g.units[k]? = some u → u.sibling ≠ 0 ∨ t = true → RankedBuilder.followWithoutCheck D i u.sibling = .ok j →
      RKid D g i j u.sibling (t && u.sibling != 0)

/-- Nodes for a unit that was reached by the label `l`. -/
def weight (W : Nat → Nat) (j : Nat) (l : UInt8) : Nat := if l = 0 then 1 else W j

/-- A dictionary and a guide, read from wherever, on which ranked completers work: look-ups of bytes of `A` stay in the units `S`, and so do ranked completers; the guide is as large as
the dictionary; fewer than 2^32 nodes are needed: `W i` for the completions from unit `i`, `R i l t` for those behind the siblings after the label `l` (with the terminal, if `t`). -/
structure Tame (D : Dictionary) (g : Guide) (A : UInt8 → Prop) (S : Nat → Prop) (W : Nat → Nat) (R : Nat → UInt8 → Bool → Nat) : Prop where
  closed : Closed D A S
  kids : ∀ i j l t, S i → RKid D g i j l t → l ≠ 0 → S j
  size : g.units.length = D.units.length
  first : ∀ i u hv j, S i → g.units[i]? = some u → D.hasValue i = .ok hv → RankedBuilder.followWithoutCheck D i u.child = .ok j →
    1 + weight W j u.child + R i u.child (hv && u.child != 0) ≤ W i
  next : ∀ i k l t u j, S i → RKid D g i k l t → g.units[k]? = some u → u.sibling ≠ 0 ∨ t = true → RankedBuilder.followWithoutCheck D i u.sibling = .ok j →
    weight W j u.sibling + R i u.sibling (t && u.sibling != 0) ≤ R i l t
  bound : ∀ i, S i → W i < 4294967296

section
variable {D : Dictionary} {g : Guide} {A : UInt8 → Prop} {S : Nat → Prop} {W : Nat → Nat} {R : Nat → UInt8 → Bool → Nat}

theorem Closed.fwc (h : Closed D A S) (b : UInt8) {i : Nat} (hi : S i) : ∃ j, RankedBuilder.followWithoutCheck D i b = .ok j ∧ j < D.units.length := by
  have h1 := h.offset hi
  have h2 : i ^^^ dictOffset (D.units[i]'(h.lt hi)) ^^^ b.toNat < D.units.length := by
    have : D.units.length = 256 * (D.units.length / 256) := by have := h.whole; omega
    rw [this]
    rw [this] at h1
    exact (xor_lt_of_block b.toNat_lt).2 h1
  unfold RankedBuilder.followWithoutCheck
  rw [rd_lt (h.lt hi)]
  exact ⟨_, rfl, h2⟩

theorem Tame.unit (h : Tame D g A S W R) {i : Nat} (hi : i < D.units.length) : ∃ u, g.units[i]? = some u ∧ g.child i = .ok u.child ∧ g.sibling i = .ok u.sibling := by
  have hlt : i < g.units.length := by rw [h.size]; exact hi
  refine ⟨g.units[i], List.getElem?_eq_getElem hlt, ?_, ?_⟩
  · unfold Guide.child; rw [rd_lt hlt]; rfl
  · unfold Guide.sibling; rw [rd_lt hlt]; rfl

theorem Tame.weight_pos (h : Tame D g A S W R) {j : Nat} {l : UInt8} (hS : l ≠ 0 → S j) : 1 ≤ weight W j l := by
  unfold weight
  by_cases hz : l = 0
  · rw [if_pos hz]; exact Nat.le_refl _
  · rw [if_neg hz]
    have hSj := hS hz
    obtain ⟨u', hu', _⟩ := h.unit (h.closed.lt hSj)
    obtain ⟨hv', h3⟩ := h.closed.hasValue hSj
    obtain ⟨j', h4, _⟩ := h.closed.fwc u'.child hSj
    have := h.first j u' hv' j' hSj hu' h3 h4
    omega

/-- What an open node may still need. -/
def owe (R : Nat → UInt8 → Bool → Nat) (nodes : List RNode) (n : Nat) : Nat :=
  match nodes[n]? with
  | none => 0
  | some x => match nodes[x.prevNodeIndex]? with
    | none => 0
    | some p => R p.dictIndex x.label p.hasTerminal

theorem owe_eq {nodes : List RNode} {n : Nat} {x p : RNode} (hx : nodes[n]? = some x) (hp : nodes[x.prevNodeIndex]? = some p) :
    owe R nodes n = R p.dictIndex x.label p.hasTerminal := by
  unfold owe
  simp only [hx, hp]

/-- The nodes of a ranked completer: `q` waits to be processed, `os` are the nodes whose next sibling has not been looked for. -/
structure RInv (D : Dictionary) (g : Guide) (S : Nat → Prop) (R : Nat → UInt8 → Bool → Nat) (nodes : List RNode) (q os : List Nat) (B : Nat) : Prop where
  par : ∀ n x, nodes[n]? = some x → n ≠ 0 → x.prevNodeIndex < n
  unit : ∀ (n : Nat) x, nodes[n]? = some x → x.dictIndex < D.units.length ∧ (x.label ≠ 0 → S x.dictIndex)
  parent : ∀ (n : Nat) x p, nodes[n]? = some x → n ≠ 0 → nodes[x.prevNodeIndex]? = some p → p.label ≠ 0
  mem : ∀ (n : Nat) x, nodes[n]? = some x → (n ∈ os ↔ n ≠ 0 ∧ (x.isQueued = false ∨ n ∈ q))
  lt : ∀ n ∈ os, n < nodes.length
  nodup : os.Nodup
  kid : ∀ n x p, n ∈ os → nodes[n]? = some x → nodes[x.prevNodeIndex]? = some p → RKid D g p.dictIndex x.dictIndex x.label p.hasTerminal
  one : ∀ n m x y, n ∈ os → m ∈ os → nodes[n]? = some x → nodes[m]? = some y → x.prevNodeIndex = y.prevNodeIndex → n = m
  qn : q.Nodup
  qd : ∀ n ∈ q, n ≠ 0 ∧ ∃ x, nodes[n]? = some x ∧ x.isQueued = true
  room : nodes.length + (os.map (owe R nodes)).sum ≤ B

theorem RInv.pos {nodes : List RNode} {q os : List Nat} {B : Nat} (h : RInv D g S R nodes q os B) {n : Nat} (hn : n ∈ os) : n ≠ 0 := by
  have hlt := h.lt n hn
  exact ((h.mem n nodes[n] (List.getElem?_eq_getElem hlt)).1 hn).1

/-- A new node. -/
theorem RInv.grow {nodes : List RNode} {q os : List Nat} {B B0 : Nat} (h : RInv D g S R nodes q os B0) {pi : Nat} {p y : RNode} {b : Bool} (hp : nodes[pi]? = some p) (hpl : p.label ≠ 0)
    (hy : y.prevNodeIndex = pi) (hyq : y.isQueued = false) (hyu : y.dictIndex < D.units.length ∧ (y.label ≠ 0 → S y.dictIndex)) (hk : RKid D g p.dictIndex y.dictIndex y.label b)
    (hno : ∀ (n : Nat) x, n ∈ os → nodes[n]? = some x → x.prevNodeIndex ≠ pi) (hB : B0 + 1 + R p.dictIndex y.label b ≤ B) :
    RInv D g S R (nodes.set pi { p with hasTerminal := b } ++ [y]) q (nodes.length :: os) B := by
  have hpi : pi < nodes.length := (List.getElem?_eq_some_iff.1 hp).1
  -- the nodes of the new list
  have hget : ∀ (n : Nat) x, (nodes.set pi { p with hasTerminal := b } ++ [y])[n]? = some x →
      (n < nodes.length ∧ n ≠ pi ∧ nodes[n]? = some x) ∨ (n = pi ∧ x = { p with hasTerminal := b }) ∨ (n = nodes.length ∧ x = y) := by
    intro n x hx
    by_cases hn : n < nodes.length
    · rw [List.getElem?_append_left (by rw [List.length_set]; exact hn), List.getElem?_set] at hx
      by_cases hnp : pi = n
      · rw [if_pos hnp, if_pos hpi] at hx
        exact .inr (.inl ⟨hnp.symm, (Option.some.inj hx).symm⟩)
      · rw [if_neg hnp] at hx
        exact .inl ⟨hn, fun hc => hnp hc.symm, hx⟩
    · rw [List.getElem?_append_right (by rw [List.length_set]; omega), List.length_set] at hx
      obtain ⟨h1, h2⟩ := List.getElem?_eq_some_iff.1 hx
      have h1' : n - nodes.length < 1 := h1
      have : n = nodes.length := by omega
      subst this
      simp at h2
      exact .inr (.inr ⟨rfl, h2.symm⟩)
  have hold : ∀ (n : Nat) x, nodes[n]? = some x → n ≠ pi → (nodes.set pi { p with hasTerminal := b } ++ [y])[n]? = some x := by
    intro n x hx hn
    have := (List.getElem?_eq_some_iff.1 hx).1
    rw [List.getElem?_append_left (by rw [List.length_set]; exact this), List.getElem?_set, if_neg (fun hc => hn hc.symm), hx]
  have hnew : (nodes.set pi { p with hasTerminal := b } ++ [y])[nodes.length]? = some y := by
    rw [List.getElem?_append_right (by rw [List.length_set]; exact Nat.le_refl _), List.length_set, Nat.sub_self]; rfl
  have hpar : (nodes.set pi { p with hasTerminal := b } ++ [y])[pi]? = some { p with hasTerminal := b } := by
    rw [List.getElem?_append_left (by rw [List.length_set]; exact hpi), List.getElem?_set, if_pos rfl, if_pos hpi]
  -- the same node as before, up to `hasTerminal`
  have hback : ∀ (n : Nat) x, n ≠ nodes.length → (nodes.set pi { p with hasTerminal := b } ++ [y])[n]? = some x →
      ∃ x', nodes[n]? = some x' ∧ x'.prevNodeIndex = x.prevNodeIndex ∧ x'.dictIndex = x.dictIndex ∧ x'.label = x.label ∧ x'.isQueued = x.isQueued ∧ (n ≠ pi → x' = x) := by
    intro n x hn hx
    rcases hget n x hx with ⟨_, _, h2⟩ | ⟨h1, h2⟩ | ⟨h1, _⟩
    · exact ⟨x, h2, rfl, rfl, rfl, rfl, fun _ => rfl⟩
    · subst h1 h2
      exact ⟨p, hp, rfl, rfl, rfl, rfl, fun hc => absurd rfl hc⟩
    · exact absurd h1 hn
  have hln : nodes.length ∉ os := fun hc => absurd (h.lt _ hc) (Nat.lt_irrefl _)
  have howe : ∀ n ∈ os, owe R (nodes.set pi { p with hasTerminal := b } ++ [y]) n = owe R nodes n := by
    intro n hn
    have hlt := h.lt n hn
    obtain ⟨x, hx⟩ : ∃ x, nodes[n]? = some x := ⟨_, List.getElem?_eq_getElem hlt⟩
    have hne := hno n x hn hx
    have hpl := h.par n x hx (h.pos hn)
    obtain ⟨px, hpx⟩ : ∃ px, nodes[x.prevNodeIndex]? = some px := ⟨_, List.getElem?_eq_getElem (show x.prevNodeIndex < nodes.length by omega)⟩
    rw [owe_eq hx hpx]
    by_cases hnp : n = pi
    · subst hnp
      rw [hp] at hx
      cases hx
      exact owe_eq (x := { p with hasTerminal := b }) hpar (hold _ _ hpx hne)
    · exact owe_eq (hold n _ hx hnp) (hold _ _ hpx hne)
  refine ⟨?_, ?_, ?_, ?_, ?_, ?_, ?_, ?_, h.qn, ?_, ?_⟩
  · intro n x hx hn
    rcases hget n x hx with ⟨_, _, h2⟩ | ⟨h1, h2⟩ | ⟨h1, h2⟩
    · exact h.par n x h2 hn
    · subst h1 h2
      exact h.par n p hp hn
    · subst h1 h2
      rw [hy]; exact hpi
  · intro n x hx
    rcases hget n x hx with ⟨_, _, h2⟩ | ⟨h1, h2⟩ | ⟨h1, h2⟩
    · exact h.unit n x h2
    · subst h1 h2
      exact h.unit n p hp
    · subst h1 h2
      exact hyu
  · intro n x p' hx hn hp'
    by_cases hnl : n = nodes.length
    · subst hnl
      rw [hnew] at hx
      cases hx
      rw [hy, hpar] at hp'
      cases hp'
      exact hpl
    · obtain ⟨x', e1, e2, _⟩ := hback n x hnl hx
      have h1 := h.par n x' e1 hn
      have h2 := (List.getElem?_eq_some_iff.1 e1).1
      obtain ⟨p'', f1, _, _, f4, _⟩ := hback x.prevNodeIndex p' (by omega) hp'
      rw [← f4]
      exact h.parent n x' p'' e1 hn (by rw [e2]; exact f1)
  · intro n x hx
    by_cases hnl : n = nodes.length
    · subst hnl
      rw [hnew] at hx
      cases hx
      simp only [List.mem_cons, true_or, true_iff]
      exact ⟨by omega, .inl hyq⟩
    · obtain ⟨x', e1, _, _, _, e2, _⟩ := hback n x hnl hx
      rw [List.mem_cons, ← e2]
      have := h.mem n x' e1
      constructor
      · rintro (h1 | h1)
        · exact absurd h1 hnl
        · exact this.1 h1
      · exact fun h1 => .inr (this.2 h1)
  · intro n hn
    rw [List.length_append, List.length_set]
    rcases List.mem_cons.1 hn with h1 | h1
    · rw [h1]; simp
    · have := h.lt n h1; simp; omega
  · exact List.nodup_cons.2 ⟨hln, h.nodup⟩
  · intro n x p' hn hx hp'
    rcases List.mem_cons.1 hn with h1 | h1
    · subst h1
      rw [hnew] at hx
      cases hx
      rw [hy, hpar] at hp'
      cases hp'
      exact hk
    · have hnl : n ≠ nodes.length := fun hc => hln (hc ▸ h1)
      obtain ⟨x', e1, e2, e3, e4, _, _⟩ := hback n x hnl hx
      have h2 := h.par n x' e1 (h.pos h1)
      have h3 := h.lt n h1
      have hne := hno n x' h1 e1
      rw [← e3, ← e4]
      refine h.kid n x' p' h1 e1 ?_
      rw [e2] at hne h2 ⊢
      obtain ⟨p'', f1, _, _, _, _, f6⟩ := hback x.prevNodeIndex p' (by omega) hp'
      rw [f6 hne] at f1
      exact f1
  · intro n m x x2 hn hm hx hx2 he
    have key : ∀ (m : Nat) x2, m ∈ os → (nodes.set pi { p with hasTerminal := b } ++ [y])[m]? = some x2 → x2.prevNodeIndex ≠ pi := by
      intro m x2 hm hx2
      obtain ⟨x', e1, e2, _⟩ := hback m x2 (fun hc => hln (hc ▸ hm)) hx2
      rw [← e2]
      exact hno m x' hm e1
    rcases List.mem_cons.1 hn with h1 | h1 <;> rcases List.mem_cons.1 hm with h2 | h2
    · rw [h1, h2]
    · subst h1
      rw [hnew] at hx
      cases hx
      exact absurd (he.symm.trans hy) (key m x2 h2 hx2)
    · subst h2
      rw [hnew] at hx2
      cases hx2
      exact absurd (he.trans hy) (key n x h1 hx)
    · obtain ⟨x', e1, e2, _⟩ := hback n x (fun hc => hln (hc ▸ h1)) hx
      obtain ⟨x2', f1, f2, _⟩ := hback m x2 (fun hc => hln (hc ▸ h2)) hx2
      exact h.one n m x' x2' h1 h2 e1 f1 (by rw [e2, f2, he])
  · intro n hn
    obtain ⟨h1, x, h2, h3⟩ := h.qd n hn
    refine ⟨h1, ?_⟩
    by_cases hnp : n = pi
    · subst hnp
      rw [hp] at h2
      cases h2
      exact ⟨_, hpar, h3⟩
    · exact ⟨x, hold n x h2 hnp, h3⟩
  · rw [List.map_cons, List.sum_cons, owe_eq hnew (p := { p with hasTerminal := b }) (by rw [hy]; exact hpar), List.length_append, List.length_set]
    have h1 : os.map (owe R (nodes.set pi { p with hasTerminal := b } ++ [y])) = os.map (owe R nodes) := List.map_congr_left howe
    rw [h1]
    have := h.room
    simp only [List.length_singleton]
    omega

/-- A node has been processed. -/
theorem RInv.close {nodes : List RNode} {i : Nat} {q os : List Nat} {B : Nat} (h : RInv D g S R nodes (i :: q) os B) :
    RInv D g S R nodes q (os.erase i) (B - owe R nodes i) ∧ i ∈ os ∧ owe R nodes i ≤ B := by
  obtain ⟨h0, x, hx, hq⟩ := h.qd i List.mem_cons_self
  have hi : i ∈ os := (h.mem i x hx).2 ⟨h0, .inr List.mem_cons_self⟩
  have hqn := List.nodup_cons.1 h.qn
  have hm : ∀ {n}, n ∈ os.erase i ↔ n ≠ i ∧ n ∈ os := by intro n; exact h.nodup.mem_erase_iff
  have hsum : (os.map (owe R nodes)).sum = owe R nodes i + ((os.erase i).map (owe R nodes)).sum := by
    have := ((List.perm_cons_erase hi).map (owe R nodes)).sum_nat
    rw [this, List.map_cons, List.sum_cons]
  have hr := h.room
  refine ⟨⟨h.par, h.unit, h.parent, ?_, fun n hn => h.lt n (hm.1 hn).2, h.nodup.erase i, fun n x p hn => h.kid n x p (hm.1 hn).2,
    fun n m x y hn hm' => h.one n m x y (hm.1 hn).2 (hm.1 hm').2, hqn.2, fun n hn => h.qd n (List.mem_cons_of_mem _ hn), by omega⟩, hi, by omega⟩
  intro n y hy
  rw [hm, h.mem n y hy, List.mem_cons]
  constructor
  · rintro ⟨h1, h2, h3 | h3 | h3⟩
    · exact ⟨h2, .inl h3⟩
    · exact absurd h3 h1
    · exact ⟨h2, .inr h3⟩
  · rintro ⟨h2, h3⟩
    refine ⟨?_, h2, h3.imp id .inr⟩
    rintro rfl
    rw [hx] at hy
    cases hy
    rcases h3 with h3 | h3
    · rw [hq] at h3; cases h3
    · exact hqn.1 h3

theorem set_same {nodes : List RNode} {i : Nat} {x : RNode} (hx : nodes[i]? = some x) : nodes.set i { x with hasTerminal := x.hasTerminal } = nodes := by
  apply List.ext_getElem?
  intro j
  rw [List.getElem?_set]
  by_cases hj : i = j
  · subst hj
    rw [if_pos rfl, if_pos (List.getElem?_eq_some_iff.1 hx).1, hx]
  · rw [if_neg hj]

theorem create_ok (h : Tame D g A S W R) (rc : RankedCompleter) {j pi : Nat} {l : UInt8} (hS : l ≠ 0 → S j) (hlen : rc.nodes.length < 4294967296) :
    ∃ ht, RankedCompleter.createNode D rc j pi l = .ok ({ rc with nodes := rc.nodes ++ [⟨j, pi, l, false, ht⟩] }, rc.nodes.length) ∧ (l ≠ 0 → D.hasValue j = .ok ht) := by
  unfold RankedCompleter.createNode
  by_cases hl : l = 0
  · refine ⟨false, ?_, fun hc => absurd hl hc⟩
    rw [if_neg (by simpa using hl)]
    simp only [ok_bind, pure_eq_ok, Except.ok.injEq, Prod.mk.injEq, true_and]
    rw [List.length_append, List.length_singleton, Nat.add_sub_cancel, u32_of_lt hlen]
  · obtain ⟨ht, h1⟩ := h.closed.hasValue (hS hl)
    refine ⟨ht, ?_, fun _ => h1⟩
    rw [if_pos hl, h1]
    simp only [ok_bind, pure_eq_ok, Except.ok.injEq, Prod.mk.injEq, true_and]
    rw [List.length_append, List.length_singleton, Nat.add_sub_cancel, u32_of_lt hlen]

/-- `findTerminal` on the newest node. -/
theorem terminal_any (h : Tame D g A S W R) {B : Nat} (hB : B < 4294967296) : ∀ (fuel : Nat) (rc : RankedCompleter) (i : Nat) (x : RNode) (q os vs : List Nat) (B0 : Nat),
    rc.nodes.length = i + 1 → rc.nodes[i]? = some x → RInv D g S R rc.nodes q os B0 → (x.label ≠ 0 → D.hasValue x.dictIndex = .ok x.hasTerminal) →
    B0 + (weight W x.dictIndex x.label - 1) ≤ B → vs.Nodup → (∀ v ∈ vs, v < D.units.length ∧ (x.label ≠ 0 → W x.dictIndex < W v)) → D.units.length + 2 ≤ fuel + vs.length →
    ∃ nodes t os', RankedCompleter.findTerminalLoop D g fuel rc i = .ok ({ rc with nodes := nodes }, t) ∧ RInv D g S R nodes q os' B ∧ t < nodes.length ∧
      rc.nodes.length ≤ nodes.length ∧ i ≤ t ∧ (x.label ≠ 0 → rc.nodes.length < nodes.length ∧ i < t) := by
  intro fuel
  induction fuel with
  | zero =>
    intro rc i x q os vs B0 _ _ _ _ _ hn hv hf
    have := hn.length_le_of_subset (l₂ := List.range D.units.length) (fun v hv' => List.mem_range.2 (hv v hv').1)
    rw [List.length_range] at this
    omega
  | succ fuel ih =>
    intro rc i x q os vs B0 hlen hx hI hht hroom hn hv hf
    rw [RankedCompleter.findTerminalLoop, rd_some hx]
    simp only [ok_bind]
    by_cases hl : x.label = 0
    · rw [if_pos hl]
      refine ⟨rc.nodes, i, os, rfl, ?_, by omega, Nat.le_refl _, Nat.le_refl _, fun hc => absurd hl hc⟩
      exact { hI with room := Nat.le_trans hI.room (by omega) }
    · rw [if_neg hl]
      have hSx := (hI.unit i x hx).2 hl
      have hxl := (hI.unit i x hx).1
      obtain ⟨u, hu, hc, _⟩ := h.unit hxl
      rw [hc]
      simp only [ok_bind]
      obtain ⟨j, hj, hjl⟩ := h.closed.fwc u.child hSx
      have hfirst := h.first _ u _ j hSx hu (hht hl) hj
      have hkid : RKid D g x.dictIndex j u.child (x.hasTerminal && u.child != 0) := .first hu (hht hl) hj
      have hwx : weight W x.dictIndex x.label = W x.dictIndex := if_neg hl
      rw [hwx] at hroom
      have hwpos := h.weight_pos (h.kids _ _ _ _ hSx hkid)
      have hmid : ∀ {α : Type} (f : RankedCompleter → Go α), (if u.child = 0 then wr rc.nodes i { x with hasTerminal := false } >>= fun nodes => pure { rc with nodes := nodes } >>= f else pure rc >>= f) =
          f { rc with nodes := rc.nodes.set i { x with hasTerminal := x.hasTerminal && u.child != 0 } } := by
        intro α f
        by_cases hz : u.child = 0
        · rw [if_pos hz, wr_lt (by omega)]
          simp only [ok_bind, hz, bne_self_eq_false, Bool.and_false]
          rfl
        · rw [if_neg hz]
          have : (u.child != 0) = true := by simpa using hz
          rw [this, Bool.and_true, set_same hx]
          rfl
      rw [hmid]
      rw [hj]
      simp only [ok_bind]
      have hroom0 := hI.room
      obtain ⟨ht, h1, h2⟩ := create_ok h { rc with nodes := rc.nodes.set i { x with hasTerminal := x.hasTerminal && u.child != 0 } } (j := j) (pi := i) (l := u.child)
        (h.kids _ _ _ _ hSx hkid) (by simp only [List.length_set]; omega)
      rw [h1]
      simp only [ok_bind, List.length_set]
      have hI' := hI.grow (y := ⟨j, i, u.child, false, ht⟩) (b := x.hasTerminal && u.child != 0) (B := B0 + 1 + R x.dictIndex u.child (x.hasTerminal && u.child != 0)) hx hl rfl rfl
        ⟨hjl, h.kids _ _ _ _ hSx hkid⟩ hkid (fun n y hn hy hc => by
          have := hI.par n y hy (hI.pos hn)
          have := hI.lt n hn
          omega) (Nat.le_refl _)
      obtain ⟨nodes, t, os', e1, e2, e3, e4, e5, _⟩ := ih { rc with nodes := rc.nodes.set i { x with hasTerminal := x.hasTerminal && u.child != 0 } ++ [⟨j, i, u.child, false, ht⟩] } (i + 1)
        ⟨j, i, u.child, false, ht⟩ q (rc.nodes.length :: os) (x.dictIndex :: vs) _
        (by simp only [List.length_append, List.length_set, List.length_singleton]; omega)
        (by
          simp only
          rw [List.getElem?_append_right (by rw [List.length_set]; omega), List.length_set, hlen, Nat.sub_self]
          rfl) hI' h2 (by simp only; omega)
        (List.nodup_cons.2 ⟨fun hm => by have := (hv _ hm).2 hl; omega, hn⟩)
        (by
          intro v hv'
          have hw : u.child ≠ 0 → W j < W x.dictIndex := by
            intro hz
            rw [show weight W j u.child = W j from if_neg hz] at hfirst
            omega
          rcases List.mem_cons.1 hv' with rfl | hv'
          · exact ⟨hxl, hw⟩
          · exact ⟨(hv v hv').1, fun hz => Nat.lt_trans (hw hz) ((hv v hv').2 hl)⟩)
        (by simp only [List.length_cons]; omega)
      simp only [List.length_append, List.length_set, List.length_singleton] at e4
      rw [hlen, e1]
      exact ⟨nodes, t, os', rfl, e2, e3, by omega, by omega, fun _ => ⟨by omega, by omega⟩⟩

/-- The candidates. -/
def CandOk (nodes : List RNode) (cq : List Candidate) : Prop := Heap.IsHeap cq cq.length ∧ ∀ c ∈ cq, c.nodeIndex ≠ 0 ∧ c.nodeIndex < nodes.length

theorem candidate_any {q os : List Nat} {B : Nat} {rc : RankedCompleter} {t : Nat} (hI : RInv D g S R rc.nodes q os B) (hc : CandOk rc.nodes rc.candidateQueue) (ht : t < rc.nodes.length) (h0 : t ≠ 0) :
    ∃ cq, RankedCompleter.enqueueCandidate D rc t = .ok { rc with candidateQueue := cq } ∧ CandOk rc.nodes cq ∧ cq.length = rc.candidateQueue.length + 1 := by
  have hx := List.getElem?_eq_getElem ht
  have hu := (hI.unit t _ hx).1
  obtain ⟨cq, h1, h2, h3⟩ := Heap.push_spec hc.1 ⟨t, dictValue D.units[rc.nodes[t].dictIndex]⟩
  refine ⟨cq, ?_, ⟨h3, fun c hm => ?_⟩, h2.length_eq⟩
  · unfold RankedCompleter.enqueueCandidate
    rw [rd_some hx]
    simp only [ok_bind]
    rw [rd_lt hu]
    simp only [ok_bind]
    rw [h1]
    rfl
  · rcases List.mem_cons.1 (h2.mem_iff.1 hm) with rfl | hm
    · exact ⟨h0, ht⟩
    · exact hc.2 c hm

/-- The queue is processed. -/
theorem drain_any (h : Tame D g A S W R) {B : Nat} (hB : B < 4294967296) : ∀ (q : List Nat) (rc : RankedCompleter) (os : List Nat), RInv D g S R rc.nodes q os B →
    CandOk rc.nodes rc.candidateQueue → rc.value ≠ -1 →
    ∃ nodes cq os', RankedCompleter.drainQueue D g q rc = .ok { rc with nodes := nodes, candidateQueue := cq } ∧ RInv D g S R nodes [] os' B ∧ CandOk nodes cq ∧
      cq.length + rc.nodes.length ≤ rc.candidateQueue.length + nodes.length
  | [], rc, os, hI, hc, _ => ⟨rc.nodes, rc.candidateQueue, os, rfl, hI, hc, Nat.le_refl _⟩
  | i :: q, rc, os, hI, hc, hv => by
    obtain ⟨hi0, x, hx, _⟩ := hI.qd i List.mem_cons_self
    obtain ⟨hI1, hio, hle⟩ := hI.close
    have hpl := hI.par i x hx hi0
    have hil := (List.getElem?_eq_some_iff.1 hx).1
    have hp := List.getElem?_eq_getElem (show x.prevNodeIndex < rc.nodes.length by omega)
    generalize rc.nodes[x.prevNodeIndex] = p at hp
    have hplab := hI.parent i x p hx hi0 hp
    have hSp := (hI.unit _ p hp).2 hplab
    have hkid := hI.kid i x p hio hx hp
    obtain ⟨u, hu, _, hs⟩ := h.unit (hI.unit i x hx).1
    rw [owe_eq hx hp] at hI1 hle
    rw [RankedCompleter.drainQueue, if_pos hv]
    unfold RankedCompleter.findSibling
    rw [rd_some hx]
    simp only [ok_bind]
    rw [hs]
    simp only [ok_bind]
    rw [rd_some hp]
    simp only [ok_bind]
    by_cases hstop : u.sibling = 0 ∧ (!p.hasTerminal) = true
    · rw [if_pos hstop]
      obtain ⟨nodes, cq, os', e1, e2, e3, e4⟩ := drain_any h hB q rc _ { hI1 with room := Nat.le_trans hI1.room (by omega) } hc hv
      exact ⟨nodes, cq, os', e1, e2, e3, e4⟩
    · rw [if_neg hstop]
      have hgo : u.sibling ≠ 0 ∨ p.hasTerminal = true := by
        by_cases hz : u.sibling = 0
        · right
          cases hp2 : p.hasTerminal with
          | true => rfl
          | false => exact absurd ⟨hz, by rw [hp2]; rfl⟩ hstop
        · exact .inl hz
      obtain ⟨j, hj, hjl⟩ := h.closed.fwc u.sibling hSp
      have hnext := h.next _ _ _ _ u j hSp hkid hu hgo hj
      have hkid' : RKid D g p.dictIndex j u.sibling (p.hasTerminal && u.sibling != 0) := .next hkid hu hgo hj
      have hmid : ∀ {α : Type} (f : RankedCompleter → Go α), (if u.sibling = 0 then wr rc.nodes x.prevNodeIndex { p with hasTerminal := false } >>= fun nodes => pure { rc with nodes := nodes } >>= f else pure rc >>= f) =
          f { rc with nodes := rc.nodes.set x.prevNodeIndex { p with hasTerminal := p.hasTerminal && u.sibling != 0 } } := by
        intro α f
        by_cases hz : u.sibling = 0
        · rw [if_pos hz, wr_lt (by omega)]
          simp only [ok_bind, hz, bne_self_eq_false, Bool.and_false]
          rfl
        · rw [if_neg hz]
          have : (u.sibling != 0) = true := by simpa using hz
          rw [this, Bool.and_true, set_same hp]
          rfl
      simp only [hmid]
      rw [hj]
      simp only [ok_bind]
      have hroom0 := hI.room
      obtain ⟨ht, h1, h2⟩ := create_ok h { rc with nodes := rc.nodes.set x.prevNodeIndex { p with hasTerminal := p.hasTerminal && u.sibling != 0 } } (j := j) (pi := x.prevNodeIndex) (l := u.sibling)
        (h.kids _ _ _ _ hSp hkid') (by simp only [List.length_set]; omega)
      rw [h1]
      simp only [ok_bind, List.length_set, pure_eq_ok]
      have hI2 := hI1.grow (y := ⟨j, x.prevNodeIndex, u.sibling, false, ht⟩) (b := p.hasTerminal && u.sibling != 0)
        (B := B - R p.dictIndex x.label p.hasTerminal + 1 + R p.dictIndex u.sibling (p.hasTerminal && u.sibling != 0)) hp hplab rfl rfl ⟨hjl, h.kids _ _ _ _ hSp hkid'⟩ hkid'
        (fun n y hn hy hc => by
          obtain ⟨h3, h4⟩ := hI.nodup.mem_erase_iff.1 hn
          exact h3 (hI.one n i y x h4 hio hy hx hc)) (Nat.le_refl _)
      have hwpos := h.weight_pos (h.kids _ _ _ _ hSp hkid')
      obtain ⟨nodes, t, os', e1, e2, e3, e4, e5, _⟩ := terminal_any h hB (2 * D.size + 2)
        { rc with nodes := rc.nodes.set x.prevNodeIndex { p with hasTerminal := p.hasTerminal && u.sibling != 0 } ++ [⟨j, x.prevNodeIndex, u.sibling, false, ht⟩] } rc.nodes.length
        ⟨j, x.prevNodeIndex, u.sibling, false, ht⟩ q _ [] _ (by simp only [List.length_append, List.length_set, List.length_singleton])
        (by
          simp only
          rw [List.getElem?_append_right (by rw [List.length_set]; exact Nat.le_refl _), List.length_set, Nat.sub_self]
          rfl) hI2 h2 (by simp only; omega) List.nodup_nil (by simp) (by
          have : D.size = D.units.length := rfl
          simp only [List.length_nil]; omega)
      simp only [List.length_append, List.length_set, List.length_singleton] at e4
      unfold RankedCompleter.findTerminal
      rw [e1]
      simp only [ok_bind]
      obtain ⟨cq, f1, f2, f3⟩ := candidate_any (rc := { rc with nodes := nodes }) e2 ⟨hc.1, fun c hm => ⟨(hc.2 c hm).1, by have := (hc.2 c hm).2; show c.nodeIndex < nodes.length; omega⟩⟩ e3 (by omega)
      rw [f1]
      simp only [ok_bind]
      obtain ⟨nodes', cq', os'', k1, k2, k3, k4⟩ := drain_any h hB q { rc with nodes := nodes, candidateQueue := cq } _ e2 f2 hv
      refine ⟨nodes', cq', os'', k1, k2, k3, ?_⟩
      simp only at k4 f3
      omega

/-- A node is put into the queue. -/
theorem RInv.enqueue {rc : RankedCompleter} {os : List Nat} {B i : Nat} (h : RInv D g S R rc.nodes rc.nodeQueue os B) (hi : i < rc.nodes.length) (h0 : i ≠ 0) :
    ∃ nodes q, RankedCompleter.enqueueNode rc i = .ok { rc with nodes := nodes, nodeQueue := q } ∧ RInv D g S R nodes q os B ∧ nodes.length = rc.nodes.length ∧
      ∀ (n : Nat) x, nodes[n]? = some x → ∃ x', rc.nodes[n]? = some x' ∧ x'.prevNodeIndex = x.prevNodeIndex := by
  obtain ⟨x0, hx0⟩ : ∃ x, rc.nodes[i]? = some x := ⟨_, List.getElem?_eq_getElem hi⟩
  unfold RankedCompleter.enqueueNode
  rw [rd_some hx0]
  simp only [ok_bind]
  by_cases hq : x0.isQueued = true
  · rw [if_pos hq]
    exact ⟨rc.nodes, rc.nodeQueue, rfl, h, rfl, fun n x hx => ⟨x, hx, rfl⟩⟩
  · rw [if_neg hq, wr_lt hi]
    have hq' : x0.isQueued = false := by simpa using hq
    have hio : i ∈ os := (h.mem i x0 hx0).2 ⟨h0, .inl hq'⟩
    have hiq : i ∉ rc.nodeQueue := by
      intro hc
      obtain ⟨_, x, h1, h2⟩ := h.qd i hc
      rw [hx0] at h1
      cases h1
      exact hq h2
    have hget : ∀ (n : Nat) x, (rc.nodes.set i { x0 with isQueued := true })[n]? = some x →
        ∃ x', rc.nodes[n]? = some x' ∧ x'.prevNodeIndex = x.prevNodeIndex ∧ x'.dictIndex = x.dictIndex ∧ x'.label = x.label ∧ x'.hasTerminal = x.hasTerminal ∧
          (n ≠ i → x' = x) ∧ (n = i → x.isQueued = true) := by
      intro n x hx
      rw [List.getElem?_set] at hx
      by_cases hn : i = n
      · rw [if_pos hn, if_pos hi] at hx
        cases hx
        exact ⟨x0, hn ▸ hx0, rfl, rfl, rfl, rfl, fun hc => absurd hn.symm hc, fun _ => rfl⟩
      · rw [if_neg hn] at hx
        exact ⟨x, hx, rfl, rfl, rfl, rfl, fun _ => rfl, fun hc => absurd hc.symm hn⟩
    have hput : ∀ (n : Nat) x, rc.nodes[n]? = some x → ∃ x', (rc.nodes.set i { x0 with isQueued := true })[n]? = some x' ∧ x'.prevNodeIndex = x.prevNodeIndex ∧ x'.dictIndex = x.dictIndex ∧ x'.label = x.label ∧
        x'.hasTerminal = x.hasTerminal ∧ (x.isQueued = true → x'.isQueued = true) := by
      intro n x hx
      rw [List.getElem?_set]
      by_cases hn : i = n
      · rw [if_pos hn, if_pos hi]
        subst hn
        rw [hx0] at hx
        cases hx
        exact ⟨_, rfl, rfl, rfl, rfl, rfl, fun _ => rfl⟩
      · rw [if_neg hn]
        exact ⟨x, hx, rfl, rfl, rfl, rfl, id⟩
    have howe : ∀ n ∈ os, owe R (rc.nodes.set i { x0 with isQueued := true }) n = owe R rc.nodes n := by
      intro n hn
      have hlt := h.lt n hn
      obtain ⟨x, hx⟩ : ∃ x, rc.nodes[n]? = some x := ⟨_, List.getElem?_eq_getElem hlt⟩
      have hpl := h.par n x hx (h.pos hn)
      obtain ⟨px, hpx⟩ : ∃ px, rc.nodes[x.prevNodeIndex]? = some px := ⟨_, List.getElem?_eq_getElem (show x.prevNodeIndex < rc.nodes.length by omega)⟩
      obtain ⟨x', a1, a2, _, a3, _⟩ := hput n x hx
      obtain ⟨p', b1, _, b3, _, b4, _⟩ := hput _ px hpx
      rw [owe_eq hx hpx, owe_eq a1 (p := p') (by rw [a2]; exact b1), a3, b3, b4]
    refine ⟨_, _, rfl, ⟨?_, ?_, ?_, ?_, ?_, h.nodup, ?_, ?_, ?_, ?_, ?_⟩, List.length_set .., fun n x hx => ?_⟩
    · intro n x hx hn
      obtain ⟨x', a1, a2, _⟩ := hget n x hx
      rw [← a2]
      exact h.par n x' a1 hn
    · intro n x hx
      obtain ⟨x', a1, _, a3, a4, _⟩ := hget n x hx
      rw [← a3, ← a4]
      exact h.unit n x' a1
    · intro n x p hx hn hp
      obtain ⟨x', a1, a2, _⟩ := hget n x hx
      obtain ⟨p', b1, _, _, b4, _⟩ := hget _ p hp
      rw [← b4]
      exact h.parent n x' p' a1 hn (by rw [a2]; exact b1)
    · intro n x hx
      obtain ⟨x', a1, _, _, _, _, a6, a7⟩ := hget n x hx
      by_cases hn : n = i
      · subst hn
        exact ⟨fun _ => ⟨h0, .inr (List.mem_append_right _ (List.mem_singleton.2 rfl))⟩, fun _ => hio⟩
      · rw [h.mem n x' a1, a6 hn, List.mem_append, List.mem_singleton]
        constructor
        · rintro ⟨h1, h2⟩
          exact ⟨h1, h2.imp id .inl⟩
        · rintro ⟨h1, h2 | h2 | h2⟩
          · exact ⟨h1, .inl h2⟩
          · exact ⟨h1, .inr h2⟩
          · exact absurd h2 hn
    · intro n hn
      rw [List.length_set]
      exact h.lt n hn
    · intro n x p hn hx hp
      obtain ⟨x', a1, a2, a3, a4, _⟩ := hget n x hx
      obtain ⟨p', b1, _, b3, _, b5, _⟩ := hget _ p hp
      rw [← a3, ← a4, ← b3, ← b5]
      exact h.kid n x' p' hn a1 (by rw [a2]; exact b1)
    · intro n m x y hn hm hx hy he
      obtain ⟨x', a1, a2, _⟩ := hget n x hx
      obtain ⟨y', b1, b2, _⟩ := hget m y hy
      exact h.one n m x' y' hn hm a1 b1 (by rw [a2, b2, he])
    · exact List.nodup_append.2 ⟨h.qn, by simp, fun a ha b hb => by rw [List.mem_singleton.1 hb]; exact fun hc => hiq (hc ▸ ha)⟩
    · intro n hn
      rcases List.mem_append.1 hn with hn | hn
      · obtain ⟨h1, x, h2, h3⟩ := h.qd n hn
        obtain ⟨x', a1, _, _, _, _, a5⟩ := hput n x h2
        exact ⟨h1, x', a1, a5 h3⟩
      · rw [List.mem_singleton.1 hn]
        obtain ⟨x', a1, _⟩ := hput i x0 hx0
        obtain ⟨_, _, _, _, _, _, _, a7⟩ := hget i x' a1
        exact ⟨h0, x', a1, a7 rfl⟩
    · rw [List.length_set, List.map_congr_left howe]
      exact h.room
    · obtain ⟨x', a1, a2, _⟩ := hget n x hx
      exact ⟨x', a1, a2⟩

/-- The loop that collects the labels up to the root. -/
theorem rwalk_any : ∀ (fuel : Nat) (rc : RankedCompleter) (i : Nat) (os : List Nat) (B : Nat), RInv D g S R rc.nodes rc.nodeQueue os B → i < rc.nodes.length → i < fuel →
    ∃ nodes q path, RankedCompleter.walkUp fuel rc i = .ok { rc with nodes := nodes, nodeQueue := q, path := path } ∧ RInv D g S R nodes q os B ∧ nodes.length = rc.nodes.length ∧
      rc.path.length ≤ path.length := by
  intro fuel
  induction fuel with
  | zero => intro rc i os B _ _ hf; omega
  | succ fuel ih =>
    intro rc i os B h hi hf
    rw [RankedCompleter.walkUp]
    by_cases h0 : i = 0
    · rw [if_pos h0]
      exact ⟨_, _, _, rfl, h, rfl, Nat.le_refl _⟩
    · rw [if_neg h0]
      obtain ⟨x, hx⟩ : ∃ x, rc.nodes[i]? = some x := ⟨_, List.getElem?_eq_getElem hi⟩
      rw [rd_some hx]
      simp only [ok_bind]
      have hp := h.par i x hx h0
      obtain ⟨nodes, q, e1, e2, e3, e4⟩ := RInv.enqueue (rc := { rc with path := rc.path ++ [x.label] }) h hi h0
      rw [e1]
      simp only [ok_bind]
      obtain ⟨nodes', q', path, f1, f2, f3, f4⟩ := ih { rc with path := rc.path ++ [x.label], nodes := nodes, nodeQueue := q } x.prevNodeIndex os B e2 (by simp only at e3 ⊢; omega) (by omega)
      refine ⟨nodes', q', path, f1, f2, f3.trans e3, ?_⟩
      simp only [List.length_append, List.length_singleton] at f4
      omega

/-- `Next` after the queue has been processed. -/
theorem pop_any {rc rc1 : RankedCompleter} {os : List Nat} {B : Nat} (hd : RankedCompleter.drainQueue D g rc.nodeQueue rc = .ok rc1) (h : RInv D g S R rc1.nodes [] os B)
    (hc : CandOk rc1.nodes rc1.candidateQueue) (hp : rc1.prefixLength ≤ rc1.path.length) :
    ∃ rc' b, RankedCompleter.next D g rc = .ok (rc', b) ∧ (b = true → RInv D g S R rc'.nodes rc'.nodeQueue os B ∧ CandOk rc'.nodes rc'.candidateQueue ∧
      rc'.prefixLength ≤ rc'.path.length ∧ rc'.value ≠ -1 ∧ rc'.nodes.length = rc1.nodes.length ∧ rc'.candidateQueue.length + 1 = rc1.candidateQueue.length) := by
  unfold RankedCompleter.next
  rw [hd]
  simp only [ok_bind]
  cases hq : rc1.candidateQueue with
  | nil => exact ⟨_, _, rfl, fun hc => absurd hc (by simp)⟩
  | cons c cq =>
    simp only
    rw [hq] at hc
    obtain ⟨hc0, hcl⟩ := hc.2 c List.mem_cons_self
    obtain ⟨nodes, q, e1, e2, e3, e4⟩ := RInv.enqueue (rc := { rc1 with nodeQueue := [] }) (i := c.nodeIndex) h hcl hc0
    simp only [hq] at e1 e3 e4 ⊢
    rw [e1]
    simp only [ok_bind]
    obtain ⟨x, hx⟩ : ∃ x, nodes[c.nodeIndex]? = some x := ⟨_, List.getElem?_eq_getElem (by omega)⟩
    rw [rd_some hx]
    simp only [ok_bind]
    rw [if_neg (by omega)]
    have hpar := e2.par _ x hx hc0
    obtain ⟨nodes', q', path, f1, f2, f3, f4⟩ := rwalk_any (nodes.length + 1) { rc1 with path := rc1.path.take rc1.prefixLength, nodes := nodes, nodeQueue := q, candidateQueue := c :: cq } x.prevNodeIndex os B e2
      (by simp only; omega) (by omega)
    simp only [List.length_take] at f4
    simp only [pure_eq_ok] at f1 ⊢
    rw [f1]
    simp only [ok_bind]
    obtain ⟨cq', k1, k2, k3⟩ := Heap.pop_spec hc.1
    rw [k1]
    refine ⟨_, _, rfl, fun _ => ⟨f2, ⟨k3, fun c' hc' => ?_⟩, ?_, ?_, ?_, ?_⟩⟩
    · have := hc.2 c' (List.mem_cons_of_mem _ (k2.mem_iff.1 hc'))
      simp only at f3 ⊢
      omega
    · simp only [List.length_append, List.length_take, List.length_reverse, List.length_drop, List.length_singleton]
      omega
    · intro hv
      have : (c.value : Int) = -1 := hv
      omega
    · simp only at f3 ⊢
      omega
    · simp only [List.length_cons, k2.length_eq]

end
end Dawg.Props
