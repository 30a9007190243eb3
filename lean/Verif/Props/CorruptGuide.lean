import Verif.Props.Corrupt
import Verif.Props.Pipeline
/-! # C62: files with arbitrary guides -/
namespace Dawg.Props
open Dawg Dawg.Spec Dawg.Client Dawg.Abs Dawg.Dict Dawg.Guided Dawg.Tool
attribute [-simp] List.length_flatten

/-- The units that a completer visits from unit `i`: the one that the label in `Child` leads to, and those that the labels in `Sibling` lead to.  (A label 0 is
followed from units without a value only.) -/
inductive KidOf (D : Dictionary) (g : Guide) (i : Nat) : Nat → Prop
  | child {u j} : g.units[i]? = some u → u.child ≠ 0 ∨ D.hasValue i = .ok false → D.follow u.child i = .ok (some j) → KidOf D g i j
  | sibling {k u j} : KidOf D g i k → g.units[k]? = some u → u.sibling ≠ 0 → D.follow u.sibling i = .ok (some j) → KidOf D g i j

/-- A dictionary and a guide, read from wherever, on which completers work: look-ups of bytes of `A` stay in the units `S`, and so do completers; the guide is as large as the dictionary;
the root has no value (see C24); there are no cycles: numbers can be given to the units that become smaller from a unit to those visited from it, and other ones that become smaller from
sibling to sibling. -/
structure Orderly (D : Dictionary) (g : Guide) (A : UInt8 → Prop) (S : Nat → Prop) : Prop where
  closed : Closed D A S
  kids : ∀ i j, S i → KidOf D g i j → S j
  size : g.units.length = D.units.length
  root : D.hasValue D.root = .ok false
  depth : ∃ depth : Nat → Nat, ∀ i j, S i → KidOf D g i j → depth j < depth i
  order : ∃ pos : Nat → Nat, ∀ i k u j, S i → KidOf D g i k → g.units[k]? = some u → u.sibling ≠ 0 → D.follow u.sibling i = .ok (some j) → pos j < pos k

section
variable {D : Dictionary} {g : Guide} {A : UInt8 → Prop} {S : Nat → Prop}

theorem Orderly.unit (h : Orderly D g A S) {i : Nat} (hi : S i) : ∃ u, g.units[i]? = some u ∧ g.child i = .ok u.child ∧ g.sibling i = .ok u.sibling := by
  have hi' : i < g.units.length := by rw [h.size]; exact h.closed.lt hi
  refine ⟨g.units[i], List.getElem?_eq_getElem hi', ?_, ?_⟩
  · unfold Guide.child; rw [rd_lt hi']; rfl
  · unfold Guide.sibling; rw [rd_lt hi']; rfl

/-- Stacks that completers have: each unit is visited from the one below it. -/
def Chain (D : Dictionary) (g : Guide) (S : Nat → Prop) : List Nat → Prop
  | [] => True
  | [i] => S i
  | j :: i :: s => KidOf D g i j ∧ Chain D g S (i :: s)

theorem Chain.tail {j : Nat} : ∀ {s : List Nat}, Chain D g S (j :: s) → Chain D g S s
  | [], _ => trivial
  | _ :: _, h => h.2

theorem Chain.mem (h : Orderly D g A S) : ∀ {s : List Nat}, Chain D g S s → ∀ i ∈ s, S i
  | [], _, i, hi => by cases hi
  | [k], hs, i, hi => by rw [List.mem_singleton.1 hi]; exact hs
  | j :: k :: s, hs, i, hi => by
    have ih := Chain.mem h hs.2
    rcases List.mem_cons.1 hi with rfl | hi
    · exact h.kids k i (ih k List.mem_cons_self) hs.1
    · exact ih i hi

/-- The bytes of a completer with a stack, whatever they are. -/
def Good (D : Dictionary) (g : Guide) (S : Nat → Prop) (c : Completer) : Prop := c.path ≠ [] ∧ Chain D g S c.indexStack

theorem setLast_ok {path : List UInt8} (h : path ≠ []) (l : UInt8) : ∃ p, Completer.setLast path l = .ok p := by
  unfold Completer.setLast
  have : path.length - 1 < path.length := by have := List.length_pos_iff.2 h; omega
  exact ⟨_, wr_lt this⟩

/-- `Follow` of a completer. -/
theorem follow_good (h : Orderly D g A S) {c : Completer} {i : Nat} {s : List Nat} (hg : Good D g S c) (hs : c.indexStack = i :: s) (l : UInt8) (hk : ∀ j, D.follow l i = .ok (some j) → KidOf D g i j) :
    Completer.follow D c l i = .ok none ∨ ∃ c' j, Completer.follow D c l i = .ok (some (c', j)) ∧ D.follow l i = .ok (some j) ∧ Good D g S c' ∧ c'.indexStack = j :: i :: s := by
  have hi : S i := hg.2.mem h i (by rw [hs]; exact List.mem_cons_self)
  unfold Completer.follow
  rcases h.closed.follow l hi with h1 | ⟨j, h1, _⟩
  · rw [h1]; exact .inl rfl
  · obtain ⟨p, hp⟩ := setLast_ok hg.1 l
    rw [h1]
    simp only [ok_bind]
    rw [hp]
    refine .inr ⟨_, j, rfl, rfl, ⟨by simp, ?_⟩, by rw [hs]⟩
    simp only
    rw [hs]
    exact ⟨hk j h1, by rw [← hs]; exact hg.2⟩

/-- The numbers of `Orderly`, with bounds. -/
structure Ruler (D : Dictionary) (g : Guide) (S : Nat → Prop) where
  depth : Nat → Nat
  pos : Nat → Nat
  H : Nat
  M : Nat
  depth_le : ∀ i, i < D.units.length → depth i ≤ H
  pos_le : ∀ i, i < D.units.length → pos i ≤ M
  deeper : ∀ i j, S i → KidOf D g i j → depth j < depth i
  later : ∀ i k u j, S i → KidOf D g i k → g.units[k]? = some u → u.sibling ≠ 0 → D.follow u.sibling i = .ok (some j) → pos j < pos k

theorem bounded (f : Nat → Nat) : ∀ n, ∃ M, ∀ i, i < n → f i ≤ M
  | 0 => ⟨0, fun i h => by omega⟩
  | n + 1 => by
    obtain ⟨M, hM⟩ := bounded f n
    refine ⟨max M (f n), fun i hi => ?_⟩
    rcases Nat.lt_succ_iff_lt_or_eq.1 hi with h | rfl
    · have := hM i h; omega
    · omega

theorem Orderly.ruler (h : Orderly D g A S) : Nonempty (Ruler D g S) := by
  obtain ⟨d, hd⟩ := h.depth
  obtain ⟨p, hp⟩ := h.order
  obtain ⟨H, hH⟩ := bounded d D.units.length
  obtain ⟨M, hM⟩ := bounded p D.units.length
  exact ⟨⟨d, p, H, M, hH, hM, hd, hp⟩⟩

namespace Ruler
variable (r : Ruler D g S)

theorem length_le (h : Orderly D g A S) : ∀ {s : List Nat} {i : Nat}, Chain D g S (i :: s) → (i :: s).length + r.depth i ≤ r.H + 1
  | [], i, hs => by have := r.depth_le i (h.closed.lt hs); simp; omega
  | k :: s, i, hs => by
    have := length_le h hs.2
    have := r.deeper k i (hs.2.mem h k List.mem_cons_self) hs.1
    simp only [List.length_cons] at *
    omega

/-- The digits of a stack. -/
def pre : List Nat → Nat
  | [] => 0
  | i :: s => pre s + r.pos i * (r.M + 2) ^ (r.H - s.length)

/-- A number that becomes smaller with every call of `Next`. -/
def mu (s : List Nat) : Nat := r.pre s + (r.M + 2) ^ (r.H + 1 - s.length)

theorem pow_pos' (n : Nat) : 0 < (r.M + 2) ^ n := Nat.pow_pos (by omega)

theorem mu_push (h : Orderly D g A S) {j : Nat} {s : List Nat} (hs : Chain D g S (j :: s)) : r.mu (j :: s) < r.mu s := by
  have hl := r.length_le h hs
  have hp := r.pos_le j (h.closed.lt (hs.mem h j List.mem_cons_self))
  simp only [List.length_cons] at hl
  unfold mu
  rw [pre]
  simp only [List.length_cons]
  rw [show r.H + 1 - (s.length + 1) = r.H - s.length from by omega, show r.H + 1 - s.length = (r.H - s.length) + 1 from by omega, Nat.pow_succ]
  have h0 := r.pow_pos' (r.H - s.length)
  generalize (r.M + 2) ^ (r.H - s.length) = X at *
  have : r.pos j * X ≤ r.M * X := Nat.mul_le_mul_right _ hp
  have e : X * (r.M + 2) = r.M * X + 2 * X := by rw [Nat.mul_comm, Nat.add_mul]
  omega

theorem mu_sibling {j k : Nat} {s : List Nat} (hjk : r.pos j < r.pos k) : r.mu (j :: s) ≤ r.pre (k :: s) := by
  unfold mu
  rw [pre, pre]
  simp only [List.length_cons]
  rw [show r.H + 1 - (s.length + 1) = r.H - s.length from by omega]
  generalize (r.M + 2) ^ (r.H - s.length) = X
  have : (r.pos j + 1) * X ≤ r.pos k * X := Nat.mul_le_mul_right _ hjk
  rw [Nat.add_mul] at this
  omega

theorem pre_lt_mu (s : List Nat) : r.pre s < r.mu s := by
  unfold mu; have := r.pow_pos' (r.H + 1 - s.length); omega

end Ruler

/-- `FindTerminal` ends, because the units it visits are different. -/
theorem findTerminal_good (h : Orderly D g A S) (r : Ruler D g S) : ∀ (fuel : Nat) (c : Completer) (i : Nat) (s vs : List Nat), Good D g S c → c.indexStack = i :: s →
    vs.Nodup → (∀ v ∈ vs, v < D.units.length ∧ r.depth i < r.depth v) → D.units.length + 1 ≤ fuel + vs.length →
    ∃ c' b, Completer.findTerminalLoop D g fuel c i = .ok (c', b) ∧ Good D g S c' ∧
      (b = true → S c'.lastIndex ∧ D.hasValue c'.lastIndex = .ok true ∧ r.mu c'.indexStack ≤ r.mu c.indexStack) := by
  intro fuel
  induction fuel with
  | zero =>
    intro c i s vs _ _ hn hv hf
    have := hn.length_le_of_subset (l₂ := List.range D.units.length) (fun v hv' => List.mem_range.2 (hv v hv').1)
    rw [List.length_range] at this
    omega
  | succ fuel ih =>
    intro c i s vs hg hs hn hv hf
    have hi : S i := hg.2.mem h i (by rw [hs]; exact List.mem_cons_self)
    obtain ⟨b, hb⟩ := h.closed.hasValue hi
    obtain ⟨u, hu, hc, _⟩ := h.unit hi
    rw [Completer.findTerminalLoop, hb]
    simp only [ok_bind]
    cases b with
    | true => exact ⟨_, true, rfl, hg, fun _ => ⟨hi, hb, Nat.le_refl _⟩⟩
    | false =>
      simp only [Bool.false_eq_true, if_false]
      rw [hc]
      simp only [ok_bind]
      rcases follow_good h hg hs u.child (fun j hj => .child hu (.inr hb) hj) with h1 | ⟨c1, j, h1, hj, hg1, hs1⟩
      · rw [h1]; exact ⟨c, false, rfl, hg, by intro h; cases h⟩
      · rw [h1]
        simp only [ok_bind]
        have hk : KidOf D g i j := .child hu (.inr hb) hj
        have hd := r.deeper i j hi hk
        obtain ⟨c2, b, h2, hg2, h3⟩ := ih c1 j (i :: s) (i :: vs) hg1 hs1
          (List.nodup_cons.2 ⟨fun hm => by have := (hv i hm).2; omega, hn⟩)
          (by
            intro v hv'
            rcases List.mem_cons.1 hv' with rfl | hv'
            · exact ⟨h.closed.lt hi, hd⟩
            · have := hv v hv'; exact ⟨this.1, by omega⟩)
          (by simp only [List.length_cons]; omega)
        refine ⟨c2, b, h2, hg2, fun hb => ?_⟩
        obtain ⟨x, y, z⟩ := h3 hb
        refine ⟨x, y, Nat.le_trans z ?_⟩
        rw [hs1, hs]
        have := r.mu_push h (j := j) (s := i :: s) (by rw [← hs1]; exact hg1.2)
        omega

theorem climb_good (h : Orderly D g A S) (r : Ruler D g S) : ∀ (fuel : Nat) (c : Completer) (i : Nat) (s : List Nat), Good D g S c → c.indexStack = i :: s → s.length < fuel →
    ∃ c' o, Completer.climb D g fuel c i = .ok (c', o) ∧ Good D g S c' ∧
      (∀ j, o = some j → (∃ t, c'.indexStack = j :: t) ∧ r.mu c'.indexStack ≤ r.pre c.indexStack) := by
  intro fuel
  induction fuel with
  | zero => intro c i s _ _ hf; omega
  | succ fuel ih =>
    intro c i s hg hs hf
    have hi : S i := hg.2.mem h i (by rw [hs]; exact List.mem_cons_self)
    obtain ⟨u, hu, _, hc⟩ := h.unit hi
    have hp : ∃ p, (if c.path.length > 1 then Completer.setLast c.path.dropLast 0 else pure c.path) = (.ok p : Go (List UInt8)) ∧ p ≠ [] := by
      by_cases hl : c.path.length > 1
      · rw [if_pos hl]
        have hne : c.path.dropLast ≠ [] := by
          intro he
          have := congrArg List.length he
          simp at this
          omega
        unfold Completer.setLast
        have hlt : c.path.dropLast.length - 1 < c.path.dropLast.length := by have := List.length_pos_iff.2 hne; omega
        rw [wr_lt hlt]
        refine ⟨_, rfl, fun he => ?_⟩
        have := congrArg List.length he
        simp at this
        omega
      · rw [if_neg hl]; exact ⟨_, rfl, hg.1⟩
    obtain ⟨p, hp, hpn⟩ := hp
    rw [Completer.climb, hc]
    simp only [ok_bind]
    rw [show ∀ {α : Type} (f : List UInt8 → Go α), (if c.path.length > 1 then Completer.setLast c.path.dropLast 0 >>= f else pure c.path >>= f) = f p from by
      intro α f
      split at hp
      · rw [if_pos (by assumption), hp, ok_bind]
      · rw [if_neg (by assumption), hp, ok_bind]]
    simp only [hs]
    have hch := hg.2
    rw [hs] at hch
    cases s with
    | nil => exact ⟨_, none, rfl, ⟨hpn, trivial⟩, by intro j h; cases h⟩
    | cons k s =>
      have hg' : Good D g S { c with path := p, indexStack := k :: s } := ⟨hpn, hch.2⟩
      by_cases hz : u.sibling ≠ 0
      · simp only [hz, not_false_eq_true, ite_true, ne_eq]
        rcases follow_good h hg' rfl u.sibling (fun j hj => .sibling hch.1 hu hz hj) with h1 | ⟨c1, j, h1, hj, hg1, hs1⟩
        · rw [h1]; exact ⟨_, none, rfl, hg', by intro j h; cases h⟩
        · rw [h1]
          refine ⟨c1, some j, rfl, hg1, fun j' hj' => ?_⟩
          cases hj'
          refine ⟨⟨_, hs1⟩, ?_⟩
          rw [hs1]
          exact r.mu_sibling (r.later k i u j (hch.2.mem h k List.mem_cons_self) hch.1 hu hz hj)
      · simp only [hz, if_false]
        obtain ⟨c', o, h1, h2, h3⟩ := ih _ k s hg' rfl (by simp only [List.length_cons] at hf; omega)
        refine ⟨c', o, h1, h2, fun j hj => ?_⟩
        obtain ⟨x, y⟩ := h3 j hj
        refine ⟨x, Nat.le_trans y ?_⟩
        exact Nat.le_add_right _ _

/-- One call of `Next`: it returns, and later calls have less to do. -/
theorem next_good (h : Orderly D g A S) (r : Ruler D g S) {c : Completer} (hg : Good D g S c) :
    ∃ c' b, Completer.next D g c = .ok (c', b) ∧ Good D g S c' ∧
      (b = true → S c'.lastIndex ∧ c'.lastIndex ≠ D.root ∧ r.mu c'.indexStack ≤ r.mu c.indexStack ∧ (c.lastIndex ≠ D.root → r.mu c'.indexStack < r.mu c.indexStack)) := by
  have hroot : ∀ {i}, D.hasValue i = .ok true → i ≠ D.root := by
    intro i hi he
    rw [he, h.root] at hi
    cases hi
  have hfind : ∀ (c1 : Completer) (j : Nat) (t : List Nat), Good D g S c1 → c1.indexStack = j :: t →
      ∃ c' b, Completer.findTerminal D g c1 j = .ok (c', b) ∧ Good D g S c' ∧
      (b = true → S c'.lastIndex ∧ c'.lastIndex ≠ D.root ∧ r.mu c'.indexStack ≤ r.mu c1.indexStack) := by
    intro c1 j t hg1 hs1
    obtain ⟨c', b, h1, h2, h3⟩ := findTerminal_good h r (D.size + 1) c1 j t [] hg1 hs1 List.nodup_nil (by simp) (by simp [Dictionary.size])
    exact ⟨c', b, h1, h2, fun hb => ⟨(h3 hb).1, hroot (h3 hb).2.1, (h3 hb).2.2⟩⟩
  unfold Completer.next
  cases hs : c.indexStack with
  | nil => exact ⟨c, false, rfl, hg, by intro h; cases h⟩
  | cons i s =>
    simp only
    by_cases hl : c.lastIndex ≠ D.root
    · rw [if_pos hl]
      have hi : S i := hg.2.mem h i (by rw [hs]; exact List.mem_cons_self)
      obtain ⟨u, hu, hc, _⟩ := h.unit hi
      rw [hc]
      simp only [ok_bind]
      by_cases hz : u.child ≠ 0
      · rw [if_pos hz]
        rcases follow_good h hg hs u.child (fun j hj => .child hu (.inl hz) hj) with h1 | ⟨c1, j, h1, hj, hg1, hs1⟩
        · rw [h1]; exact ⟨c, false, rfl, hg, by intro h; cases h⟩
        · rw [h1]
          simp only [ok_bind]
          obtain ⟨c', b, h1, h2, h3⟩ := hfind c1 j _ hg1 hs1
          have := r.mu_push h (j := j) (s := i :: s) (by rw [← hs1]; exact hg1.2)
          rw [hs1] at h3
          exact ⟨c', b, h1, h2, fun hb => ⟨(h3 hb).1, (h3 hb).2.1, by have := (h3 hb).2.2; omega, fun _ => by have := (h3 hb).2.2; omega⟩⟩
      · rw [if_neg hz]
        obtain ⟨c1, o, h1, hg1, h2⟩ := climb_good h r (s.length + 1 + 1) c i s hg hs (by omega)
        rw [show (i :: s).length + 1 = s.length + 1 + 1 from rfl, h1]
        simp only [ok_bind]
        cases o with
        | none => exact ⟨c1, false, rfl, hg1, by intro h; cases h⟩
        | some j =>
          obtain ⟨⟨t, ht⟩, hmu⟩ := h2 j rfl
          obtain ⟨c', b, h1, h2, h3⟩ := hfind c1 j _ hg1 ht
          have := r.pre_lt_mu c.indexStack
          rw [hs] at hmu this
          exact ⟨c', b, h1, h2, fun hb => ⟨(h3 hb).1, (h3 hb).2.1, by have := (h3 hb).2.2; omega, fun _ => by have := (h3 hb).2.2; omega⟩⟩
    · rw [if_neg hl]
      obtain ⟨c', b, h1, h2, h3⟩ := hfind c i s hg hs
      rw [hs] at h3
      exact ⟨c', b, h1, h2, fun hb => ⟨(h3 hb).1, (h3 hb).2.1, (h3 hb).2.2, fun h => absurd h hl⟩⟩

theorem loop_good (h : Orderly D g A S) (r : Ruler D g S) (key : Key) : ∀ (n : Nat) (c : Completer), Good D g S c → c.lastIndex ≠ D.root → r.mu c.indexStack ≤ n →
    ∀ fuel, n + 1 ≤ fuel → ∃ xs c', completeLoop D g key fuel c = .ok (xs, c') := by
  intro n
  induction n with
  | zero =>
    intro c _ _ hn
    have := r.pre_lt_mu c.indexStack
    omega
  | succ n ih =>
    intro c hg hl hn fuel hf
    obtain ⟨fuel, rfl⟩ : ∃ f, fuel = f + 1 := ⟨fuel - 1, by omega⟩
    obtain ⟨c1, b, h1, hg1, h2⟩ := next_good h r hg
    rw [completeLoop, h1]
    simp only [ok_bind]
    cases b with
    | false => exact ⟨[], c1, rfl⟩
    | true =>
      obtain ⟨x, y, _, z⟩ := h2 rfl
      obtain ⟨v, hv⟩ := h.closed.value x
      obtain ⟨xs, c', h3⟩ := ih c1 hg1 y (by have := z hl; omega) fuel (by omega)
      simp only [Bool.not_true, Bool.false_eq_true, if_false]
      unfold Completer.value
      rw [hv]
      simp only [ok_bind]
      rw [h3]
      exact ⟨_, _, rfl⟩

/-- The loop of the tool from a unit. -/
theorem start_good (h : Orderly D g A S) : ∃ N, ∀ (key : Key) (i : Nat), S i → ∀ p, p ≠ [] → ∀ fuel, N ≤ fuel → ∃ xs c', completeLoop D g key fuel ⟨p, [i], 0⟩ = .ok (xs, c') := by
  obtain ⟨r⟩ := h.ruler
  obtain ⟨M, hM⟩ := bounded (fun i => r.mu [i]) D.units.length
  refine ⟨M + 2, fun key i hi p hp fuel hf => ?_⟩
  obtain ⟨fuel, rfl⟩ : ∃ f, fuel = f + 1 := ⟨fuel - 1, by omega⟩
  obtain ⟨c1, b, h1, hg1, h2⟩ := next_good h r (c := ⟨p, [i], 0⟩) ⟨hp, hi⟩
  rw [completeLoop, h1]
  simp only [ok_bind]
  cases b with
  | false => exact ⟨[], c1, rfl⟩
  | true =>
    obtain ⟨x, y, z, _⟩ := h2 rfl
    obtain ⟨v, hv⟩ := h.closed.value x
    obtain ⟨xs, c', h3⟩ := loop_good h r key M c1 hg1 y (Nat.le_trans z (hM i (h.closed.lt hi))) fuel (by omega)
    simp only [Bool.not_true, Bool.false_eq_true, if_false]
    unfold Completer.value
    rw [hv]
    simp only [ok_bind]
    rw [h3]
    exact ⟨_, _, rfl⟩

/-- **C62**, what is true of dawgtool with a guide: if the dictionary and the guide in a file are orderly, all queries of such bytes are answered. -/
theorem C62_guide_partial {dictionary rest rest' : List UInt8} (hd : Dictionary.readNew dictionary = (some D, rest)) (hg : Guide.readNew rest = (some g, rest')) (h : Orderly D g A S) :
    ∃ N, ∀ lexicon, (∀ q ∈ scanLines lexicon, ∀ b ∈ q, A b) → ∀ fuel, N ≤ fuel →
      ∃ as, mainQuery { guide := true } fuel dictionary lexicon = .ok (as, none) ∧ as.map (·.query) = scanLines lexicon := by
  obtain ⟨N, hN⟩ := start_good h
  refine ⟨N, fun lexicon hq fuel hf => ?_⟩
  have hz : g.size ≠ 0 := by
    have := h.closed.lt h.closed.root
    show g.units.length ≠ 0
    rw [h.size]
    omega
  have key : ∀ (qs : List Key) (c : Completers), (∀ q ∈ qs, ∀ b ∈ q, A b) → ∃ as, answers { guide := true } ⟨D, some g, none⟩ fuel c qs = .ok as ∧ as.map (·.query) = qs := by
    intro qs
    induction qs with
    | nil => intro c _; exact ⟨[], rfl, rfl⟩
    | cons q qs ih =>
      intro c hq
      obtain ⟨ok, j, n, hj, h1⟩ := h.closed.followString q h.closed.root (hq q List.mem_cons_self)
      have hone : ∃ a c', answer { guide := true } ⟨D, some g, none⟩ fuel c q = .ok (a, c') ∧ a.query = q := by
        unfold answer queryRank
        simp only [ok_bind]
        rw [h1]
        simp only [ok_bind]
        cases ok with
        | false => exact ⟨_, _, rfl, rfl⟩
        | true =>
          obtain ⟨xs, c', h2⟩ := hN q j hj [0] (by simp) fuel hf
          simp only [Bool.not_true, Bool.false_eq_true, if_false]
          rw [start_eq, startString_eq hz]
          simp only [ok_bind, List.nil_append]
          rw [h2]
          exact ⟨_, _, rfl, rfl⟩
      obtain ⟨a, c', h2, h3⟩ := hone
      obtain ⟨as, h4, h5⟩ := ih c' (fun x hx => hq x (List.mem_cons_of_mem _ hx))
      refine ⟨a :: as, ?_, by simp [h3, h5]⟩
      rw [answers, h2]
      simp only [ok_bind]
      rw [h4]
      rfl
  obtain ⟨as, h1, h2⟩ := key (scanLines lexicon) Completers.new hq
  refine ⟨as, ?_, h2⟩
  unfold mainQuery handleLoad load
  rw [hd]
  simp only [Bool.or_true, if_true]
  rw [hg]
  show (lift (answers { guide := true } ⟨D, some g, none⟩ fuel Completers.new (scanLines lexicon)) >>= _) = _
  rw [h1]
  rfl
end

/-! ## Files that the tool has written are orderly -/

/-- The greatest length of a key. -/
def maxLen (L : Lang) : Nat := (L.map (·.1.length)).foldr max 0

theorem le_maxLen {L : Lang} {e : Entry} (h : e ∈ L) : e.1.length ≤ maxLen L := by
  induction L with
  | nil => cases h
  | cons a L ih =>
    unfold maxLen
    simp only [List.map_cons, List.foldr_cons]
    rcases List.mem_cons.1 h with rfl | h
    · omega
    · have := ih h
      unfold maxLen at this
      omega

theorem maxLen_le {L : Lang} {n : Nat} (h : ∀ e ∈ L, e.1.length ≤ n) : maxLen L ≤ n := by
  induction L with
  | nil => exact Nat.zero_le _
  | cons a L ih =>
    unfold maxLen
    simp only [List.map_cons, List.foldr_cons]
    have h1 := h a List.mem_cons_self
    have h2 := ih (fun e he => h e (List.mem_cons_of_mem _ he))
    unfold maxLen at h2
    omega

theorem made_orderly {hist d D g} (h : Made hist d D) (hne : accepted hist ≠ []) (hg : buildGuide d D = .ok (some g)) (he : ∀ e ∈ accepted hist, e.1 ≠ []) :
    ∃ S, Orderly D g (CleanByte hist) S := by
  obtain ⟨At, kid, DAt, V0, h0, W, hd0⟩ := Made.view h hne
  obtain ⟨g', e1, hgi⟩ := buildGuide_spec V0 W h0 hd0
  rw [hg] at e1
  cases e1
  have V := V0.reach h0
  generalize hR : Reach kid (words (accepted hist)) = R at *
  have hroot : R 0 (words (accepted hist)) := by rw [← hR]; exact .root
  obtain ⟨_, _, B, _, _, _, _, hsem⟩ := Made.sem h hne
  have hlen : D.units.length = 256 * B := hsem.u.len
  -- what a completer visits
  have hkid : ∀ i L j, R i L → KidOf D g i j → ∃ pre l post, heads L = pre ++ l :: post ∧ j = kid i l := by
    intro i L j hi hk
    induction hk with
    | @child u j hu h1 h2 =>
      have hc := hgi.child hi
      have hc' : g.child i = .ok u.child := by unfold Guide.child; rw [rd_some hu]; rfl
      rw [hc] at hc'
      cases hh : heads L with
      | nil =>
        exfalso
        rw [hh] at hc'
        simp only [List.headD_nil, Except.ok.injEq] at hc'
        rcases h1 with h1 | h1
        · exact h1 hc'.symm
        · rw [V.hasValue hi] at h1
          rcases V.shape hi with ⟨_, h3⟩ | ⟨v, h3, _⟩
          · rw [hh] at h3
            exact V.ne hi h3
          · rw [h3] at h1
            simp at h1
      | cons l post =>
        rw [hh] at hc'
        simp only [List.headD_cons, Except.ok.injEq] at hc'
        subst hc'
        have := V.follow hi (l := u.child) (by rw [hh]; exact List.mem_cons_self)
        rw [h2] at this
        cases this
        exact ⟨[], _, post, rfl, rfl⟩
    | @sibling k u j _ hu hz h2 ih =>
      obtain ⟨pre, l, post, h3, rfl⟩ := ih
      have hc := hgi.sibling hi h3
      have hc' : g.sibling (kid i l) = .ok u.sibling := by unfold Guide.sibling; rw [rd_some hu]; rfl
      rw [hc] at hc'
      cases post with
      | nil =>
        simp only [List.headD_nil, Except.ok.injEq] at hc'
        exact absurd hc'.symm hz
      | cons l' post =>
        simp only [List.headD_cons, Except.ok.injEq] at hc'
        subst hc'
        have := V.follow hi (l := u.sibling) (by rw [h3]; simp)
        rw [h2] at this
        cases this
        exact ⟨pre ++ [l], _, post, by rw [h3]; simp, rfl⟩
  have hlabel : ∀ i b j, D.follow b i = .ok (some j) → ∃ w, D.units[j]? = some w ∧ dictLabel w = b := by
    intro i b j hf
    unfold Dictionary.follow at hf
    obtain ⟨u, _, hf⟩ := bind_eq_ok.1 hf
    obtain ⟨w, h2, hf⟩ := bind_eq_ok.1 hf
    simp only [pure_eq_ok, Except.ok.injEq] at hf
    by_cases hl : dictLabel w = b
    · rw [if_neg (by simpa using hl)] at hf
      cases hf
      exact ⟨w, rd_eq_ok.1 h2, hl⟩
    · rw [if_pos hl] at hf
      cases hf
  refine ⟨fun u => ∃ L, R u L, ⟨by rw [hlen]; omega, ⟨_, hroot⟩, ?_, ?_⟩, ?_, hgi.size, ?_, ?_, ?_⟩
  · rintro i ⟨L, hi⟩
    have hlt : i < D.units.length := V.lt hi
    refine ⟨D.units[i], List.getElem?_eq_getElem hlt, ?_⟩
    have hl : ∃ l, l ∈ arcs L := by
      rcases V.shape hi with ⟨_, h3⟩ | ⟨v, h3, _⟩
      · cases hh : heads L with
        | nil => rw [hh] at h3; exact absurd h3 (V.ne hi)
        | cons l _ => exact ⟨l, heads_arcs (by rw [hh]; exact List.mem_cons_self)⟩
      · exact ⟨0, mem_arcs.2 (.inl ⟨rfl, v, by rw [h3]; exact List.mem_cons_self⟩)⟩
    obtain ⟨l, hl⟩ := hl
    have h1 := V.kid_lt hi hl
    have h2 := V.fwc l hi
    unfold RankedBuilder.followWithoutCheck at h2
    rw [rd_lt hlt] at h2
    simp only [ok_bind, pure_eq_ok, Except.ok.injEq] at h2
    rw [← h2] at h1
    rw [hlen]
    rw [show D.size = 256 * B from hlen] at h1
    exact (xor_lt_of_block l.toNat_lt).1 h1
  · rintro i b j ⟨L, hi⟩ hb hf
    by_cases hm : b ∈ heads L
    · have := V.follow hi hm
      rw [hf] at this
      cases this
      exact ⟨_, V.step hi hm⟩
    · rw [V.miss hi hm hb] at hf
      cases hf
  · rintro i j ⟨L, hi⟩ hk
    obtain ⟨pre, l, post, h1, rfl⟩ := hkid i L j hi hk
    exact ⟨_, V.step hi (by rw [h1]; simp)⟩
  · rw [show D.root = 0 from rfl, V.hasValue hroot]
    congr 1
    rw [List.any_eq_false]
    intro e hm
    have : ∃ v, (e.1, v) ∈ words (accepted hist) := ⟨e.2, hm⟩
    obtain ⟨e', h1, h2⟩ := mem_words.1 this
    have := he e' h1
    rw [h2] at this
    simpa using this
  · classical
    refine ⟨fun u => if h : ∃ L, R u L then maxLen h.choose else 0, ?_⟩
    rintro i j ⟨L, hi⟩ hk
    obtain ⟨pre, l, post, h1, rfl⟩ := hkid i L j hi hk
    have hj := V.step hi (l := l) (by rw [h1]; simp)
    have hE : ∀ u L, R u L → (if h : ∃ L, R u L then maxLen h.choose else 0) = maxLen L := by
      intro u L hu
      rw [dif_pos ⟨L, hu⟩, V.func (Exists.choose_spec (⟨L, hu⟩ : ∃ L, R u L)) hu]
    simp only
    rw [hE _ _ hi, hE _ _ hj]
    obtain ⟨e0, he0⟩ := List.exists_mem_of_ne_nil _ (V.ne hj)
    have hlt : ∀ e ∈ residual L [l], e.1.length + 1 ≤ maxLen L := by
      intro e hm
      have := le_maxLen (mem_residual.1 (show (e.1, e.2) ∈ residual L [l] from hm))
      simpa using this
    have h3 := hlt e0 he0
    have := maxLen_le (L := residual L [l]) (n := maxLen L - 1) (fun e hm => by have := hlt e hm; omega)
    omega
  · refine ⟨fun u => match D.units[u]? with | some w => 255 - (dictLabel w).toNat | none => 0, ?_⟩
    rintro i k u j ⟨L, hi⟩ hk hu hz hj
    obtain ⟨pre, l, post, h1, rfl⟩ := hkid i L k hi hk
    have hc := hgi.sibling hi h1
    have hc' : g.sibling (kid i l) = .ok u.sibling := by unfold Guide.sibling; rw [rd_some hu]; rfl
    rw [hc] at hc'
    cases post with
    | nil =>
      simp only [List.headD_nil, Except.ok.injEq] at hc'
      exact absurd hc'.symm hz
    | cons l' post =>
      simp only [List.headD_cons, Except.ok.injEq] at hc'
      subst hc'
      obtain ⟨w, h2, h3⟩ := hlabel _ _ _ (V.follow hi (l := l) (by rw [h1]; simp))
      obtain ⟨w', h4, h5⟩ := hlabel _ _ _ hj
      have ha := heads_asc L
      rw [h1, List.pairwise_append] at ha
      have hlt := (List.pairwise_cons.1 ha.2.1).1 u.sibling List.mem_cons_self
      simp only [h2, h4, h3, h5]
      have := UInt8.lt_iff_toNat_lt.1 hlt
      have := u.sibling.toNat_lt
      omega


/-- The dictionaries and guides of all key sets without the empty key. -/
example {hist d D g} (h : Made hist d D) (hne : accepted hist ≠ []) (hg : buildGuide d D = .ok (some g)) (he : ∀ e ∈ accepted hist, e.1 ≠ []) :
    ∃ N, ∀ lexicon, (∀ q ∈ scanLines lexicon, ∀ b ∈ q, CleanByte hist b) → ∀ fuel, N ≤ fuel →
      ∃ as, mainQuery { guide := true } fuel (D.write ++ g.write) lexicon = .ok (as, none) ∧ as.map (·.query) = scanLines lexicon := by
  obtain ⟨S, hS⟩ := made_orderly h hne hg he
  have hD := Made.units32 h
  have hlen : g.units.length < 4294967296 := by rw [hS.size]; exact hD.1
  have hr := (C19_guide_roundtrip g g hlen []).2
  rw [List.append_nil] at hr
  exact C62_guide_partial (C19_dictionary_roundtrip D D hD _).2 hr hS

/-- A file that no builder writes: only units 0 and 97 make sense, and all other units of the guide lead to themselves. -/
def oddDict : Dictionary := ⟨(List.range 256).map (fun i => if i = 97 then 353 else 0)⟩
def oddGuide : Guide := ⟨(List.range 256).map (fun i => if i = 0 then ⟨97, 0⟩ else ⟨0, 0⟩)⟩

theorem odd_orderly : Orderly oddDict oddGuide (fun _ => True) (fun i => i = 0 ∨ i = 97) := by
  have hkid : ∀ i j, (i = 0 ∨ i = 97) → KidOf oddDict oddGuide i j → i = 0 ∧ j = 97 := by
    intro i j hi hk
    induction hk with
    | @child u j hu h1 h2 =>
      rcases hi with rfl | rfl
      · have : oddGuide.units[0]? = some ⟨97, 0⟩ := by decide +kernel
        rw [this] at hu
        cases hu
        have : oddDict.follow 97 0 = .ok (some 97) := by decide +kernel
        rw [this] at h2
        cases h2
        exact ⟨rfl, rfl⟩
      · have : oddGuide.units[97]? = some ⟨0, 0⟩ := by decide +kernel
        rw [this] at hu
        cases hu
        have h3 : oddDict.hasValue 97 = .ok true := by decide +kernel
        rw [h3] at h1
        rcases h1 with h1 | h1
        · exact absurd rfl h1
        · cases h1
    | @sibling k u j _ hu hz _ ih =>
      obtain ⟨rfl, rfl⟩ := ih
      have : oddGuide.units[97]? = some ⟨0, 0⟩ := by decide +kernel
      rw [this] at hu
      cases hu
      exact absurd rfl hz
  refine ⟨⟨by decide +kernel, .inl rfl, ?_, ?_⟩, ?_, by decide +kernel, by decide +kernel, ⟨fun i => if i = 0 then 1 else 0, ?_⟩, ⟨fun _ => 0, ?_⟩⟩
  · rintro i (rfl | rfl)
    · exact ⟨0, by decide +kernel, by decide +kernel⟩
    · exact ⟨353, by decide +kernel, by decide +kernel⟩
  · have h0 : ∀ n, n < 256 → oddDict.follow (UInt8.ofNat n) 0 = .ok none ∨ oddDict.follow (UInt8.ofNat n) 0 = .ok (some 0) ∨ oddDict.follow (UInt8.ofNat n) 0 = .ok (some 97) := by
      decide +kernel
    have h97 : ∀ n, n < 256 → oddDict.follow (UInt8.ofNat n) 97 = .ok none := by decide +kernel
    intro i b j hi _ hj
    have hb := b.toNat_lt
    rcases hi with rfl | rfl
    · have := h0 _ hb
      rw [UInt8.ofNat_toNat, hj] at this
      rcases this with h | h | h <;> cases h
      · exact .inl rfl
      · exact .inr rfl
    · have := h97 _ hb
      rw [UInt8.ofNat_toNat, hj] at this
      cases this
  · intro i j hi hk
    exact .inr (hkid i j hi hk).2
  · intro i j hi hk
    obtain ⟨rfl, rfl⟩ := hkid i j hi hk
    decide
  · intro i k u j hi hk hu hz _
    obtain ⟨rfl, rfl⟩ := hkid i k hi hk
    have : oddGuide.units[97]? = some ⟨0, 0⟩ := by decide +kernel
    rw [this] at hu
    cases hu
    exact absurd rfl hz

example : ∃ N, ∀ lexicon fuel, N ≤ fuel → ∃ as, mainQuery { guide := true } fuel (oddDict.write ++ oddGuide.write) lexicon = .ok (as, none) ∧ as.map (·.query) = scanLines lexicon := by
  obtain ⟨N, h⟩ := C62_guide_partial (dictionary := oddDict.write ++ oddGuide.write) (rest := oddGuide.write) (rest' := []) (by decide +kernel) (by decide +kernel) odd_orderly
  exact ⟨N, fun lexicon fuel hf => h lexicon (fun _ _ _ _ => trivial) fuel hf⟩

end Dawg.Props
