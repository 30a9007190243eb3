import Verif.Props.Ranked
/-! # C96: the cost of the next completion does not depend on the number of keys -/
namespace Dawg.Props
open Dawg Dawg.Spec Dawg.Client Dawg.Abs Dawg.Dict Dawg.Guided
attribute [-simp] List.length_flatten

/-- `RCalls D gd k rc rc'`: `k` calls of `Next`, all of which return true, lead a ranked completer from `rc` to `rc'`. -/
inductive RCalls (D : Dictionary) (gd : Guide) : Nat → RankedCompleter → RankedCompleter → Prop
  | none (rc) : RCalls D gd 0 rc rc
  | more {k rc rc' rc''} : RankedCompleter.next D gd rc = .ok (rc', true) → RCalls D gd k rc' rc'' → RCalls D gd (k + 1) rc rc''

/-- The same for a completer. -/
inductive Calls (D : Dictionary) (gd : Guide) : Nat → Completer → Completer → Prop
  | none (c) : Calls D gd 0 c c
  | more {k c c' c''} : Completer.next D gd c = .ok (c', true) → Calls D gd k c' c'' → Calls D gd (k + 1) c c''

/-- `Next` of completer.go:59-100 with both of its loops stopped after `n` rounds; a call that wants to go on counts as a hang. -/
def nextWithin (n : Nat) (dict : Dictionary) (guide : Guide) (c : Completer) : Go (Completer × Bool) := do
  match c.indexStack with
  | [] => return (c, false)
  | index :: _ =>
    if c.lastIndex ≠ dict.root then
      let cl ← guide.child index
      if cl ≠ 0 then
        match ← Completer.follow dict c cl index with
        | none => return (c, false)
        | some (c, i) => Completer.findTerminalLoop dict guide n c i
      else
        match ← Completer.climb dict guide n c index with
        | (c, none) => return (c, false)
        | (c, some i) => Completer.findTerminalLoop dict guide n c i
    else Completer.findTerminalLoop dict guide n c index

theorem setLast_length {p q : List UInt8} {l : UInt8} (h : Completer.setLast p l = .ok q) : q.length = p.length := by
  unfold Completer.setLast at h
  obtain ⟨_, rfl⟩ := wr_eq_ok.1 h
  exact List.length_set

theorem follow_stack {D : Dictionary} {c c' : Completer} {l : UInt8} {u i : Nat} (h : Completer.follow D c l u = .ok (some (c', i))) :
    c'.indexStack = i :: c.indexStack ∧ c'.path.length = c.path.length + 1 := by
  unfold Completer.follow at h
  rw [bind_eq_ok] at h
  obtain ⟨o, h1, h2⟩ := h
  cases o with
  | none => cases h2
  | some j =>
    simp only [bind_eq_ok] at h2
    obtain ⟨p, h3, h4⟩ := h2
    simp only [pure_eq_ok, Except.ok.injEq, Option.some.injEq, Prod.mk.injEq] at h4
    obtain ⟨rfl, rfl⟩ := h4
    exact ⟨rfl, by simp only [List.length_append, List.length_singleton, setLast_length h3]⟩

theorem terminal_within {D : Dictionary} {gd : Guide} : ∀ {m c u c' b}, Completer.findTerminalLoop D gd m c u = .ok (c', b) →
    c.indexStack.length ≤ c'.indexStack.length ∧ c'.path.length + c.indexStack.length = c.path.length + c'.indexStack.length ∧
    ∀ n, c'.indexStack.length + 1 ≤ n + c.indexStack.length → Completer.findTerminalLoop D gd n c u = .ok (c', b)
  | 0, c, u, c', b, h => by cases h
  | m + 1, c, u, c', b, h => by
    rw [Completer.findTerminalLoop, bind_eq_ok] at h
    obtain ⟨v, h1, h2⟩ := h
    have hn : ∀ n, c'.indexStack.length + 1 ≤ n + c.indexStack.length → c.indexStack.length ≤ c'.indexStack.length → ∃ j, n = j + 1 :=
      fun n h1 h2 => ⟨n - 1, by omega⟩
    cases v with
    | true =>
      simp only [if_true, pure_eq_ok, Except.ok.injEq, Prod.mk.injEq] at h2
      obtain ⟨rfl, rfl⟩ := h2
      refine ⟨Nat.le_refl _, rfl, fun n hn' => ?_⟩
      obtain ⟨j, rfl⟩ := hn n hn' (Nat.le_refl _)
      rw [Completer.findTerminalLoop, h1]
      rfl
    | false =>
      simp only [Bool.false_eq_true, if_false, bind_eq_ok] at h2
      obtain ⟨l, h3, o, h4, h5⟩ := h2
      cases o with
      | none =>
        simp only [pure_eq_ok, Except.ok.injEq, Prod.mk.injEq] at h5
        obtain ⟨rfl, rfl⟩ := h5
        refine ⟨Nat.le_refl _, rfl, fun n hn' => ?_⟩
        obtain ⟨j, rfl⟩ := hn n hn' (Nat.le_refl _)
        rw [Completer.findTerminalLoop, h1]
        simp only [ok_bind, Bool.false_eq_true, if_false, h3, h4]
        rfl
      | some x =>
        obtain ⟨c1, i⟩ := x
        obtain ⟨g1, g2⟩ := follow_stack h4
        obtain ⟨e1, e2, e3⟩ := terminal_within h5
        rw [g1, List.length_cons] at e1 e2 e3
        refine ⟨by omega, by omega, fun n hn' => ?_⟩
        obtain ⟨j, rfl⟩ := hn n hn' (by omega)
        rw [Completer.findTerminalLoop, h1]
        simp only [ok_bind, Bool.false_eq_true, if_false, h3, h4]
        exact e3 j (by omega)

/-- What is on the stack and in the path belongs together. -/
def Level (p : Nat) (c : Completer) : Prop := c.path.length = p + c.indexStack.length ∨ c.indexStack = [] ∧ c.path.length = p + 1

/-- One round of `climb`, with the removal of the last byte of the path as one step. -/
theorem climb_round (D : Dictionary) (gd : Guide) (m : Nat) (c : Completer) (u : Nat) :
    Completer.climb D gd (m + 1) c u = (gd.sibling u >>= fun sl =>
      (if c.path.length > 1 then Completer.setLast c.path.dropLast 0 else pure c.path) >>= fun path =>
      match c.indexStack with
      | [] => .error .panic
      | _ :: stack =>
        match stack with
        | [] => pure ({ c with path := path, indexStack := stack }, none)
        | index :: _ =>
          if sl ≠ 0 then
            Completer.follow D { c with path := path, indexStack := stack } sl index >>= fun x =>
            match x with
            | none => pure ({ c with path := path, indexStack := stack }, none)
            | some (c, i) => pure (c, some i)
          else Completer.climb D gd m { c with path := path, indexStack := stack } index) := by
  rw [Completer.climb]
  congr 1
  funext sl
  by_cases hc : c.path.length > 1
  · simp only [if_pos hc]; rfl
  · simp only [if_neg hc]; rfl

theorem climb_within {D : Dictionary} {gd : Guide} {p : Nat} : ∀ {m c u c' o}, Completer.climb D gd m c u = .ok (c', o) → Level p c →
    Level p c' ∧ (o.isSome → c'.indexStack ≠ []) ∧
    ∀ n, c.indexStack.length ≤ n → Completer.climb D gd n c u = .ok (c', o)
  | 0, c, u, c', o, h, _ => by cases h
  | m + 1, c, u, c', o, h, hl => by
    rw [climb_round, bind_eq_ok] at h
    obtain ⟨sl, h1, h2⟩ := h
    rw [bind_eq_ok] at h2
    obtain ⟨path, h3, h4⟩ := h2
    have hpath : c.path.length > 1 ∧ path.length + 1 = c.path.length ∨ c.path.length ≤ 1 ∧ path.length = c.path.length := by
      by_cases hc : c.path.length > 1
      · rw [if_pos hc] at h3
        have := setLast_length h3
        rw [List.length_dropLast] at this
        exact .inl ⟨hc, by omega⟩
      · rw [if_neg hc] at h3
        cases h3
        exact .inr ⟨by omega, rfl⟩
    cases hs : c.indexStack with
    | nil => rw [hs] at h4; cases h4
    | cons a stack =>
      rw [hs] at h4
      simp only at h4
      have hl' : c.path.length = p + stack.length + 1 := by
        rcases hl with hl | ⟨hl, _⟩
        · rw [hs, List.length_cons] at hl; omega
        · rw [hs] at hl; cases hl
      have hn : ∀ n, (a :: stack).length ≤ n → ∃ j, n = j + 1 := fun n hn => ⟨n - 1, by simp only [List.length_cons] at hn; omega⟩
      cases stack with
      | nil =>
        simp only [pure_eq_ok, Except.ok.injEq, Prod.mk.injEq] at h4
        obtain ⟨rfl, rfl⟩ := h4
        refine ⟨?_, by simp, fun n hn' => ?_⟩
        · unfold Level
          simp only [List.length_nil] at hl' ⊢
          rcases hpath with ⟨_, h⟩ | ⟨_, h⟩
          · exact .inl (by omega)
          · exact .inr ⟨trivial, by omega⟩
        · obtain ⟨j, rfl⟩ := hn n hn'
          rw [climb_round, h1, ok_bind, h3, ok_bind, hs]
          rfl
      | cons i rest =>
        simp only [List.length_cons] at hl'
        have hlv : Level p { c with path := path, indexStack := i :: rest } := by
          refine .inl ?_
          simp only [List.length_cons]
          omega
        simp only at h4
        by_cases hsl : sl ≠ 0
        · rw [if_pos hsl, bind_eq_ok] at h4
          obtain ⟨x, h5, h6⟩ := h4
          cases x with
          | none =>
            simp only [pure_eq_ok, Except.ok.injEq, Prod.mk.injEq] at h6
            obtain ⟨rfl, rfl⟩ := h6
            refine ⟨hlv, by simp, fun n hn' => ?_⟩
            obtain ⟨j, rfl⟩ := hn n hn'
            rw [climb_round, h1, ok_bind, h3, ok_bind, hs]
            simp only [if_pos hsl, h5, ok_bind]
            rfl
          | some y =>
            obtain ⟨c1, i1⟩ := y
            simp only [pure_eq_ok, Except.ok.injEq, Prod.mk.injEq] at h6
            obtain ⟨rfl, rfl⟩ := h6
            obtain ⟨g1, g2⟩ := follow_stack h5
            refine ⟨?_, fun _ => by rw [g1]; simp, fun n hn' => ?_⟩
            · refine .inl ?_
              rw [g1, g2]
              simp only [List.length_cons]
              omega
            · obtain ⟨j, rfl⟩ := hn n hn'
              rw [climb_round, h1, ok_bind, h3, ok_bind, hs]
              simp only [if_pos hsl, h5, ok_bind]
              rfl
        · rw [if_neg hsl] at h4
          obtain ⟨e1, e2, e3⟩ := climb_within h4 hlv
          refine ⟨e1, e2, fun n hn' => ?_⟩
          obtain ⟨j, rfl⟩ := hn n hn'
          rw [climb_round, h1, ok_bind, h3, ok_bind, hs]
          simp only [if_neg hsl]
          exact e3 j (by simp only [List.length_cons] at hn' ⊢; omega)

theorem Level.terminal {D : Dictionary} {gd : Guide} {p m c u c' b} (h : Level p c) (hs : c.indexStack ≠ [])
    (ht : Completer.findTerminalLoop D gd m c u = .ok (c', b)) : Level p c' ∧ ∀ n, c'.path.length ≤ p + n → Completer.findTerminalLoop D gd n c u = .ok (c', b) := by
  obtain ⟨e1, e2, e3⟩ := terminal_within ht
  have hpos := List.length_pos_iff.2 hs
  have hl : c.path.length = p + c.indexStack.length := by
    rcases h with h | ⟨h, _⟩
    · exact h
    · exact absurd h hs
  exact ⟨.inl (by omega), fun n hn => e3 n (by omega)⟩

theorem Level.next {D : Dictionary} {gd : Guide} {p c c' b} (h : Level p c) (ht : Completer.next D gd c = .ok (c', b)) :
    Level p c' ∧ ∀ n, c.path.length ≤ p + n → c'.path.length ≤ p + n → nextWithin n D gd c = .ok (c', b) := by
  unfold Completer.next at ht
  cases hs : c.indexStack with
  | nil =>
    rw [hs] at ht
    simp only [pure_eq_ok, Except.ok.injEq, Prod.mk.injEq] at ht
    obtain ⟨rfl, rfl⟩ := ht
    refine ⟨h, fun n _ _ => ?_⟩
    unfold nextWithin
    rw [hs]
    rfl
  | cons u st =>
    rw [hs] at ht
    simp only at ht
    have hne : c.indexStack ≠ [] := by rw [hs]; simp
    have hl : c.path.length = p + st.length + 1 := by
      rcases h with h | ⟨h, _⟩
      · rw [hs, List.length_cons] at h; omega
      · exact absurd h hne
    by_cases hr : c.lastIndex ≠ D.root
    · rw [if_pos hr, bind_eq_ok] at ht
      obtain ⟨cl, h1, h2⟩ := ht
      by_cases hcl : cl ≠ 0
      · rw [if_pos hcl, bind_eq_ok] at h2
        obtain ⟨x, h3, h4⟩ := h2
        cases x with
        | none =>
          simp only [pure_eq_ok, Except.ok.injEq, Prod.mk.injEq] at h4
          obtain ⟨rfl, rfl⟩ := h4
          refine ⟨h, fun n _ _ => ?_⟩
          unfold nextWithin
          rw [hs]
          simp only [if_pos hr, h1, ok_bind, if_pos hcl, h3]
          rfl
        | some y =>
          obtain ⟨c1, i⟩ := y
          obtain ⟨g1, g2⟩ := follow_stack h3
          have hl1 : Level p c1 := .inl (by rw [g1, g2, hs]; simp only [List.length_cons]; omega)
          obtain ⟨e1, e2⟩ := hl1.terminal (by rw [g1]; simp) h4
          refine ⟨e1, fun n _ hn => ?_⟩
          unfold nextWithin
          rw [hs]
          simp only [if_pos hr, h1, ok_bind, if_pos hcl, h3]
          exact e2 n hn
      · rw [if_neg hcl, bind_eq_ok] at h2
        obtain ⟨x, h3, h4⟩ := h2
        obtain ⟨c1, o⟩ := x
        obtain ⟨e1, e2, e3⟩ := climb_within h3 h
        have hfuel : ∀ n, c.path.length ≤ p + n → c.indexStack.length ≤ n := fun n hn => by rw [hs, List.length_cons]; omega
        cases o with
        | none =>
          simp only [pure_eq_ok, Except.ok.injEq, Prod.mk.injEq] at h4
          obtain ⟨rfl, rfl⟩ := h4
          refine ⟨e1, fun n hn _ => ?_⟩
          unfold nextWithin
          rw [hs]
          simp only [if_pos hr, h1, ok_bind, if_neg hcl, e3 n (hfuel n hn)]
          rfl
        | some i =>
          simp only at h4
          obtain ⟨f1, f2⟩ := e1.terminal (e2 rfl) h4
          refine ⟨f1, fun n hn hn' => ?_⟩
          unfold nextWithin
          rw [hs]
          simp only [if_pos hr, h1, ok_bind, if_neg hcl, e3 n (hfuel n hn)]
          exact f2 n hn'
    · rw [if_neg hr] at ht
      obtain ⟨f1, f2⟩ := h.terminal hne ht
      refine ⟨f1, fun n _ hn => ?_⟩
      unfold nextWithin
      rw [hs]
      simp only [if_neg hr]
      exact f2 n hn

theorem Calls.level {D : Dictionary} {gd : Guide} {p k c c'} (h : Calls D gd k c c') : Level p c → Level p c' := by
  induction h with
  | none => exact id
  | more h1 _ ih => exact fun h => ih (h.next h1).1

theorem start_level {gd : Guide} {c c0 : Completer} {u : Nat} {P : Key} (h : Completer.startString gd c u P = .ok c0) : Level P.length c0 := by
  unfold Completer.startString Completer.startStringLen Completer.takeLen at h
  rw [if_neg (by omega)] at h
  simp only [Int.toNat_natCast, Nat.le_refl, if_true, ok_bind, List.take_length] at h
  by_cases hz : gd.size ≠ 0
  · rw [if_pos hz] at h
    cases h
    exact .inl (by simp)
  · rw [if_neg hz] at h
    cases h
    exact .inr ⟨rfl, by simp⟩

/-- **C96** for completers: for every dictionary and every guide, built or read from any file, with a completer started at any index with a prefix `P`: when `Next`
returns, each of its two loops has taken at most as many rounds as the key before the call or the key after it has bytes more than `P` (counting the NUL at the end).
A limit of `n` rounds that covers both keys changes nothing, however many keys the dictionary has. -/
theorem C96_next {D : Dictionary} {gd : Guide} {c c0 c1 c2 : Completer} {u k : Nat} {P : Key} {b : Bool} (h0 : Completer.startString gd c u P = .ok c0)
    (h1 : Calls D gd k c0 c1) (h2 : Completer.next D gd c1 = .ok (c2, b)) (n : Nat) (hn1 : c1.key.length ≤ P.length + n) (hn2 : c2.key.length ≤ P.length + n) :
    nextWithin n D gd c1 = .ok (c2, b) :=
  ((h1.level (start_level h0)).next h2).2 n hn1 hn2

theorem listing_calls {D : Dictionary} {gd : Guide} : ∀ {m c xs c'}, listing D gd m c = .ok (xs, c') → xs ≠ [] → ∃ c1, Completer.next D gd c = .ok (c1, true) ∧
    ∃ x ys, xs = x :: ys ∧ c1.key = x.1 ∧ ∃ m', listing D gd m' c1 = .ok (ys, c')
  | 0, c, xs, c', h, _ => by cases h
  | m + 1, c, xs, c', h, hx => by
    rw [listing, bind_eq_ok] at h
    obtain ⟨⟨c1, b⟩, h1, h2⟩ := h
    cases b with
    | false => cases h2; exact absurd rfl hx
    | true =>
      simp only [Bool.not_true, Bool.false_eq_true, if_false, bind_eq_ok] at h2
      obtain ⟨v, _, ⟨ys, c2⟩, h3, h4⟩ := h2
      cases h4
      exact ⟨c1, h1, _, ys, rfl, rfl, m, h3⟩

/-- The second completion of `a` among `a`, `ab` and `b` is found within two rounds, as the NUL and `b` are all that comes after the prefix. -/
example : ∃ hist d D gd u c0 c1 c2, Made hist d D ∧ buildGuide d D = .ok (some gd) ∧ D.followString [97] D.root = .ok (true, u, 1) ∧
    Completer.startString gd Completer.new u [97] = .ok c0 ∧ Completer.next D gd c0 = .ok (c1, true) ∧ Completer.next D gd c1 = .ok (c2, true) ∧ c2.key = [97, 98, 0] ∧
    nextWithin 2 D gd c1 = .ok (c2, true) := by
  obtain ⟨d, D, h⟩ := madeG
  obtain ⟨gd, h1, _⟩ := C26_guide h
  obtain ⟨u, h2, _⟩ := follow_prefix h (q := [97]) ⟨([97], 5), by decide, by simp⟩
  obtain ⟨c0, h3, h4⟩ := C22_completions_partial h h1 ⟨([97], 5), by decide, by simp⟩ h2 (by simp) Completer.new [97]
  obtain ⟨c', h5, _⟩ := h4 3 (by decide)
  obtain ⟨c1, n1, x1, ys, hx1, hk1, m1, l1⟩ := listing_calls h5 (by decide)
  have hx1' : x1 = (([97, 0], 1, 5) : Key × Int × Nat) ∧ ys = [(([97, 98, 0], 2, 3) : Key × Int × Nat)] :=
    (List.cons.inj (hx1.symm.trans (by decide +kernel)))
  obtain ⟨rfl, rfl⟩ := hx1'
  obtain ⟨c2, n2, x2, zs, hx2, hk2, _⟩ := listing_calls l1 (by simp)
  cases hx2
  exact ⟨_, d, D, gd, u, c0, c1, c2, h, h1, h2, h3, n1, n2, hk2, C96_next h3 (.more n1 (.none _)) n2 2 (by rw [hk1]; decide) (by rw [hk2]; decide)⟩

theorem RCalls.bound {D : Dictionary} {At kid clean ord} {gd : Guide} {u0 L0 B} {P : Key} (V : View D At kid clean) (ho : OrdPerm At ord)
    (hg : GuideIs D At kid ord gd) (h0 : At u0 L0) (hW : 1 + W L0 ≤ B) (hB : B < 4294967296) {M : Nat} {k rc rc'} (h : RCalls D gd k rc rc') :
    ∀ {T}, RReady (fun a b => a = b) At kid ord u0 L0 False B P rc T → (∀ e ∈ T, e.1.length ≤ M) → rc.nodeQueue.length ≤ M + 1 →
    rc'.nodes.length ≤ rc.nodes.length + k * ((M + 1) * (M + 1)) ∧ rc'.candidateQueue.length ≤ rc.candidateQueue.length + k * M ∧ rc'.nodeQueue.length ≤ M + 1 := by
  induction h with
  | none => exact fun _ _ hq => ⟨by omega, by omega, hq⟩
  | @more k rc rc1 rc2 hn _ ih =>
    intro T hr hM hq
    rcases rnext_spec V ho hg (fun a => rfl) (fun {a b c} h1 h2 => h1.trans h2) False.elim h0 hW hB hr with ⟨_, r, e1, _⟩ | ⟨key, v, T', r, hp, e1, _, _, e4, _, e6, e7, e8⟩
    · rw [hn] at e1; cases e1
    · rw [hn] at e1
      cases e1
      have hkey : key.length ≤ M := hM _ (hp.mem_iff.2 List.mem_cons_self)
      obtain ⟨f1, f2, f3⟩ := ih e4 (fun e he => hM e (hp.mem_iff.2 (List.mem_cons_of_mem _ he))) (by omega)
      have h8 := e8 M hM
      have h9 := Nat.mul_le_mul_right (M + 1) hq
      refine ⟨?_, ?_, f3⟩
      · rw [Nat.succ_mul]; omega
      · rw [Nat.succ_mul]; omega

/-- **C96** for ranked completers: let no key with the prefix `p` be more than `M` bytes longer than `p`.  After `k + 1` calls of `Next` that returned true, a ranked
completer over a ranked guide (any comparator, any sorting routine that gives back the same elements) that was started at the index of `p` has created at most `2 + M + k (M + 1)²`
nodes (nodes are only created, never removed, and one is created for each transition followed), and has at most `k M` candidates and `M + 1` nodes queued.  The number of keys does not matter. -/
theorem C96_ranked {hist d D gd p u n} {sorter : Sorter} {cmp : Int → Int → Bool} (h : Made hist d D) (hp : ∀ less l, (sorter less l).Perm l)
    (hg : buildRankedGuideCmp sorter d D cmp = .ok (some gd)) (hpre : ∃ e ∈ accepted hist, p <+: e.1)
    (hf : D.followString p D.root = .ok (true, u, n)) {M : Nat} (hM : ∀ e ∈ accepted hist, p <+: e.1 → e.1.length ≤ p.length + M)
    {rc rc0 rc1 : RankedCompleter} {P : Key} {k : Nat} (hs : RankedCompleter.startString D gd rc u P = .ok rc0) (hc : RCalls D gd (k + 1) rc0 rc1) :
    rc1.nodes.length ≤ 2 + M + k * ((M + 1) * (M + 1)) ∧ rc1.candidateQueue.length ≤ k * M ∧ rc1.nodeQueue.length ≤ M + 1 := by
  have hne : accepted hist ≠ [] := by
    obtain ⟨e, he, _⟩ := hpre; exact List.ne_nil_of_mem he
  obtain ⟨At, kid, DAt, V, h0, WW, hd0⟩ := Made.view h hne
  obtain ⟨gd', e1, e2⟩ := buildRanked_spec (cmp := cmp) hp V WW h0 hd0
  rw [hg] at e1
  cases e1
  have V' := V.reach h0
  have hu := Made.index h V h0 hpre hf
  have hz : gd.size ≠ 0 := by
    have h1 := e2.size
    have h2 := V'.lt hu
    show gd.units.length ≠ 0
    omega
  have hW : 1 + W (residual (words (accepted hist)) p) ≤ 1073741824 := by
    have h1 := W_residual_le (words (accepted hist)) p
    have h2 := W_words_lt h.1
    omega
  have hord : OrdPerm (Reach kid (words (accepted hist))) (rord D sorter cmp) := fun {_ _} h => rord_perm hp V' h
  rw [rstartString_eq V' hz hu rc P] at hs
  cases hs
  have hres : ∀ e ∈ residual (words (accepted hist)) p, e.1.length ≤ M := by
    intro e he
    unfold residual words at he
    simp only [List.mem_map, List.mem_filter] at he
    obtain ⟨a, ⟨⟨f, hf', rfl⟩, ha⟩, rfl⟩ := he
    have := hM f hf' (List.isPrefixOf_iff_prefix.1 ha)
    simp only [List.length_drop]
    omega
  cases hc with
  | @more _ _ rc' _ hn hc =>
    rcases rnext_spec V' hord e2 (R := fun a b => a = b) (S := False) (P := P) (fun a => rfl) (fun {a b c} h1 h2 => h1.trans h2) False.elim hu hW (by omega) .fresh
      with ⟨_, r, f1, _⟩ | ⟨key, v, T', r, hpm, f1, _, _, f4, _, f6, f7, f8⟩
    · rw [hn] at f1; cases f1
    · rw [hn] at f1
      cases f1
      have hkey : key.length ≤ M := hres _ (hpm.mem_iff.2 List.mem_cons_self)
      have h8 := f8 M hres
      simp only [List.length_cons, List.length_nil] at f7 h8
      obtain ⟨g1, g2, g3⟩ := hc.bound V' hord e2 hu hW (by omega) f4 (fun e he => hres e (hpm.mem_iff.2 (List.mem_cons_of_mem _ he))) (Nat.le_trans f6 (by omega))
      exact ⟨by omega, by omega, g3⟩

theorem rlisting_calls {D : Dictionary} {gd : Guide} : ∀ {m rc xs rc'}, rlisting D gd m rc = .ok (xs, rc') → ∃ rc1, RCalls D gd xs.length rc rc1
  | 0, rc, xs, rc', h => by cases h
  | m + 1, rc, xs, rc', h => by
    rw [rlisting, bind_eq_ok] at h
    obtain ⟨⟨rc1, b⟩, h1, h2⟩ := h
    cases b with
    | false => cases h2; exact ⟨rc, .none _⟩
    | true =>
      simp only [Bool.not_true, Bool.false_eq_true, if_false, bind_eq_ok] at h2
      obtain ⟨⟨ys, rc2⟩, h3, h4⟩ := h2
      cases h4
      obtain ⟨r, hr⟩ := rlisting_calls h3
      exact ⟨r, .more h1 hr⟩

/-- All three keys `a`, `ab` and `b` listed from the root. -/
example : ∃ hist d D gd rc0 rc1, Made hist d D ∧ buildRankedGuideCmp (fun _ l => l) d D (fun _ _ => false) = .ok (some gd) ∧
    RankedCompleter.startString D gd RankedCompleter.new D.root [] = .ok rc0 ∧ RCalls D gd 3 rc0 rc1 ∧
    rc1.nodes.length ≤ 22 ∧ rc1.candidateQueue.length ≤ 4 ∧ rc1.nodeQueue.length ≤ 3 := by
  obtain ⟨d, D, h⟩ := madeG
  obtain ⟨gd, h1, _⟩ := C27_ranked_guide (sorter := fun _ l => l) h (fun _ l => List.Perm.refl _) (fun _ _ => false)
  have hpre : ∃ e ∈ accepted keysG, ([] : Key) <+: e.1 := ⟨([97], 5), by decide, by simp⟩
  obtain ⟨rc0, xs, h3, h4, _, h5⟩ := C27_completions (u := D.root) (n := 0) h (fun _ l => List.Perm.refl _) h1 hpre rfl RankedCompleter.new []
  obtain ⟨rc', h6, _⟩ := h5 4 (by rw [h4.length_eq]; decide)
  obtain ⟨rc1, h7⟩ := rlisting_calls h6
  rw [List.length_map, h4.length_eq] at h7
  exact ⟨_, d, D, gd, rc0, rc1, h, h1, h3, h7, C96_ranked (M := 2) (k := 2) h (fun _ l => List.Perm.refl _) h1 hpre rfl (by decide) h3 h7⟩

/-- `heap.Push` with its loop stopped after `n` rounds. -/
def pushWithin (n : Nat) (q : List Candidate) (x : Candidate) : Go (List Candidate) := Heap.up n (q ++ [x]) q.length

/-- `heap.Pop` with its loop stopped after `n` rounds. -/
def popWithin (n : Nat) (q : List Candidate) : Go (List Candidate) :=
  if q.length = 0 then .error .panic else do
    let m := q.length - 1
    let q ← Heap.swap q 0 m
    let q ← Heap.down n q 0 m
    return q.take m

theorem up_limit : ∀ (m n : Nat) (q : List Candidate) (j : Nat), j + 1 < 2 ^ m → j + 1 < 2 ^ n → Heap.up m q j = Heap.up n q j
  | 0, _, _, _, h, _ => by simp at h
  | _ + 1, 0, _, _, _, h => by simp at h
  | m + 1, n + 1, q, j, h1, h2 => by
    rw [Heap.up, Heap.up]
    by_cases hj : (j - 1) / 2 = j
    · rw [if_pos hj, if_pos hj]
    · rw [if_neg hj, if_neg hj]
      rw [Nat.pow_succ] at h1 h2
      have hrec := fun q => up_limit m n q ((j - 1) / 2) (by omega) (by omega)
      simp only [hrec]

theorem swap_length {q q' : List Candidate} {i j : Nat} (h : Heap.swap q i j = .ok q') : q'.length = q.length := by
  unfold Heap.swap at h
  simp only [bind_eq_ok] at h
  obtain ⟨a, _, b, _, q1, h1, h2⟩ := h
  obtain ⟨_, rfl⟩ := wr_eq_ok.1 h1
  obtain ⟨_, rfl⟩ := wr_eq_ok.1 h2
  simp

theorem down_limit : ∀ (m n : Nat) (q : List Candidate) (i l : Nat), l < (i + 1) * 2 ^ m → l < (i + 1) * 2 ^ n → 1 ≤ m → 1 ≤ n → Heap.down m q i l = Heap.down n q i l
  | 0, _, _, _, _, _, _, h, _ => by omega
  | _ + 1, 0, _, _, _, _, _, _, h => by omega
  | m + 1, n + 1, q, i, l, h1, h2, _, _ => by
    rw [Heap.down, Heap.down]
    simp only
    by_cases hj : 2 * i + 1 ≥ l
    · rw [if_pos hj, if_pos hj]
    · rw [if_neg hj, if_neg hj]
      have big : ∀ k, l < (i + 1) * 2 ^ (k + 1) → 1 ≤ k := by
        intro k hk
        cases k with
        | zero => omega
        | succ k => omega
      have step : ∀ k j, 2 * i + 1 ≤ j → l < (i + 1) * 2 ^ (k + 1) → l < (j + 1) * 2 ^ k := by
        intro k j hj hk
        rw [Nat.pow_succ, Nat.mul_comm (2 ^ k) 2, ← Nat.mul_assoc] at hk
        exact Nat.lt_of_lt_of_le hk (Nat.mul_le_mul_right _ (by omega))
      have hrec := fun q j (hj : 2 * i + 1 ≤ j) => down_limit m n q j l (step m j hj h1) (step n j hj h2) (big m h1) (big n h2)
      have hrec1 := fun q => hrec q (2 * i + 1) (by omega)
      have hrec2 := fun q => hrec q (2 * i + 1 + 1) (by omega)
      by_cases hj2 : 2 * i + 1 + 1 < l
      · simp only [if_pos hj2]
        cases Heap.lessAt q (2 * i + 1 + 1) (2 * i + 1) with
        | error e => rfl
        | ok b =>
          cases b with
          | true => simp only [ok_bind, if_true, pure_bind, hrec2]
          | false => simp only [ok_bind, Bool.false_eq_true, if_false, pure_bind, hrec1]
      · simp only [if_neg hj2, pure_bind, hrec1]

/-- **C96**, the heap: with fewer than `2 ^ n - 1` elements, the loops of `heap.Push` and `heap.Pop` take at most `n` rounds: a limit of `n` rounds changes nothing.  This holds for every
queue, also for one that is no heap. -/
theorem C96_heap (q : List Candidate) (n : Nat) (h : q.length + 1 < 2 ^ n) : (∀ x, pushWithin n q x = Heap.push q x) ∧ popWithin n q = Heap.pop q := by
  have hlt : ∀ k : Nat, k + 1 < 2 ^ (k + 2) := fun k => by
    have := Nat.lt_two_pow_self (n := k + 2)
    omega
  refine ⟨fun x => up_limit _ _ _ _ h (hlt _), ?_⟩
  unfold popWithin Heap.pop
  by_cases hq : q.length = 0
  · rw [if_pos hq, if_pos hq]
  · rw [if_neg hq, if_neg hq]
    simp only
    cases hs : Heap.swap q 0 (q.length - 1) with
    | error e => rfl
    | ok q' =>
      simp only [ok_bind]
      have hl := swap_length hs
      have hn : 1 ≤ n := by
        cases n with
        | zero => simp at h
        | succ n => omega
      have := Nat.lt_two_pow_self (n := q'.length + 1)
      rw [down_limit n (q'.length + 1) q' 0 (q.length - 1) (by omega) (by omega) hn (by omega)]

/-- A queue of three: a limit of three rounds is enough, and a limit of one round is not. -/
example : (∀ x, pushWithin 3 [⟨2, 9⟩, ⟨3, 7⟩, ⟨4, 8⟩] x = Heap.push [⟨2, 9⟩, ⟨3, 7⟩, ⟨4, 8⟩] x) ∧
    pushWithin 3 [⟨2, 9⟩, ⟨3, 7⟩, ⟨4, 8⟩] ⟨5, 10⟩ = .ok [⟨5, 10⟩, ⟨2, 9⟩, ⟨4, 8⟩, ⟨3, 7⟩] ∧ pushWithin 1 [⟨2, 9⟩, ⟨3, 7⟩, ⟨4, 8⟩] ⟨5, 10⟩ = .error .hang :=
  ⟨(C96_heap [⟨2, 9⟩, ⟨3, 7⟩, ⟨4, 8⟩] 3 (by decide)).1, by decide, by decide⟩

end Dawg.Props
