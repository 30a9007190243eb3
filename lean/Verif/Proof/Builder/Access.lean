import Verif.Proof.Builder.Final
/-! # Reading finished Dawgs -/
namespace Dawg.Abs
attribute [-simp] List.length_flatten
open Dawg.Spec Dawg.Client

/-! ## Residuals -/

theorem residual_nil {α : Type} (acc : List (Key × α)) : residual acc [] = acc := by
  simp [residual]

theorem residual_append {α : Type} (A B : List (Key × α)) (p : Key) : residual (A ++ B) p = residual A p ++ residual B p := by
  simp [residual]

theorem residual_residual {α : Type} (acc : List (Key × α)) (p q : Key) : residual acc (p ++ q) = residual (residual acc p) q := by
  induction acc with
  | nil => rfl
  | cons e acc ih =>
    rw [show e :: acc = [e] ++ acc from rfl, residual_append, residual_append, residual_append, ih]
    congr 1
    simp only [residual, List.filter_cons, List.filter_nil]
    by_cases hp : p <+: e.1
    · obtain ⟨t, ht⟩ := hp
      have h1 : p.isPrefixOf e.1 = true := List.isPrefixOf_iff_prefix.2 ⟨t, ht⟩
      rw [h1]
      simp only [if_true, List.map_cons, List.map_nil, List.filter_cons, List.filter_nil]
      have h2 : e.1.drop p.length = t := by rw [← ht]; simp
      rw [h2]
      have h3 : (p ++ q).isPrefixOf e.1 = q.isPrefixOf t := by
        rw [Bool.eq_iff_iff, List.isPrefixOf_iff_prefix, List.isPrefixOf_iff_prefix, ← ht, List.prefix_append_right_inj]
      rw [h3]
      split
      · simp only [List.map_cons, List.map_nil, List.length_append]
        rw [← ht]
        simp
      · simp
    · have h1 : p.isPrefixOf e.1 = false := by
        rw [Bool.eq_false_iff]; intro h; exact hp (List.isPrefixOf_iff_prefix.1 h)
      have h2 : (p ++ q).isPrefixOf e.1 = false := by
        rw [Bool.eq_false_iff]; intro h
        exact hp ((List.prefix_append _ _).trans (List.isPrefixOf_iff_prefix.1 h))
      rw [h1, h2]; simp

theorem mem_residual {α : Type} {acc : List (Key × α)} {p : Key} {e : Key × α} : e ∈ residual acc p ↔ (p ++ e.1, e.2) ∈ acc := by
  simp only [residual, List.mem_map, List.mem_filter, List.isPrefixOf_iff_prefix]
  constructor
  · rintro ⟨a, ⟨h1, t, h2⟩, rfl⟩
    simp only [← h2, List.drop_left]
    rw [h2]; exact h1
  · intro h
    exact ⟨_, ⟨h, List.prefix_append _ _⟩, by simp⟩

theorem residual_pre {L : Lang} {l : UInt8} : residual (L.map (pre [l])) [l] = L := by
  unfold residual
  rw [List.filter_eq_self.2 (by intro a ha; simp only [List.mem_map] at ha; obtain ⟨b, _, rfl⟩ := ha; simp [pre])]
  simp [pre, Function.comp_def]

theorem residual_none {α : Type} {L : List (Key × α)} {l : UInt8} (h : ∀ e ∈ L, ∀ k, e.1 ≠ l :: k) : residual L [l] = [] := by
  unfold residual
  rw [List.filter_eq_nil_iff.2, List.map_nil]
  intro e he hp
  obtain ⟨t, ht⟩ := List.isPrefixOf_iff_prefix.1 hp
  exact h e he t ht.symm

theorem residual_pre_ne {L : Lang} {l m : UInt8} (h : l ≠ m) : residual (L.map (pre [l])) [m] = [] := by
  apply residual_none
  intro e he k hk
  simp only [List.mem_map] at he
  obtain ⟨a, _, rfl⟩ := he
  simp [pre] at hk
  exact h hk.1

theorem DenG.not_head {gs g L} (h : DenG gs g L) {l : UInt8} (hl : ∀ q ∈ g, q.1 ≠ l) : ∀ e ∈ L, ∀ k, e.1 ≠ l :: k := by
  intro e he k hk
  obtain ⟨p, hp, h⟩ := h.heads he
  rcases h with ⟨_, h⟩ | ⟨_, k', h⟩
  · rw [h] at hk; simp at hk
  · rw [h] at hk; simp at hk; exact hl p hp hk.1

/-- Following a transition. -/
theorem DenG.child {gs g L} (h : DenG gs g L) (ha : Asc g) {q : Pair} (hq : q ∈ g) (hl : q.1 ≠ 0) :
    ∃ g', IsStart gs (baseChild q.2) g' ∧ DenG gs g' (residual L [q.1]) := by
  induction h with
  | nil => simp at hq
  | @leaf b rest L hr ih =>
    obtain ⟨h1, h2⟩ := List.pairwise_cons.1 ha
    rcases List.mem_cons.1 hq with rfl | hq
    · exact absurd rfl hl
    · obtain ⟨g', h3, h4⟩ := ih h2 hq
      refine ⟨g', h3, ?_⟩
      rw [show (([], baseValue b) : Entry) :: L = [([], baseValue b)] ++ L from rfl, residual_append,
        residual_none (L := [(([], baseValue b) : Entry)]) (by simp)]
      exact h4
  | @node l b g1 L1 rest L hl0 hst hc hr _ ih =>
    obtain ⟨h1, h2⟩ := List.pairwise_cons.1 ha
    rcases List.mem_cons.1 hq with rfl | hq
    · refine ⟨g1, hst, ?_⟩
      rw [residual_append, residual_pre, residual_none (hr.not_head (fun q hq => ?_)), List.append_nil]
      · exact hc
      · have := h1 q hq
        intro he
        simp only at this he
        rw [he] at this
        exact absurd this (UInt8.lt_irrefl _)
    · obtain ⟨g', h3, h4⟩ := ih h2 hq
      refine ⟨g', h3, ?_⟩
      have hne : l ≠ q.1 := by
        have := h1 q hq
        intro he
        simp only at this
        rw [he] at this
        exact absurd this (UInt8.lt_irrefl _)
      rw [residual_append, residual_pre_ne hne]
      exact h4

/-- Every trie node is merged into the state with its language. -/
theorem FinalCore.node_den {c r acc N} (h : FinalCore c r acc) (hN : NInv c [] (if r = 0 then none else some r) N) :
    ∀ (n : Nat) (p : Key) (s : Nat), p.length = n → (p, s) ∈ N → ∃ g, IsStart c.groups s g ∧ DenG c.groups g (residual acc p) := by
  intro n
  induction n with
  | zero =>
    intro p s hp hps
    have hp : p = [] := List.eq_nil_of_length_eq_zero hp
    subst hp
    rcases hN.bwd _ _ hps with ⟨p', t, g, q, _, _, _, _, h1, _⟩ | ⟨f, fs', e, h1, _⟩ | ⟨h1, _⟩
    · simp at h1
    · simp at h1
    · rw [residual_nil]
      split at h1
      · simp at h1
      · simp only [Option.some.injEq] at h1
        subst h1
        rcases h.den with ⟨_, h0, _⟩ | ⟨g, h1, h2⟩
        · contradiction
        · exact ⟨g, h1, h2⟩
  | succ n ih =>
    intro p s hp hps
    rcases hN.bwd _ _ hps with ⟨p', t, g, q, h1, h2, h3, h4, h5, h6⟩ | ⟨f, fs', e, h1, _⟩ | ⟨_, h1⟩
    · subst h5 h6
      simp at hp
      obtain ⟨g', e1, e2⟩ := ih p' t hp h1
      have := e1.unique h2 h.cinv.ne
      subst this
      obtain ⟨g'', e3, e4⟩ := e2.child (h.cinv.asc _ h2.mem) h3 h4
      exact ⟨g'', e3, by rw [residual_residual]; exact e4⟩
    · simp at h1
    · rw [h1] at hp; simp [path_nil] at hp

/-- Every prefix of a key is a trie node. -/
theorem FinalCore.node_ex {c r acc N} (h : FinalCore c r acc) (hN : NInv c [] (if r = 0 then none else some r) N) :
    ∀ (n : Nat) (p : Key), p.length = n → residual acc p ≠ [] → ∃ s, (p, s) ∈ N := by
  intro n
  induction n with
  | zero =>
    intro p hp hne
    have hp : p = [] := List.eq_nil_of_length_eq_zero hp
    subst hp
    rw [residual_nil] at hne
    rcases h.den with ⟨h0, _⟩ | ⟨g, h1, _⟩
    · exact absurd h0 hne
    · have hr : r ≠ 0 := Nat.pos_iff_ne_zero.1 h1.pos
      exact ⟨r, hN.pendIn r (if_neg hr)⟩
  | succ n ih =>
    intro p hp hne
    rcases List.eq_nil_or_concat p with rfl | ⟨p', l, rfl⟩
    · simp at hp
    · rw [List.concat_eq_append] at *
      simp at hp
      have hne' := hne
      rw [residual_residual] at hne
      have hp' : residual acc p' ≠ [] := by
        intro h0; rw [h0] at hne; exact hne rfl
      obtain ⟨t, ht⟩ := ih p' hp hp'
      obtain ⟨g, e1, e2⟩ := h.node_den hN n p' t hp ht
      by_cases hex : ∃ q ∈ g, q.1 = l ∧ l ≠ 0
      · obtain ⟨q, hq, rfl, hl⟩ := hex
        exact ⟨_, hN.fwd p' t g q ht e1 hq hl⟩
      · exfalso
        apply hne
        apply residual_none
        intro e he k hk
        obtain ⟨q, hq, hh⟩ := e2.heads he
        rcases hh with ⟨_, hh⟩ | ⟨h0, k', hh⟩
        · rw [hh] at hk; simp at hk
        · rw [hh] at hk; simp at hk
          exact hex ⟨q, hq, hk.1, by rw [← hk.1]; exact h0⟩

/-! ## Accessors -/

theorem DawgIs.base_at {d c r s g} (h : DawgIs d c r) (hs : IsStart c.groups s g) {j : Nat} {p : Pair} (hj : g[j]? = some p) :
    rd d.basePool (s + j) = .ok p.2 := by
  have hjl : j < g.length := (List.getElem?_eq_some_iff.1 hj).1
  have := hs.get hjl (0, u32 (r <<< 2))
  rw [hj] at this
  have h2 := congrArg (Option.map Prod.snd) this
  rw [← List.getElem?_map] at h2
  apply rd_some
  rw [h.base]
  simpa using h2

theorem DawgIs.label_at {d c r s g} (h : DawgIs d c r) (hs : IsStart c.groups s g) {j : Nat} {p : Pair} (hj : g[j]? = some p) :
    d.label (s + j) = .ok p.1 := by
  have hjl : j < g.length := (List.getElem?_eq_some_iff.1 hj).1
  have := hs.get hjl (0xff, 0)
  rw [hj] at this
  have h2 := congrArg (Option.map Prod.fst) this
  rw [← List.getElem?_map] at h2
  apply rd_some
  rw [h.label]
  simpa using h2

theorem DawgIs.child_at {d c r s g} (h : DawgIs d c r) (hs : IsStart c.groups s g) {j : Nat} {p : Pair} (hj : g[j]? = some p) :
    d.child (s + j) = .ok (baseChild p.2) := by
  simp only [Dawg.child, h.base_at hs hj, ok_bind, pure_eq_ok]

theorem DawgIs.value_at {d c r s g} (h : DawgIs d c r) (hs : IsStart c.groups s g) {j : Nat} {p : Pair} (hj : g[j]? = some p) :
    d.value (s + j) = .ok (baseValue p.2) := by
  simp only [Dawg.value, h.base_at hs hj, ok_bind, pure_eq_ok]

theorem DawgIs.isLeaf_at {d c r s g} (h : DawgIs d c r) (hs : IsStart c.groups s g) {j : Nat} {p : Pair} (hj : g[j]? = some p) :
    d.isLeaf (s + j) = .ok (p.1 == 0) := by
  simp only [Dawg.isLeaf, h.label_at hs hj, ok_bind, pure_eq_ok]

theorem DawgIs.sibling_at {d c r acc s g} (h : DawgIs d c r) (hf : FinalCore c r acc) (hs : IsStart c.groups s g) {j : Nat} {p : Pair}
    (hj : g[j]? = some p) : d.sibling (s + j) = .ok (if j + 1 < g.length then s + (j + 1) else 0) := by
  simp only [Dawg.sibling, h.base_at hs hj, ok_bind, pure_eq_ok]
  rw [(hf.cinv.wf _ hs.mem).sib j p hj]
  by_cases hlt : j + 1 < g.length
  · have := hs.bound
    have := hf.small
    rw [if_pos (by simpa using hlt), if_pos hlt, u32_of_lt (by omega)]; rfl
  · rw [if_neg (by simpa using hlt), if_neg hlt]

theorem FinalCore.r_lt {c r acc} (h : FinalCore c r acc) : r < 1073741824 := by
  rcases h.den with ⟨_, h0, _⟩ | ⟨g, h1, _⟩
  · omega
  · have := h1.bound
    have := h.small
    have : 0 < g.length := List.length_pos_iff.2 (h.cinv.ne _ h1.mem)
    omega

theorem DawgIs.child_root {d c r acc} (h : DawgIs d c r) (hf : FinalCore c r acc) : d.child 0 = .ok r := by
  have hr := hf.r_lt
  have : rd d.basePool 0 = .ok (u32 (r <<< 2)) := rd_some (by rw [h.base]; rfl)
  simp only [Dawg.child, this, ok_bind, pure_eq_ok, baseChild]
  rw [u32_of_lt (by rw [Nat.shiftLeft_eq]; omega), Nat.shiftLeft_shiftRight]

theorem DawgIs.label_root {d c r} (h : DawgIs d c r) : d.label 0 = .ok 0xff :=
  rd_some (by rw [h.label]; rfl)

theorem DawgIs.isLeaf_root {d c r} (h : DawgIs d c r) : d.isLeaf 0 = .ok false := by
  simp only [Dawg.isLeaf, h.label_root, ok_bind, pure_eq_ok]; rfl

theorem DawgIs.sibling_root {d c r} (h : DawgIs d c r) : d.sibling 0 = .ok 0 := by
  have : rd d.basePool 0 = .ok (u32 (r <<< 2)) := rd_some (by rw [h.base]; rfl)
  simp only [Dawg.sibling, this, ok_bind, pure_eq_ok]
  have h0 : baseHasSibling (u32 (r <<< 2)) = false := by
    have := hasSibling_baseOf 0xff r false false
    simpa [baseOf, DawgUnit.base] using this
  rw [h0]; rfl

/-- Listing a state. -/
theorem DawgIs.dump {d c r acc} (h : DawgIs d c r) (hf : FinalCore c r acc) {suf L} (hd : DenG c.groups suf L) :
    ∀ {s g j}, IsStart c.groups s g → g.drop j = suf → suf ≠ [] →
    ∃ n, ∀ fuel, n ≤ fuel → ∀ p, Client.dump d fuel (s + j) p = .ok (L.map (pre p)) := by
  -- the rest of the chain
  have tail : ∀ {rest : Group} {L : Lang} {q : Pair} {s g j},
      (∀ {s g j}, IsStart c.groups s g → g.drop j = rest → rest ≠ [] →
        ∃ n, ∀ fuel, n ≤ fuel → ∀ p, Client.dump d fuel (s + j) p = .ok (L.map (pre p))) →
      DenG c.groups rest L → IsStart c.groups s g → g.drop j = q :: rest →
      g[j]? = some q ∧ ∃ n, ∀ fuel, n ≤ fuel → ∀ (p : Key) (here : Lang),
        (do let s' ← d.sibling (s + j)
            if s' = 0 then return here
            let rest ← Client.dump d fuel s' p
            return here ++ rest : Go Lang) = .ok (here ++ L.map (pre p)) := by
    intro rest L q s g j ih hr hs hj
    have hq : g[j]? = some q := by
      have := congrArg (fun l => l[0]?) hj
      simpa using this
    have hdrop : g.drop (j + 1) = rest := by
      have := congrArg List.tail hj
      simpa using this
    have hlen : (g.drop (j + 1)).length = rest.length := by rw [hdrop]
    rw [List.length_drop] at hlen
    refine ⟨hq, ?_⟩
    rw [h.sibling_at hf hs hq]
    cases rest with
    | nil =>
      refine ⟨0, fun fuel _ p here => ?_⟩
      have : ¬ j + 1 < g.length := by simp at hlen; omega
      cases hr
      simp [this]
    | cons q' rest =>
      obtain ⟨n, hn⟩ := ih hs hdrop (by simp)
      refine ⟨n, fun fuel hfu p here => ?_⟩
      have : j + 1 < g.length := by simp at hlen; omega
      have hpos := hs.pos
      simp only [if_pos this, ok_bind]
      rw [if_neg (by omega), hn fuel hfu p]
      rfl
  induction hd with
  | nil => intro s g j _ _ h0; exact absurd rfl h0
  | @leaf b rest L hr ih =>
    intro s g j hs hj _
    obtain ⟨hq, n, hn⟩ := tail ih hr hs hj
    refine ⟨n + 1, fun fuel hfu p => ?_⟩
    obtain ⟨fuel, rfl⟩ : ∃ k, fuel = k + 1 := ⟨fuel - 1, by omega⟩
    rw [Client.dump, h.isLeaf_at hs hq, h.value_at hs hq]
    simp only [ok_bind, beq_self_eq_true, if_true, map_ok]
    have := hn fuel (by omega) p [(p, baseValue b)]
    simpa [pre] using this
  | @node l b g1 L1 rest L hl hst hc hr ih1 ih2 =>
    intro s g j hs hj _
    obtain ⟨hq, n, hn⟩ := tail ih2 hr hs hj
    obtain ⟨n1, hn1⟩ := ih1 (j := 0) hst (by simp) (hf.cinv.ne _ hst.mem)
    refine ⟨n + n1 + 1, fun fuel hfu p => ?_⟩
    obtain ⟨fuel, rfl⟩ : ∃ k, fuel = k + 1 := ⟨fuel - 1, by omega⟩
    rw [Client.dump, h.isLeaf_at hs hq, h.child_at hs hq, h.label_at hs hq]
    have hl' : (l == 0) = false := beq_eq_false_iff_ne.2 hl
    simp only [ok_bind, hl', Bool.false_eq_true, if_false]
    have h1 := hn1 fuel (by omega) (p ++ [l])
    rw [Nat.add_zero] at h1
    rw [h1]
    simp only [ok_bind]
    have := hn fuel (by omega) p (L1.map (pre (p ++ [l])))
    rw [this, List.map_append, map_pre_map_pre]

theorem DawgIs.dump_state {d c r acc} (h : DawgIs d c r) (hf : FinalCore c r acc) {s g L} (hs : IsStart c.groups s g)
    (hd : DenG c.groups g L) : ∃ n, ∀ fuel, n ≤ fuel → Client.dump d fuel s [] = .ok L := by
  obtain ⟨n, hn⟩ := h.dump hf hd (j := 0) hs (by simp) (hf.cinv.ne _ hs.mem)
  refine ⟨n, fun fuel hfu => ?_⟩
  have := hn fuel hfu []
  rwa [map_pre_nil] at this

theorem DawgIs.dumpAll {d c r acc} (h : DawgIs d c r) (hf : FinalCore c r acc) :
    ∃ n, ∀ fuel, n ≤ fuel → Client.dumpAll d fuel = .ok acc := by
  rcases hf.den with ⟨rfl, h0, _⟩ | ⟨g, h1, h2⟩
  · refine ⟨0, fun fuel _ => ?_⟩
    unfold Client.dumpAll
    rw [show d.root = 0 from rfl, h.child_root hf]
    simp [h0]
  · obtain ⟨n, hn⟩ := h.dump_state hf h1 h2
    refine ⟨n, fun fuel hfu => ?_⟩
    have hr : r ≠ 0 := Nat.pos_iff_ne_zero.1 h1.pos
    unfold Client.dumpAll
    rw [show d.root = 0 from rfl, h.child_root hf]
    simp [hr, hn fuel hfu]

end Dawg.Abs
