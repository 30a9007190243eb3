import Verif.Model.Steps
import Verif.Proof.Guide.Completer
/-! # How many transitions a completer follows -/
namespace Dawg.Guided
attribute [-simp] List.length_flatten
open Dawg.Abs Dawg.Spec Dawg.Dict

/-! ## The counts change nothing -/

theorem findTerminalLoopN_fst (D : Dictionary) (gd : Guide) : ∀ (fuel : Nat) (c : Completer) (i : Nat),
    (Completer.findTerminalLoopN D gd fuel c i).map (·.1) = Completer.findTerminalLoop D gd fuel c i
  | 0, _, _ => rfl
  | fuel + 1, c, i => by
    unfold Completer.findTerminalLoopN Completer.findTerminalLoop
    cases h1 : D.hasValue i with
    | error e => rfl
    | ok b =>
      cases b with
      | true => rfl
      | false =>
        simp only [ok_bind, Bool.false_eq_true, if_false]
        cases h2 : gd.child i with
        | error e => rfl
        | ok l =>
          simp only [ok_bind]
          cases h3 : Completer.follow D c l i with
          | error e => rfl
          | ok o =>
            cases o with
            | none => rfl
            | some x =>
              simp only [ok_bind]
              rw [← findTerminalLoopN_fst D gd fuel x.1 x.2]
              cases Completer.findTerminalLoopN D gd fuel x.1 x.2 <;> rfl

theorem climbN_fst (D : Dictionary) (gd : Guide) : ∀ (fuel : Nat) (c : Completer) (i : Nat), (Completer.climbN D gd fuel c i).map (·.1) = Completer.climb D gd fuel c i
  | 0, _, _ => rfl
  | fuel + 1, c, i => by
    unfold Completer.climbN Completer.climb
    cases h1 : gd.sibling i with
    | error e => rfl
    | ok sl =>
      simp only [ok_bind]
      by_cases hp : c.path.length > 1
      · rw [if_pos hp, if_pos hp]
        cases h2 : Completer.setLast c.path.dropLast 0 with
        | error e => rfl
        | ok p =>
        simp only [ok_bind]
        cases h3 : c.indexStack with
        | nil => rfl
        | cons u st =>
          simp only
          cases st with
          | nil => rfl
          | cons j st =>
            simp only
            by_cases hs : sl ≠ 0
            · rw [if_pos hs, if_pos hs]
              cases Completer.follow D { c with path := p, indexStack := j :: st } sl j with
              | error e => rfl
              | ok o => cases o <;> rfl
            · rw [if_neg hs, if_neg hs, ← climbN_fst D gd fuel]
              cases Completer.climbN D gd fuel { c with path := p, indexStack := j :: st } j <;> rfl
      · rw [if_neg hp, if_neg hp]
        simp only [pure_eq_ok, ok_bind]
        cases h3 : c.indexStack with
        | nil => rfl
        | cons u st =>
          simp only
          cases st with
          | nil => rfl
          | cons j st =>
            simp only
            by_cases hs : sl ≠ 0
            · rw [if_pos hs, if_pos hs]
              cases Completer.follow D { c with path := c.path, indexStack := j :: st } sl j with
              | error e => rfl
              | ok o => cases o <;> rfl
            · rw [if_neg hs, if_neg hs, ← climbN_fst D gd fuel]
              cases Completer.climbN D gd fuel { c with path := c.path, indexStack := j :: st } j <;> rfl

theorem nextC_fst (D : Dictionary) (gd : Guide) (c : Completer) : (Completer.nextC D gd c).map (·.1) = Completer.next D gd c := by
  unfold Completer.nextC Completer.next Completer.findTerminal
  cases c.indexStack with
  | nil => rfl
  | cons i st =>
    simp only
    by_cases hr : c.lastIndex ≠ D.root
    · rw [if_pos hr, if_pos hr]
      cases gd.child i with
      | error e => rfl
      | ok l =>
        simp only [ok_bind]
        by_cases hl : l ≠ 0
        · rw [if_pos hl, if_pos hl]
          cases Completer.follow D c l i with
          | error e => rfl
          | ok o =>
            cases o with
            | none => rfl
            | some x =>
              simp only [ok_bind]
              rw [← findTerminalLoopN_fst]
              cases Completer.findTerminalLoopN D gd (D.size + 1) x.1 x.2 <;> rfl
        · rw [if_neg hl, if_neg hl, ← climbN_fst]
          cases Completer.climbN D gd ((i :: st).length + 1) c i with
          | error e => rfl
          | ok x =>
            obtain ⟨⟨c1, o⟩, n, m⟩ := x
            cases o with
            | none => rfl
            | some j =>
              simp only [ok_bind, Except.map]
              rw [← findTerminalLoopN_fst]
              cases Completer.findTerminalLoopN D gd (D.size + 1) c1 j <;> rfl
    · rw [if_neg hr, if_neg hr, ← findTerminalLoopN_fst]
      cases Completer.findTerminalLoopN D gd (D.size + 1) c i <;> rfl

/-! ## Prefixes of one key that are not prefixes of another -/

theorem fresh_prefixes {k a b : Key} (ha : a <+: k) (hb : ∀ m t, b = m :: t → ¬ (a ++ [m]) <+: k) : HasCard (fun x => x <+: a ++ b ∧ ¬ x <+: k) b.length := by
  refine ⟨(List.range b.length).map (fun i => a ++ b.take (i + 1)), ?_, ?_, by simp⟩
  · unfold List.Nodup
    rw [List.pairwise_map]
    refine List.Pairwise.imp_of_mem ?_ (List.nodup_range (n := b.length))
    intro i j hi hj hij he
    have h := List.append_cancel_left he
    have := congrArg List.length h
    rw [List.length_take, List.length_take] at this
    have := List.mem_range.1 hi
    have := List.mem_range.1 hj
    omega
  · intro x
    rw [List.mem_map]
    constructor
    · rintro ⟨i, hi, rfl⟩
      refine ⟨(List.prefix_append_right_inj a).2 (List.take_prefix _ _), fun hc => ?_⟩
      cases b with
      | nil => simp at hi
      | cons m t =>
        refine hb m t rfl (List.IsPrefix.trans ?_ hc)
        refine (List.prefix_append_right_inj a).2 ?_
        rw [List.take_succ_cons]
        exact ⟨_, rfl⟩
    · rintro ⟨h1, h2⟩
      rcases List.prefix_or_prefix_of_prefix h1 (List.prefix_append a b) with h3 | ⟨t, rfl⟩
      · exact absurd (h3.trans ha) h2
      · have h3 := (List.prefix_append_right_inj a).1 h1
        have hle := h3.length_le
        have hne : t ≠ [] := by
          rintro rfl
          exact h2 (by simpa using ha)
        have := List.length_pos_iff.2 hne
        refine ⟨t.length - 1, List.mem_range.2 (by omega), ?_⟩
        rw [show t.length - 1 + 1 = t.length by omega, ← List.prefix_iff_eq_take.1 h3]

/-! ## What is followed -/

section
variable {D : Dictionary} {At : Nat → Lang → Prop} {kid : Nat → UInt8 → Nat} {clean : UInt8 → Prop} {gd : Guide}

/-- `FindTerminal` follows one transition for each byte that is added. -/
theorem findTerminalN_spec (V : View D At kid clean) (hg : GuideIs D At kid heads gd) {u0 L0} (h0 : At u0 L0) (P : Key) :
    ∀ (fuel : Nat) {u st k L R last}, Stk kid u0 L0 (u :: st) k L R → (∀ e ∈ L, e.1.length < fuel) →
    ∃ u' st' b L' R' v, Completer.findTerminalLoopN D gd fuel ⟨P ++ k ++ [0], u :: st, last⟩ u = .ok ((⟨P ++ (k ++ b) ++ [0], u' :: st', u'⟩, true), b.length) ∧
      Stk kid u0 L0 (u' :: st') (k ++ b) L' R' ∧ D.value u' = .ok v ∧ st'.length = st.length + b.length ∧
      L.map (pre k) ++ R = (k ++ b, v) :: ((under L' (heads L')).map (pre (k ++ b)) ++ R') ∧ ((u' = u ∧ L' = L ∧ ∃ v, (([] : Key), v) ∈ L) ∨ u' ≠ 0) := by
  intro fuel
  induction fuel with
  | zero =>
    intro u st k L R last hs hfu
    obtain ⟨_, _, h1, h2⟩ := hs.at V h0
    obtain ⟨e, he⟩ := List.exists_mem_of_ne_nil _ (V.ne h2)
    exact absurd (hfu e he) (by omega)
  | succ fuel ih =>
    intro u st k L R last hs hfu
    obtain ⟨_, _, h1, h⟩ := hs.at V h0
    simp only [List.cons.injEq] at h1
    obtain ⟨rfl, rfl⟩ := h1
    rw [Completer.findTerminalLoopN, V.hasValue h]
    simp only [ok_bind]
    rcases V.shape h with ⟨h1, h2⟩ | ⟨v, h1, h2⟩
    · have hany : (L.any (fun e => e.1 == [])) = false := by
        rw [List.any_eq_false]
        intro e he hc
        exact h1 e he (by simpa using hc)
      rw [hany]
      simp only [Bool.false_eq_true, if_false, hg.child h, ok_bind]
      cases hh : heads L with
      | nil => rw [hh] at h2; exact absurd h2 (V.ne h)
      | cons l B =>
        have hl : l ∈ heads L := by rw [hh]; simp
        rw [List.headD_cons, Completer.follow_ok V h hl]
        simp only [ok_bind]
        obtain ⟨u', st', b, L', R', v, e1, e2, e3, e6, e4, e5⟩ := ih (last := last) (Stk.push (A := []) hs hh) (by
          intro e he
          obtain ⟨e', he', h4, _⟩ := depth_lt he
          have := hfu e' he'
          rw [h4] at this
          simp only [List.length_cons] at this; omega)
        have hk : k ++ [l] ++ b = k ++ l :: b := by simp
        rw [hk] at e1 e2 e4
        refine ⟨u', st', l :: b, L', R', v, ?_, e2, e3, ?_, ?_, .inr ?_⟩
        · rw [show P ++ k ++ [l] ++ [0] = P ++ (k ++ [l]) ++ [0] by simp, e1]
          rfl
        · rw [e6]
          simp only [List.length_cons]
          omega
        · rw [← e4]
          have h3 : L.map (pre k) = (under L (heads L)).map (pre k) := by rw [← h2]
          rw [h3, hh, under_cons, List.map_append, map_pre_map_pre, List.append_assoc]
        · rcases e5 with ⟨e5, _⟩ | e5
          · rw [e5]; exact V.kid_ne h (heads_arcs hl)
          · exact e5
    · have hmem : (([] : Key), v) ∈ L := by rw [h1]; simp
      have hany : (L.any (fun e => e.1 == [])) = true := List.any_eq_true.2 ⟨_, hmem, by simp⟩
      rw [hany]
      simp only [if_true, pure_eq_ok]
      refine ⟨u, st, [], L, R, v, by simp, by simpa using hs, V.value h hmem, by simp, ?_, .inl ⟨rfl, rfl, v, hmem⟩⟩
      have h3 : L.map (pre k) = ((([] : Key), v) :: under L (heads L)).map (pre k) := by rw [← h1]
      rw [h3]
      simp [pre]

/-- Climbing follows one transition, to a sibling of a node on the way to the last key. -/
theorem climbN_spec (V : View D At kid clean) (hg : GuideIs D At kid heads gd) {u0 L0} (h0 : At u0 L0) (P : Key) {st k L R} (hs : Stk kid u0 L0 st k L R) :
    ∀ {u st'} (fuel : Nat) (last : Nat), st = u :: st' → st.length < fuel →
      (∃ c, Completer.climbN D gd fuel ⟨P ++ k ++ [0], u :: st', last⟩ u = .ok ((c, none), 0, st.length) ∧ c.indexStack = [] ∧ R = []) ∨
      (∃ i st'' a l b m L' R' r, Completer.climbN D gd fuel ⟨P ++ k ++ [0], u :: st', last⟩ u = .ok ((⟨P ++ (a ++ [m]) ++ [0], i :: st'', last⟩, some i), 1, r) ∧
        Stk kid u0 L0 (i :: st'') (a ++ [m]) L' R' ∧ R = L'.map (pre (a ++ [m])) ++ R' ∧ i ≠ 0 ∧ k = a ++ l :: b ∧ l ≠ m ∧ st''.length + r = st.length) := by
  induction hs with
  | base =>
    intro u st' fuel last hst hfu
    simp only [List.cons.injEq] at hst
    obtain ⟨rfl, rfl⟩ := hst
    left
    obtain ⟨fuel, rfl⟩ : ∃ n, fuel = n + 1 := ⟨fuel - 1, by omega⟩
    have hu : u0 < gd.units.length := by rw [hg.size]; exact V.lt h0
    have hsib : gd.sibling u0 = .ok (gd.units[u0]).sibling := by simp only [Guide.sibling, rd_lt hu, ok_bind, pure_eq_ok]
    rw [Completer.climbN, hsib]
    simp only [ok_bind, List.append_nil]
    by_cases hP : P = []
    · subst hP
      simp only [List.nil_append, List.length_singleton]
      rw [if_neg (by omega)]
      simp only [pure_eq_ok, ok_bind]
      exact ⟨_, rfl, rfl, trivial⟩
    · obtain ⟨Q, x, rfl⟩ : ∃ Q x, P = Q ++ [x] := ⟨P.dropLast, P.getLast hP, (List.dropLast_concat_getLast hP).symm⟩
      rw [if_pos (by simp), List.dropLast_concat, setLast_append]
      simp only [ok_bind, pure_eq_ok]
      exact ⟨_, rfl, rfl, trivial⟩
  | @push v st k L R A l B hs hL ih =>
    intro u st' fuel last hst hfu
    simp only [List.cons.injEq] at hst
    obtain ⟨rfl, rfl⟩ := hst
    obtain ⟨fuel, rfl⟩ : ∃ n, fuel = n + 1 := ⟨fuel - 1, by omega⟩
    obtain ⟨_, _, h1, h⟩ := hs.at V h0
    simp only [List.cons.injEq] at h1
    obtain ⟨rfl, rfl⟩ := h1
    rw [Completer.climbN, hg.sibling h hL]
    have hpath : (P ++ (k ++ [l]) ++ [0]).dropLast = P ++ k ++ [l] := by rw [List.dropLast_concat, List.append_assoc]
    simp only [ok_bind, hpath, setLast_append]
    rw [if_pos (by simp only [List.length_append, List.length_singleton]; omega)]
    cases B with
    | nil =>
      rw [List.headD_nil, if_neg (by simp)]
      have := ih fuel last rfl (by simp only [List.length_cons] at hfu ⊢; omega)
      simp only [under, List.flatMap_nil, List.map_nil, List.nil_append]
      rcases this with ⟨c, e1, e2, e3⟩ | ⟨i, st'', a, l', b, m, L', R', r, e1, e2, e3, e4, e5, e6, e7⟩
      · left
        rw [e1]
        exact ⟨c, rfl, e2, e3⟩
      · right
        rw [e1]
        refine ⟨i, st'', a, l', b ++ [l], m, L', R', r + 1, rfl, e2, e3, e4, by rw [e5]; simp, e6, ?_⟩
        simp only [List.length_cons] at e7 ⊢
        omega
    | cons m B =>
      have hm : m ∈ heads L := by rw [hL]; simp
      have hlm : l ≠ m := by
        rintro rfl
        have hn := (List.nodup_range (n := 256))
        have : (heads L).Nodup := heads_nodup L
        rw [hL] at this
        simp [List.nodup_append, List.nodup_cons] at this
      rw [List.headD_cons, if_pos (V.heads_ne_zero h hm), Completer.follow_ok V h hm]
      simp only [ok_bind, pure_eq_ok]
      right
      refine ⟨kid v m, v :: st, k, l, [], m, residual L [m], (under L B).map (pre k) ++ R, 1, by simp, ?_, ?_, V.kid_ne h (heads_arcs hm), rfl, hlm, by simp⟩
      · exact Stk.push (A := A ++ [l]) hs (by rw [hL]; simp)
      · rw [under_cons, List.map_append, map_pre_map_pre, List.append_assoc]

/-- A completer between two calls of `Next`, with the last key `k`: `T` is still to be listed. -/
inductive ReadyAt (D : Dictionary) (kid : Nat → UInt8 → Nat) (P : Key) (u0 : Nat) (L0 : Lang) : Completer → Key → Lang → Prop
  | fresh : (u0 = 0 → ∀ v, (([] : Key), v) ∉ L0) → ReadyAt D kid P u0 L0 ⟨P ++ [0], [u0], 0⟩ [] L0
  | after {u st k L R} : u ≠ 0 → Stk kid u0 L0 (u :: st) k L R → ReadyAt D kid P u0 L0 ⟨P ++ k ++ [0], u :: st, u⟩ k ((under L (heads L)).map (pre k) ++ R)

theorem nextC_spec (V : View D At kid clean) (hg : GuideIs D At kid heads gd) {u0 L0} (h0 : At u0 L0) {P : Key} {c k T} (h : ReadyAt D kid P u0 L0 c k T) :
    (T = [] ∧ ∃ c', Completer.nextC D gd c = .ok ((c', false), 0, c.indexStack.length) ∧ c'.indexStack = []) ∨
    (∃ k' v T' c' f r, T = (k', v) :: T' ∧ Completer.nextC D gd c = .ok ((c', true), f, r) ∧ c'.key = P ++ k' ++ [0] ∧ c'.value D = .ok v ∧ ReadyAt D kid P u0 L0 c' k' T' ∧
      HasCard (fun x => x <+: k' ∧ ¬ x <+: k) f ∧ c'.indexStack.length + r = c.indexStack.length + f) := by
  have hdep : ∀ {u L}, At u L → ∀ e ∈ L, e.1.length < D.size + 1 := by
    intro u L h e he
    have := V.depth h e he; omega
  cases h with
  | fresh hne =>
    right
    obtain ⟨u', st', b, L', R', v, e1, e2, e3, e6, e4, e5⟩ := findTerminalN_spec V hg h0 P (D.size + 1) (last := 0) (Stk.base (kid := kid) (L0 := L0)) (hdep h0)
    rw [List.append_nil] at e1 e4
    rw [List.nil_append] at e1 e2 e4
    rw [show (pre []) = id from funext pre_nil, List.map_id] at e4
    refine ⟨b, v, _, ⟨P ++ b ++ [0], u' :: st', u'⟩, b.length, 0, e4, ?_, rfl, e3, .after ?_ e2, fresh_prefixes (a := []) (by simp) (by simp), by simp [e6]; omega⟩
    · unfold Completer.nextC
      simp only
      rw [if_neg (by simp [Dictionary.root]), e1]
      rfl
    · rcases e5 with ⟨rfl, _, v', hv⟩ | e5
      · exact fun hc => hne hc v' hv
      · exact e5
  | @after u st k L R hu hs =>
    obtain ⟨_, _, h1, h⟩ := hs.at V h0
    simp only [List.cons.injEq] at h1
    obtain ⟨rfl, rfl⟩ := h1
    unfold Completer.nextC
    simp only
    rw [if_pos (by simpa [Dictionary.root] using hu), hg.child h]
    simp only [ok_bind]
    cases hh : heads L with
    | cons l B =>
      right
      have hl : l ∈ heads L := by rw [hh]; simp
      rw [List.headD_cons, if_pos (V.heads_ne_zero h hl), Completer.follow_ok V h hl]
      simp only [ok_bind]
      obtain ⟨u', st', b, L', R', v, e1, e2, e3, e6, e4, e5⟩ := findTerminalN_spec V hg h0 P (D.size + 1) (last := u) (Stk.push (A := []) hs hh) (hdep (V.step h hl))
      have hk : k ++ [l] ++ b = k ++ l :: b := by simp
      rw [hk] at e1 e2 e4
      refine ⟨k ++ l :: b, v, _, ⟨P ++ (k ++ l :: b) ++ [0], u' :: st', u'⟩, b.length + 1, 0, ?_, ?_, rfl, e3, .after ?_ e2, ?_, ?_⟩
      · rw [under_cons, List.map_append, map_pre_map_pre, List.append_assoc]
        exact e4
      · rw [List.append_assoc P k [l], e1]
        rfl
      · rcases e5 with ⟨rfl, _⟩ | e5
        · exact V.kid_ne h (heads_arcs hl)
        · exact e5
      · exact fresh_prefixes (a := k) (b := l :: b) List.prefix_rfl (fun m t _ hc => by have := hc.length_le; simp at this; omega)
      · simp [e6]; omega
    | nil =>
      rw [List.headD_nil, if_neg (by simp)]
      simp only [under, List.flatMap_nil, List.map_nil, List.nil_append]
      rcases climbN_spec V hg h0 P hs ((u :: st).length + 1) u rfl (by omega) with ⟨c', e1, e2, e3⟩ | ⟨i, st'', a, l, b, m, L', R', r, e1, e2, e3, e4, e5, e6, e7⟩
      · left
        rw [e1]
        exact ⟨e3, c', rfl, e2⟩
      · right
        rw [e1]
        simp only [ok_bind]
        obtain ⟨_, _, h3, h4⟩ := e2.at V h0
        simp only [List.cons.injEq] at h3
        obtain ⟨rfl, rfl⟩ := h3
        obtain ⟨u', st', b', L'', R'', v, f1, f2, f3, f6, f4, f5⟩ := findTerminalN_spec V hg h0 P (D.size + 1) (last := u) e2 (hdep h4)
        have hk : a ++ [m] ++ b' = a ++ m :: b' := by simp
        rw [hk] at f1 f2 f4
        refine ⟨a ++ m :: b', v, _, ⟨P ++ (a ++ m :: b') ++ [0], u' :: st', u'⟩, 1 + b'.length, r, by rw [e3]; exact f4, by rw [f1]; rfl, rfl, f3, .after ?_ f2, ?_, ?_⟩
        · rcases f5 with ⟨rfl, _⟩ | f5
          · exact e4
          · exact f5
        · have := fresh_prefixes (k := k) (a := a) (b := m :: b') (by rw [e5]; exact ⟨_, rfl⟩) (by
            intro m' t hm hc
            cases hm
            rw [e5, List.prefix_append_right_inj] at hc
            simp only [List.cons_prefix_cons] at hc
            exact e6 hc.1.symm)
          rw [List.length_cons] at this
          rwa [Nat.add_comm]
        · simp only [List.length_cons] at e7 ⊢
          rw [f6]
          omega

end
end Dawg.Guided
