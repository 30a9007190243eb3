import Verif.Proof.Guide.Build
/-! # The Completer -/
namespace Dawg.Guided
attribute [-simp] List.length_flatten
open Dawg.Abs Dawg.Spec Dawg.Dict

section
variable {D : Dictionary} {At : Nat → Lang → Prop} {kid : Nat → UInt8 → Nat} {clean : UInt8 → Prop} {gd : Guide}

/-- The stack of an enumeration started at `u0`: the units on the way to the key `k`, the language `L` of the
top one, and the list `R` of what comes after that language. -/
inductive Stk (kid : Nat → UInt8 → Nat) (u0 : Nat) (L0 : Lang) : List Nat → Key → Lang → Lang → Prop
  | base : Stk kid u0 L0 [u0] [] L0 []
  | push {u st k L R A l B} : Stk kid u0 L0 (u :: st) k L R → heads L = A ++ l :: B →
      Stk kid u0 L0 (kid u l :: u :: st) (k ++ [l]) (residual L [l]) ((under L B).map (pre k) ++ R)

theorem Stk.at (V : View D At kid clean) {u0 L0 st k L R} (h0 : At u0 L0) (h : Stk kid u0 L0 st k L R) : ∃ u st', st = u :: st' ∧ At u L := by
  induction h with
  | base => exact ⟨u0, [], rfl, h0⟩
  | push hs hL ih =>
    obtain ⟨u, st', h1, h2⟩ := ih
    simp only [List.cons.injEq] at h1
    obtain ⟨rfl, _⟩ := h1
    exact ⟨_, _, rfl, V.step h2 (by rw [hL]; simp)⟩

theorem setLast_append (p : Key) (x l : UInt8) : Completer.setLast (p ++ [x]) l = .ok (p ++ [l]) := by
  unfold Completer.setLast
  rw [wr_lt (by simp)]
  congr 1
  rw [List.length_append, List.length_singleton, Nat.add_sub_cancel, List.set_append_right _ _ (Nat.le_refl _)]
  simp

theorem Completer.follow_ok (V : View D At kid clean) {u L l} (h : At u L) (hl : l ∈ heads L) (p : Key) (x : UInt8) (st : List Nat) (last : Nat) :
    Completer.follow D ⟨p ++ [x], st, last⟩ l u = .ok (some (⟨p ++ [l] ++ [0], kid u l :: st, last⟩, kid u l)) := by
  simp only [Completer.follow, V.follow h hl, ok_bind, setLast_append, pure_eq_ok]

/-- `FindTerminal`. -/
theorem findTerminal_spec (V : View D At kid clean) (hg : GuideIs D At kid heads gd) {u0 L0} (h0 : At u0 L0) (P : Key) :
    ∀ (fuel : Nat) {u st k L R last}, Stk kid u0 L0 (u :: st) k L R → (∀ e ∈ L, e.1.length < fuel) →
    ∃ u' st' k' L' R' v, Completer.findTerminalLoop D gd fuel ⟨P ++ k ++ [0], u :: st, last⟩ u = .ok (⟨P ++ k' ++ [0], u' :: st', u'⟩, true) ∧
      Stk kid u0 L0 (u' :: st') k' L' R' ∧ D.value u' = .ok v ∧
      L.map (pre k) ++ R = (k', v) :: ((under L' (heads L')).map (pre k') ++ R') ∧ ((u' = u ∧ L' = L ∧ ∃ v, (([] : Key), v) ∈ L) ∨ u' ≠ 0) := by
  intro fuel
  induction fuel with
  | zero =>
    intro u st k L R last hs hfu
    obtain ⟨_, _, h1, h2⟩ := hs.at V h0
    obtain ⟨e, he⟩ := List.exists_mem_of_ne_nil _ (V.ne h2)
    exact absurd (hfu e he) (by omega)
  | succ fuel ih =>
    intro u st k L R last hs hfu
    obtain ⟨_, _, h1, h⟩ := hs.at V h0
    simp only [List.cons.injEq] at h1
    obtain ⟨rfl, rfl⟩ := h1
    rw [Completer.findTerminalLoop, V.hasValue h]
    simp only [ok_bind]
    rcases V.shape h with ⟨h1, h2⟩ | ⟨v, h1, h2⟩
    · -- no value here
      have hany : (L.any (fun e => e.1 == [])) = false := by
        rw [List.any_eq_false]
        intro e he hc
        exact h1 e he (by simpa using hc)
      rw [hany]
      simp only [Bool.false_eq_true, if_false, hg.child h, ok_bind]
      cases hh : heads L with
      | nil => rw [hh] at h2; exact absurd h2 (V.ne h)
      | cons l B =>
        have hl : l ∈ heads L := by rw [hh]; simp
        rw [List.headD_cons, Completer.follow_ok V h hl]
        simp only [ok_bind]
        obtain ⟨u', st', k', L', R', v, e1, e2, e3, e4, e5⟩ := ih (last := last) (Stk.push (A := []) hs hh) (by
          intro e he
          obtain ⟨e', he', h4, _⟩ := depth_lt he
          have := hfu e' he'
          rw [h4] at this
          simp only [List.length_cons] at this; omega)
        refine ⟨u', st', k', L', R', v, ?_, e2, e3, ?_, .inr ?_⟩
        · rw [← e1]; simp
        · rw [← e4]
          have h3 : L.map (pre k) = (under L (heads L)).map (pre k) := by rw [← h2]
          rw [h3, hh, under_cons, List.map_append, map_pre_map_pre, List.append_assoc]
        · rcases e5 with ⟨e5, _⟩ | e5
          · rw [e5]; exact V.kid_ne h (heads_arcs hl)
          · exact e5
    · have hmem : (([] : Key), v) ∈ L := by rw [h1]; simp
      have hany : (L.any (fun e => e.1 == [])) = true := List.any_eq_true.2 ⟨_, hmem, by simp⟩
      rw [hany]
      simp only [if_true, pure_eq_ok]
      refine ⟨u, st, k, L, R, v, rfl, hs, V.value h hmem, ?_, .inl ⟨rfl, rfl, v, hmem⟩⟩
      have h3 : L.map (pre k) = ((([] : Key), v) :: under L (heads L)).map (pre k) := by rw [← h1]
      rw [h3]
      simp [pre]

/-- Climbing to the next sibling. -/
theorem climb_spec (V : View D At kid clean) (hg : GuideIs D At kid heads gd) {u0 L0} (h0 : At u0 L0) (P : Key) {st k L R} (hs : Stk kid u0 L0 st k L R) :
    ∀ {u st'} (fuel : Nat) (last : Nat), st = u :: st' → st.length < fuel →
      (∃ c, Completer.climb D gd fuel ⟨P ++ k ++ [0], u :: st', last⟩ u = .ok (c, none) ∧ c.indexStack = [] ∧ R = []) ∨
      (∃ i st'' k' L' R', Completer.climb D gd fuel ⟨P ++ k ++ [0], u :: st', last⟩ u = .ok (⟨P ++ k' ++ [0], i :: st'', last⟩, some i) ∧
        Stk kid u0 L0 (i :: st'') k' L' R' ∧ R = L'.map (pre k') ++ R' ∧ i ≠ 0) := by
  induction hs with
  | base =>
    intro u st' fuel last hst hfu
    simp only [List.cons.injEq] at hst
    obtain ⟨rfl, rfl⟩ := hst
    left
    obtain ⟨fuel, rfl⟩ : ∃ n, fuel = n + 1 := ⟨fuel - 1, by omega⟩
    have hu : u0 < gd.units.length := by rw [hg.size]; exact V.lt h0
    have hsib : gd.sibling u0 = .ok (gd.units[u0]).sibling := by simp only [Guide.sibling, rd_lt hu, ok_bind, pure_eq_ok]
    rw [Completer.climb, hsib]
    simp only [ok_bind, List.append_nil]
    by_cases hP : P = []
    · subst hP
      simp only [List.nil_append, List.length_singleton]
      rw [if_neg (by omega)]
      simp only [pure_eq_ok, ok_bind]
      exact ⟨_, rfl, rfl, trivial⟩
    · obtain ⟨Q, x, rfl⟩ : ∃ Q x, P = Q ++ [x] := ⟨P.dropLast, P.getLast hP, (List.dropLast_concat_getLast hP).symm⟩
      rw [if_pos (by simp), List.dropLast_concat, setLast_append]
      simp only [ok_bind, pure_eq_ok]
      exact ⟨_, rfl, rfl, trivial⟩
  | @push v st k L R A l B hs hL ih =>
    intro u st' fuel last hst hfu
    simp only [List.cons.injEq] at hst
    obtain ⟨rfl, rfl⟩ := hst
    obtain ⟨fuel, rfl⟩ : ∃ n, fuel = n + 1 := ⟨fuel - 1, by omega⟩
    obtain ⟨_, _, h1, h⟩ := hs.at V h0
    simp only [List.cons.injEq] at h1
    obtain ⟨rfl, rfl⟩ := h1
    rw [Completer.climb, hg.sibling h hL]
    have hpath : (P ++ (k ++ [l]) ++ [0]).dropLast = P ++ k ++ [l] := by rw [List.dropLast_concat, List.append_assoc]
    simp only [ok_bind, hpath, setLast_append]
    rw [if_pos (by simp only [List.length_append, List.length_singleton]; omega)]
    cases B with
    | nil =>
      rw [List.headD_nil, if_neg (by simp)]
      have := ih fuel last rfl (by simp only [List.length_cons] at hfu ⊢; omega)
      simp only [under, List.flatMap_nil, List.map_nil, List.nil_append]
      exact this
    | cons m B =>
      have hm : m ∈ heads L := by rw [hL]; simp
      rw [List.headD_cons, if_pos (V.heads_ne_zero h hm), Completer.follow_ok V h hm]
      simp only [ok_bind, pure_eq_ok]
      right
      refine ⟨kid v m, v :: st, k ++ [m], residual L [m], (under L B).map (pre k) ++ R, by simp, ?_, ?_, V.kid_ne h (heads_arcs hm)⟩
      · exact Stk.push (A := A ++ [l]) hs (by rw [hL]; simp)
      · rw [under_cons, List.map_append, map_pre_map_pre, List.append_assoc]

/-- A completer between two calls of `Next`: `T` is still to be listed. -/
inductive Ready (D : Dictionary) (kid : Nat → UInt8 → Nat) (P : Key) (u0 : Nat) (L0 : Lang) : Completer → Lang → Prop
  | fresh : (u0 = 0 → ∀ v, (([] : Key), v) ∉ L0) → Ready D kid P u0 L0 ⟨P ++ [0], [u0], 0⟩ L0
  | after {u st k L R} : u ≠ 0 → Stk kid u0 L0 (u :: st) k L R → Ready D kid P u0 L0 ⟨P ++ k ++ [0], u :: st, u⟩ ((under L (heads L)).map (pre k) ++ R)

theorem next_spec (V : View D At kid clean) (hg : GuideIs D At kid heads gd) {u0 L0} (h0 : At u0 L0) {P : Key} {c T} (h : Ready D kid P u0 L0 c T) :
    (T = [] ∧ ∃ c', Completer.next D gd c = .ok (c', false) ∧ c'.indexStack = []) ∨
    (∃ k v T' c', T = (k, v) :: T' ∧ Completer.next D gd c = .ok (c', true) ∧ c'.key = P ++ k ++ [0] ∧ c'.value D = .ok v ∧ Ready D kid P u0 L0 c' T') := by
  have hdep : ∀ {u L}, At u L → ∀ e ∈ L, e.1.length < D.size + 1 := by
    intro u L h e he
    have := V.depth h e he; omega
  cases h with
  | fresh hne =>
    right
    obtain ⟨u', st', k', L', R', v, e1, e2, e3, e4, e5⟩ := findTerminal_spec V hg h0 P (D.size + 1) (last := 0) (Stk.base (kid := kid) (L0 := L0)) (hdep h0)
    rw [List.append_nil] at e1 e4
    rw [show (pre []) = id from funext pre_nil, List.map_id] at e4
    refine ⟨k', v, _, ⟨P ++ k' ++ [0], u' :: st', u'⟩, e4, ?_, rfl, e3, .after ?_ e2⟩
    · unfold Completer.next
      simp only
      rw [if_neg (by simp [Dictionary.root])]
      exact e1
    · rcases e5 with ⟨rfl, _, v', hv⟩ | e5
      · exact fun hc => hne hc v' hv
      · exact e5
  | @after u st k L R hu hs =>
    obtain ⟨_, _, h1, h⟩ := hs.at V h0
    simp only [List.cons.injEq] at h1
    obtain ⟨rfl, rfl⟩ := h1
    unfold Completer.next
    simp only
    rw [if_pos (by simpa [Dictionary.root] using hu), hg.child h]
    simp only [ok_bind]
    cases hh : heads L with
    | cons l B =>
      right
      have hl : l ∈ heads L := by rw [hh]; simp
      rw [List.headD_cons, if_pos (V.heads_ne_zero h hl), Completer.follow_ok V h hl]
      simp only [ok_bind]
      obtain ⟨u', st', k', L', R', v, e1, e2, e3, e4, e5⟩ := findTerminal_spec V hg h0 P (D.size + 1) (last := u) (Stk.push (A := []) hs hh) (hdep (V.step h hl))
      refine ⟨k', v, _, ⟨P ++ k' ++ [0], u' :: st', u'⟩, ?_, ?_, rfl, e3, .after ?_ e2⟩
      · rw [under_cons, List.map_append, map_pre_map_pre, List.append_assoc]
        exact e4
      · rw [List.append_assoc P k [l]]
        exact e1
      · rcases e5 with ⟨rfl, _⟩ | e5
        · exact V.kid_ne h (heads_arcs hl)
        · exact e5
    | nil =>
      rw [List.headD_nil, if_neg (by simp)]
      simp only [under, List.flatMap_nil, List.map_nil, List.nil_append]
      rcases climb_spec V hg h0 P hs ((u :: st).length + 1) u rfl (by omega) with ⟨c', e1, e2, e3⟩ | ⟨i, st'', k', L', R', e1, e2, e3, e4⟩
      · left
        rw [e1]
        exact ⟨e3, c', rfl, e2⟩
      · right
        rw [e1]
        simp only [ok_bind]
        obtain ⟨_, _, h3, h4⟩ := e2.at V h0
        simp only [List.cons.injEq] at h3
        obtain ⟨rfl, rfl⟩ := h3
        obtain ⟨u', st', k'', L'', R'', v, f1, f2, f3, f4, f5⟩ := findTerminal_spec V hg h0 P (D.size + 1) (last := u) e2 (hdep h4)
        refine ⟨k'', v, _, ⟨P ++ k'' ++ [0], u' :: st', u'⟩, by rw [e3]; exact f4, f1, rfl, f3, .after ?_ f2⟩
        rcases f5 with ⟨rfl, _⟩ | f5
        · exact e4
        · exact f5

end
end Dawg.Guided
