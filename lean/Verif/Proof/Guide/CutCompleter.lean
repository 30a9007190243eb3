import Verif.Proof.Guide.Cut
/-! # The Completer with a guide in which the terminal transition comes before others -/
namespace Dawg.Guided
attribute [-simp] List.length_flatten
open Dawg.Abs Dawg.Spec Dawg.Dict

/-- The pairs that are listed, to the depth `n`. -/
def listed (ord : Lang → List UInt8) : Nat → Lang → Lang
  | 0, _ => []
  | n + 1, L => L.filter (fun e => e.1 == []) ++ (cutOf ord L).flatMap (fun l => (listed ord n (residual L [l])).map (pre [l]))

section
variable {D : Dictionary} {At : Nat → Lang → Prop} {kid : Nat → UInt8 → Nat} {clean : UInt8 → Prop} {ord : Lang → List UInt8} {gd : Guide}

theorem mem_listed : ∀ (n : Nat) {L : Lang} {e : Entry}, e ∈ listed ord n L → e ∈ L
  | 0, _, _, h => by simp [listed] at h
  | n + 1, L, e, h => by
    unfold listed at h
    rcases List.mem_append.1 h with h | h
    · exact (List.mem_filter.1 h).1
    · obtain ⟨l, _, h⟩ := List.mem_flatMap.1 h
      obtain ⟨f, hf, rfl⟩ := List.mem_map.1 h
      have := mem_listed n hf
      rw [mem_residual] at this
      exact this

theorem View.here_filter (V : View D At kid clean) {u L} (h : At u L) : (L.filter (fun e => e.1 == [])).map (·.1) = if L.any (fun e => e.1 == []) then [[]] else [] := by
  rcases V.shape h with ⟨h1, h2⟩ | ⟨v, h1, h2⟩
  · have h3 : L.filter (fun e => e.1 == []) = [] := by
      rw [List.filter_eq_nil_iff]
      intro e he hc
      exact h1 e he (by simpa using hc)
    have h4 : (L.any (fun e => e.1 == [])) = false := by
      rw [List.any_eq_false]
      intro e he hc
      exact h1 e he (by simpa using hc)
    rw [h3, h4]; rfl
  · have h3 : (under L (heads L)).filter (fun e => e.1 == []) = [] := by
      rw [List.filter_eq_nil_iff]
      intro e he hc
      obtain ⟨l, _, he⟩ := List.mem_flatMap.1 he
      obtain ⟨f, _, rfl⟩ := List.mem_map.1 he
      simp [pre] at hc
    have hmem : (([] : Key), v) ∈ L := by rw [h1]; simp
    rw [List.any_eq_true.2 ⟨_, hmem, by simp⟩]
    have h4 : L.filter (fun e => e.1 == []) = ((([] : Key), v) :: under L (heads L)).filter (fun e => e.1 == []) := by rw [← h1]
    rw [h4, List.filter_cons_of_pos (by simp), h3]
    rfl

theorem listed_keys (V : View D At kid clean) (ho : OrdPerm At ord) : ∀ (n : Nat) {u L}, At u L → (listed ord n L).map (·.1) = findable ord n L
  | 0, _, _, _ => rfl
  | n + 1, u, L, h => by
    unfold listed findable
    rw [List.map_append, V.here_filter h, List.map_flatMap]
    congr 1
    rw [List.flatMap_def, List.flatMap_def]
    congr 1
    apply List.map_congr_left
    intro l hl
    rw [← listed_keys V ho n (V.step h (cut_heads ho h hl)), List.map_map, List.map_map]
    rfl

theorem listed_stable (V : View D At kid clean) (ho : OrdPerm At ord) : ∀ (n m : Nat) {u L}, At u L → (∀ e ∈ L, e.1.length < n) → (∀ e ∈ L, e.1.length < m) →
    listed ord n L = listed ord m L
  | 0, _, u, L, h, hn, _ => by
    obtain ⟨e, he⟩ := List.exists_mem_of_ne_nil _ (V.ne h)
    exact absurd (hn e he) (by omega)
  | _, 0, u, L, h, _, hm => by
    obtain ⟨e, he⟩ := List.exists_mem_of_ne_nil _ (V.ne h)
    exact absurd (hm e he) (by omega)
  | n + 1, m + 1, u, L, h, hn, hm => by
    unfold listed
    congr 1
    rw [List.flatMap_def, List.flatMap_def]
    congr 1
    apply List.map_congr_left
    intro l hl
    have hk := V.step h (cut_heads ho h hl)
    rw [listed_stable V ho n m hk]
    · intro e he
      obtain ⟨e', he', h4, _⟩ := depth_lt he
      have := hn e' he'
      rw [h4] at this
      simp only [List.length_cons] at this; omega
    · intro e he
      obtain ⟨e', he', h4, _⟩ := depth_lt he
      have := hm e' he'
      rw [h4] at this
      simp only [List.length_cons] at this; omega

/-- The pairs listed behind transitions. -/
def listedBehind (D : Dictionary) (ord : Lang → List UInt8) (L : Lang) (X : List UInt8) : Lang := X.flatMap (fun l => (listed ord (D.size + 1) (residual L [l])).map (pre [l]))

theorem listedBehind_cons (L : Lang) (l : UInt8) (X : List UInt8) :
    listedBehind D ord L (l :: X) = (listed ord (D.size + 1) (residual L [l])).map (pre [l]) ++ listedBehind D ord L X := by
  unfold listedBehind
  rw [List.flatMap_cons]

theorem listed_eq (V : View D At kid clean) (ho : OrdPerm At ord) {u L} (h : At u L) : listed ord (D.size + 1) L =
    L.filter (fun e => e.1 == []) ++ listedBehind D ord L (cutOf ord L) := by
  conv => lhs; rw [listed]
  congr 1
  unfold listedBehind
  rw [List.flatMap_def, List.flatMap_def]
  congr 1
  apply List.map_congr_left
  intro l hl
  have hk := V.step h (cut_heads ho h hl)
  rw [listed_stable V ho D.size (D.size + 1) hk (V.small hk) (fun e he => Nat.lt_succ_of_lt (V.small hk e he))]

/-- The stack of an enumeration started at `u0`: the units on the way to the key `k`, the language `L` of the top one, and the list `R` of what is listed after that language. -/
inductive CutStk (D : Dictionary) (kid : Nat → UInt8 → Nat) (ord : Lang → List UInt8) (u0 : Nat) (L0 : Lang) : List Nat → Key → Lang → Lang → Prop
  | base : CutStk D kid ord u0 L0 [u0] [] L0 []
  | push {u st k L R A l B} : CutStk D kid ord u0 L0 (u :: st) k L R → cutOf ord L = A ++ l :: B →
      CutStk D kid ord u0 L0 (kid u l :: u :: st) (k ++ [l]) (residual L [l]) ((listedBehind D ord L B).map (pre k) ++ R)

theorem CutStk.at (V : View D At kid clean) (ho : OrdPerm At ord) {u0 L0 st k L R} (h0 : At u0 L0) (h : CutStk D kid ord u0 L0 st k L R) : ∃ u st', st = u :: st' ∧ At u L := by
  induction h with
  | base => exact ⟨u0, [], rfl, h0⟩
  | push hs hL ih =>
    obtain ⟨u, st', h1, h2⟩ := ih
    simp only [List.cons.injEq] at h1
    obtain ⟨rfl, _⟩ := h1
    exact ⟨_, _, rfl, V.step h2 (cut_heads ho h2 (by rw [hL]; simp))⟩

theorem cut_child (hg : GuideIs D At kid ord gd) {u L} (h : At u L) : gd.child u = .ok ((cutOf ord L).headD 0) := by
  obtain ⟨Y, hord, hY⟩ := cut_tail ord L
  rw [hg.child h, hord]
  cases cutOf ord L with
  | nil => rw [List.nil_append, hY]; rfl
  | cons a X => rfl

theorem cut_sibling (hg : GuideIs D At kid ord gd) {u L A l B} (h : At u L) (hL : cutOf ord L = A ++ l :: B) : gd.sibling (kid u l) = .ok (B.headD 0) := by
  obtain ⟨Y, hord, hY⟩ := cut_tail ord L
  rw [hg.sibling (pre := A) (post := B ++ Y) h (by rw [hord, hL]; simp)]
  cases B with
  | nil => rw [List.nil_append, hY]; rfl
  | cons a X => rfl

/-- `FindTerminal`. -/
theorem cut_findTerminal (V : View D At kid clean) (hg : GuideIs D At kid ord gd) (ho : OrdPerm At ord) {u0 L0} (h0 : At u0 L0) (P : Key) :
    ∀ (fuel : Nat) {u st k L R last}, CutStk D kid ord u0 L0 (u :: st) k L R → (∀ e ∈ L, e.1.length < fuel) →
    ∃ u' st' k' L' R' v, Completer.findTerminalLoop D gd fuel ⟨P ++ k ++ [0], u :: st, last⟩ u = .ok (⟨P ++ k' ++ [0], u' :: st', u'⟩, true) ∧
      CutStk D kid ord u0 L0 (u' :: st') k' L' R' ∧ D.value u' = .ok v ∧
      (listed ord (D.size + 1) L).map (pre k) ++ R = (k', v) :: ((listedBehind D ord L' (cutOf ord L')).map (pre k') ++ R') ∧
      ((u' = u ∧ L' = L ∧ ∃ v, (([] : Key), v) ∈ L) ∨ u' ≠ 0) := by
  intro fuel
  induction fuel with
  | zero =>
    intro u st k L R last hs hfu
    obtain ⟨_, _, h1, h2⟩ := hs.at V ho h0
    obtain ⟨e, he⟩ := List.exists_mem_of_ne_nil _ (V.ne h2)
    exact absurd (hfu e he) (by omega)
  | succ fuel ih =>
    intro u st k L R last hs hfu
    obtain ⟨_, _, h1, h⟩ := hs.at V ho h0
    simp only [List.cons.injEq] at h1
    obtain ⟨rfl, rfl⟩ := h1
    rw [Completer.findTerminalLoop, V.hasValue h]
    simp only [ok_bind]
    by_cases hz : ∃ v, (([] : Key), v) ∈ L
    · obtain ⟨v, hmem⟩ := hz
      have hany : (L.any (fun e => e.1 == [])) = true := List.any_eq_true.2 ⟨_, hmem, by simp⟩
      rw [hany]
      simp only [if_true, pure_eq_ok]
      refine ⟨u, st, k, L, R, v, rfl, hs, V.value h hmem, ?_, .inl ⟨rfl, rfl, v, hmem⟩⟩
      have hone : L.filter (fun e => e.1 == []) = [([], v)] := by
        have h3 := V.here_filter h
        rw [hany, if_pos rfl] at h3
        have h4 : (([] : Key), v) ∈ L.filter (fun e => e.1 == []) := List.mem_filter.2 ⟨hmem, by simp⟩
        generalize L.filter (fun e => e.1 == []) = F at h3 h4
        obtain ⟨e, rfl, _⟩ := List.map_eq_singleton_iff.1 h3
        rw [List.mem_singleton.1 h4]
      rw [listed_eq V ho h, hone]
      simp [pre]
    · -- no value here
      have h1 : ∀ e ∈ L, e.1 ≠ [] := fun e he hc => hz ⟨e.2, hc ▸ he⟩
      have hany : (L.any (fun e => e.1 == [])) = false := by
        rw [List.any_eq_false]
        intro e he hc
        exact h1 e he (by simpa using hc)
      rw [hany]
      simp only [Bool.false_eq_true, if_false, cut_child hg h, ok_bind]
      cases hh : cutOf ord L with
      | nil =>
        obtain ⟨e, he⟩ := List.exists_mem_of_ne_nil _ (V.ne h)
        have hk := h1 e he
        obtain ⟨k', v⟩ := e
        cases k' with
        | nil => exact absurd rfl hk
        | cons b k' =>
          have hb : b ∈ heads L := mem_heads.2 (List.ne_nil_of_mem (a := (k', v)) (by rw [mem_residual]; exact he))
          have := cut_all V ho h h1 hb
          rw [hh] at this
          simp at this
      | cons l B =>
        have hl : l ∈ heads L := cut_heads ho h (by rw [hh]; simp)
        rw [List.headD_cons, Completer.follow_ok V h hl]
        simp only [ok_bind]
        obtain ⟨u', st', k', L', R', v, e1, e2, e3, e4, e5⟩ := ih (last := last) (CutStk.push (A := []) hs hh) (by
          intro e he
          obtain ⟨e', he', h4, _⟩ := depth_lt he
          have := hfu e' he'
          rw [h4] at this
          simp only [List.length_cons] at this; omega)
        refine ⟨u', st', k', L', R', v, ?_, e2, e3, ?_, .inr ?_⟩
        · rw [← e1]; simp
        · rw [← e4, listed_eq V ho h, hh, listedBehind_cons]
          have : L.filter (fun e => e.1 == []) = [] := by
            rw [List.filter_eq_nil_iff]
            intro e he hc
            exact h1 e he (by simpa using hc)
          rw [this, List.nil_append, List.map_append, map_pre_map_pre, List.append_assoc]
        · rcases e5 with ⟨e5, _⟩ | e5
          · rw [e5]; exact V.kid_ne h (heads_arcs hl)
          · exact e5

/-- Climbing to the next sibling. -/
theorem cut_climb (V : View D At kid clean) (hg : GuideIs D At kid ord gd) (ho : OrdPerm At ord) {u0 L0} (h0 : At u0 L0) (P : Key) {st k L R} (hs : CutStk D kid ord u0 L0 st k L R) :
    ∀ {u st'} (fuel : Nat) (last : Nat), st = u :: st' → st.length < fuel →
      (∃ c, Completer.climb D gd fuel ⟨P ++ k ++ [0], u :: st', last⟩ u = .ok (c, none) ∧ c.indexStack = [] ∧ R = []) ∨
      (∃ i st'' k' L' R', Completer.climb D gd fuel ⟨P ++ k ++ [0], u :: st', last⟩ u = .ok (⟨P ++ k' ++ [0], i :: st'', last⟩, some i) ∧
        CutStk D kid ord u0 L0 (i :: st'') k' L' R' ∧ R = (listed ord (D.size + 1) L').map (pre k') ++ R' ∧ i ≠ 0) := by
  induction hs with
  | base =>
    intro u st' fuel last hst hfu
    simp only [List.cons.injEq] at hst
    obtain ⟨rfl, rfl⟩ := hst
    left
    obtain ⟨fuel, rfl⟩ : ∃ n, fuel = n + 1 := ⟨fuel - 1, by omega⟩
    have hu : u0 < gd.units.length := by rw [hg.size]; exact V.lt h0
    have hsib : gd.sibling u0 = .ok (gd.units[u0]).sibling := by simp only [Guide.sibling, rd_lt hu, ok_bind, pure_eq_ok]
    rw [Completer.climb, hsib]
    simp only [ok_bind, List.append_nil]
    by_cases hP : P = []
    · subst hP
      simp only [List.nil_append, List.length_singleton]
      rw [if_neg (by omega)]
      simp only [pure_eq_ok, ok_bind]
      exact ⟨_, rfl, rfl, trivial⟩
    · obtain ⟨Q, x, rfl⟩ : ∃ Q x, P = Q ++ [x] := ⟨P.dropLast, P.getLast hP, (List.dropLast_concat_getLast hP).symm⟩
      rw [if_pos (by simp), List.dropLast_concat, setLast_append]
      simp only [ok_bind, pure_eq_ok]
      exact ⟨_, rfl, rfl, trivial⟩
  | @push v st k L R A l B hs hL ih =>
    intro u st' fuel last hst hfu
    simp only [List.cons.injEq] at hst
    obtain ⟨rfl, rfl⟩ := hst
    obtain ⟨fuel, rfl⟩ : ∃ n, fuel = n + 1 := ⟨fuel - 1, by omega⟩
    obtain ⟨_, _, h1, h⟩ := hs.at V ho h0
    simp only [List.cons.injEq] at h1
    obtain ⟨rfl, rfl⟩ := h1
    rw [Completer.climb, cut_sibling hg h hL]
    have hpath : (P ++ (k ++ [l]) ++ [0]).dropLast = P ++ k ++ [l] := by rw [List.dropLast_concat, List.append_assoc]
    simp only [ok_bind, hpath, setLast_append]
    rw [if_pos (by simp only [List.length_append, List.length_singleton]; omega)]
    cases B with
    | nil =>
      rw [List.headD_nil, if_neg (by simp)]
      have := ih fuel last rfl (by simp only [List.length_cons] at hfu ⊢; omega)
      simp only [listedBehind, List.flatMap_nil, List.map_nil, List.nil_append]
      exact this
    | cons m B =>
      have hm : m ∈ heads L := cut_heads ho h (by rw [hL]; simp)
      rw [List.headD_cons, if_pos (V.heads_ne_zero h hm), Completer.follow_ok V h hm]
      simp only [ok_bind, pure_eq_ok]
      right
      refine ⟨kid v m, v :: st, k ++ [m], residual L [m], (listedBehind D ord L B).map (pre k) ++ R, by simp, ?_, ?_, V.kid_ne h (heads_arcs hm)⟩
      · exact CutStk.push (A := A ++ [l]) hs (by rw [hL]; simp)
      · rw [listedBehind_cons, List.map_append, map_pre_map_pre, List.append_assoc]

/-- A completer between two calls of `Next`: `T` is still to be listed. -/
inductive CutReady (D : Dictionary) (kid : Nat → UInt8 → Nat) (ord : Lang → List UInt8) (P : Key) (u0 : Nat) (L0 : Lang) : Completer → Lang → Prop
  | fresh : (u0 = 0 → ∀ v, (([] : Key), v) ∉ L0) → CutReady D kid ord P u0 L0 ⟨P ++ [0], [u0], 0⟩ (listed ord (D.size + 1) L0)
  | after {u st k L R} : u ≠ 0 → CutStk D kid ord u0 L0 (u :: st) k L R →
      CutReady D kid ord P u0 L0 ⟨P ++ k ++ [0], u :: st, u⟩ ((listedBehind D ord L (cutOf ord L)).map (pre k) ++ R)

theorem cut_next (V : View D At kid clean) (hg : GuideIs D At kid ord gd) (ho : OrdPerm At ord) {u0 L0} (h0 : At u0 L0) {P : Key} {c T} (h : CutReady D kid ord P u0 L0 c T) :
    (T = [] ∧ ∃ c', Completer.next D gd c = .ok (c', false) ∧ c'.indexStack = []) ∨
    (∃ k v T' c', T = (k, v) :: T' ∧ Completer.next D gd c = .ok (c', true) ∧ c'.key = P ++ k ++ [0] ∧ c'.value D = .ok v ∧ CutReady D kid ord P u0 L0 c' T') := by
  have hdep : ∀ {u L}, At u L → ∀ e ∈ L, e.1.length < D.size + 1 := by
    intro u L h e he
    have := V.depth h e he; omega
  cases h with
  | fresh hne =>
    right
    obtain ⟨u', st', k', L', R', v, e1, e2, e3, e4, e5⟩ := cut_findTerminal V hg ho h0 P (D.size + 1) (last := 0) (CutStk.base (D := D) (kid := kid) (ord := ord) (L0 := L0)) (hdep h0)
    rw [List.append_nil] at e1 e4
    rw [show (pre []) = id from funext pre_nil, List.map_id] at e4
    refine ⟨k', v, _, ⟨P ++ k' ++ [0], u' :: st', u'⟩, e4, ?_, rfl, e3, .after ?_ e2⟩
    · unfold Completer.next
      simp only
      rw [if_neg (by simp [Dictionary.root])]
      exact e1
    · rcases e5 with ⟨rfl, _, v', hv⟩ | e5
      · exact fun hc => hne hc v' hv
      · exact e5
  | @after u st k L R hu hs =>
    obtain ⟨_, _, h1, h⟩ := hs.at V ho h0
    simp only [List.cons.injEq] at h1
    obtain ⟨rfl, rfl⟩ := h1
    unfold Completer.next
    simp only
    rw [if_pos (by simpa [Dictionary.root] using hu), cut_child hg h]
    simp only [ok_bind]
    cases hh : cutOf ord L with
    | cons l B =>
      right
      have hl : l ∈ heads L := cut_heads ho h (by rw [hh]; simp)
      rw [List.headD_cons, if_pos (V.heads_ne_zero h hl), Completer.follow_ok V h hl]
      simp only [ok_bind]
      obtain ⟨u', st', k', L', R', v, e1, e2, e3, e4, e5⟩ := cut_findTerminal V hg ho h0 P (D.size + 1) (last := u) (CutStk.push (A := []) hs hh) (hdep (V.step h hl))
      refine ⟨k', v, _, ⟨P ++ k' ++ [0], u' :: st', u'⟩, ?_, ?_, rfl, e3, .after ?_ e2⟩
      · rw [listedBehind_cons, List.map_append, map_pre_map_pre, List.append_assoc]
        exact e4
      · rw [List.append_assoc P k [l]]
        exact e1
      · rcases e5 with ⟨rfl, _⟩ | e5
        · exact V.kid_ne h (heads_arcs hl)
        · exact e5
    | nil =>
      rw [List.headD_nil, if_neg (by simp)]
      simp only [listedBehind, List.flatMap_nil, List.map_nil, List.nil_append]
      rcases cut_climb V hg ho h0 P hs ((u :: st).length + 1) u rfl (by omega) with ⟨c', e1, e2, e3⟩ | ⟨i, st'', k', L', R', e1, e2, e3, e4⟩
      · left
        rw [e1]
        exact ⟨e3, c', rfl, e2⟩
      · right
        rw [e1]
        simp only [ok_bind]
        obtain ⟨_, _, h3, h4⟩ := e2.at V ho h0
        simp only [List.cons.injEq] at h3
        obtain ⟨rfl, rfl⟩ := h3
        obtain ⟨u', st', k'', L'', R'', v, f1, f2, f3, f4, f5⟩ := cut_findTerminal V hg ho h0 P (D.size + 1) (last := u) e2 (hdep h4)
        refine ⟨k'', v, _, ⟨P ++ k'' ++ [0], u' :: st', u'⟩, by rw [e3]; exact f4, f1, rfl, f3, .after ?_ f2⟩
        rcases f5 with ⟨rfl, _⟩ | f5
        · exact e4
        · exact f5

end
end Dawg.Guided
