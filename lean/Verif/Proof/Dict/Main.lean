import Verif.Proof.Dict.Sem
import Verif.Proof.Lookup
/-! # Building and asking a dictionary -/
namespace Dawg.Dict
attribute [-simp] List.length_flatten
open Dawg.Abs Dawg.Spec Dawg.Client

theorem build_of_unused {d : Dawg} {res : Option (Dictionary × Nat)} (h : d.buildWithUnused = .ok res) : d.build = .ok (res.map Prod.fst) := by
  unfold Dawg.buildWithUnused at h
  unfold Dawg.build
  cases hb : DictBuilder.buildDictionary d with
  | error e => rw [hb] at h; cases h
  | ok x =>
    rw [hb] at h
    obtain ⟨db, ok⟩ := x
    simp only [ok_bind, pure_eq_ok, Except.ok.injEq] at h ⊢
    rw [← h]
    cases ok <;> rfl

theorem stored_lt (v : Int) : stored v < 2147483648 := by unfold stored; omega

/-- Total size of the keys, with one byte per key for the terminator. -/
theorem msize_eq (acc : List (Key × Int)) : msize (acc.map wordE) = (acc.map (fun e => e.1.length + 1)).sum := by
  simp [msize, Function.comp_def, wordE]

/-- The dictionary of a history of insertions. -/
theorem dict_spec (n : Nat) (h1 : 1 ≤ n) (h2 : n < 4294967296) (hist : List (Key × Int)) (hadm : Admissible hist) :
    ∃ d c r, Client.build n hist = .ok (verdicts [] hist, spent n, d) ∧ DawgIs d c r ∧ FinalCore c r ((accepted hist).map wordE) ∧
      ((∃ db, DictBuilder.buildDictionary d = .ok (db, false) ∧ db.units.length = 536870912 ∧ d.buildWithUnused = .ok none ∧
          2097152 ≤ ((accepted hist).map (fun e => e.1.length + 1)).sum) ∨
       (∃ D num, d.buildWithUnused = .ok (some (D, num)) ∧ Built c r ((accepted hist).map wordE) D.units num)) := by
  obtain ⟨d, e1, e2, e3⟩ := build_spec n h1 h2 hist hadm
  refine ⟨d, _, _, e1, e2, e3, ?_⟩
  rcases buildDictionary_spec e2 e3 (by
    intro e he
    obtain ⟨x, _, rfl⟩ := List.mem_map.1 he
    exact stored_lt _) with ⟨db, a1, a2, a3⟩ | ⟨db, a1, a2⟩
  · left
    refine ⟨db, a1, a2, ?_, by rw [msize_eq] at a3; exact a3⟩
    simp [Dawg.buildWithUnused, a1, ok_bind]
  · right
    refine ⟨⟨db.units⟩, db.numOfUnusedUnits, ?_, a2⟩
    simp [Dawg.buildWithUnused, a1, ok_bind]

/-- For a build that returned a dictionary. -/
theorem dict_built {n : Nat} (h1 : 1 ≤ n) (h2 : n < 4294967296) {hist : List (Key × Int)} (hadm : Admissible hist) {oks b d D num}
    (hb : Client.build n hist = .ok (oks, b, d)) (hD : d.buildWithUnused = .ok (some (D, num))) :
    ∃ c r, DawgIs d c r ∧ FinalCore c r ((accepted hist).map wordE) ∧ Built c r ((accepted hist).map wordE) D.units num := by
  obtain ⟨d', c, r, e1, e2, e3, e4⟩ := dict_spec n h1 h2 hist hadm
  rw [hb] at e1
  simp only [Except.ok.injEq, Prod.mk.injEq] at e1
  obtain ⟨_, _, rfl⟩ := e1
  refine ⟨c, r, e2, e3, ?_⟩
  rcases e4 with ⟨_, _, _, e5, _⟩ | ⟨D', num', e5, e6⟩
  · rw [hD] at e5; cases e5
  · rw [hD] at e5
    simp only [Except.ok.injEq, Option.some.injEq, Prod.mk.injEq] at e5
    obtain ⟨rfl, rfl⟩ := e5
    exact e6

theorem unused_of_build {d : Dawg} {D} (h : d.build = .ok (some D)) : ∃ num, d.buildWithUnused = .ok (some (D, num)) := by
  unfold Dawg.build at h
  unfold Dawg.buildWithUnused
  cases hb : DictBuilder.buildDictionary d with
  | error e => rw [hb] at h; cases h
  | ok x =>
    rw [hb] at h
    obtain ⟨db, ok⟩ := x
    simp only [ok_bind, pure_eq_ok, Except.ok.injEq] at h ⊢
    cases ok with
    | false => simp at h
    | true =>
      simp only [if_true, Option.some.injEq] at h
      exact ⟨db.numOfUnusedUnits, by rw [if_pos rfl, h]⟩

theorem dict_sem {n : Nat} (h1 : 1 ≤ n) (h2 : n < 4294967296) {hist : List (Key × Int)} (hadm : Admissible hist) {oks b d D num}
    (hb : Client.build n hist = .ok (oks, b, d)) (hD : d.buildWithUnused = .ok (some (D, num))) (hne : accepted hist ≠ []) :
    ∃ c r B G, DawgIs d c r ∧ DSem c r ((accepted hist).map wordE) D B G num := by
  obtain ⟨c, r, e1, e2, ⟨B, G, pend, e3, e4, _, e5, e6, _⟩⟩ := dict_built h1 h2 hadm hb hD
  rcases e6 with ⟨e6, _⟩ | ⟨_, rfl⟩
  · simp at e6; exact absurd e6 hne
  · refine ⟨c, r, B, G, e1, e3, e4, e5, e2, ?_⟩
    intro e he
    obtain ⟨x, _, rfl⟩ := List.mem_map.1 he
    exact stored_lt _

/-! ## The empty dictionary -/

/-- Look-ups in the dictionary without keys. -/
theorem empty_follow {c : Core} {r : Nat} {D : Dictionary} {num : Nat} (h : Built c r [] D.units num) :
    D.units.length = 256 ∧ num = 255 ∧ (∀ u, u < 256 → D.hasValue u = .ok false) ∧
      (∀ l u, u < 256 → ∃ res, D.follow l u = .ok res ∧ ∀ v, res = some v → v < 256) := by
  obtain ⟨B, G, pend, e1, e2, e3, e4, e5, _⟩ := h
  have hB : B = 1 := by simp [msize] at e3; omega
  subst hB
  rcases e5 with ⟨_, rfl, rfl, e6⟩ | ⟨e5, _⟩
  · have hun : ∀ u, Unplaced c [] u ↔ u ≠ 0 := by
      intro u
      unfold Unplaced IsKid Kid
      simp
    have hword : ∀ u, u < 256 → ∃ w, D.units[u]? = some w ∧ dictHasLeaf w = false ∧ dictOffset w < 256 := by
      intro u hu
      by_cases h0 : u = 0
      · subst h0; exact ⟨1024, e6, by decide, by decide⟩
      · obtain ⟨un, _, _, _, h4⟩ := e1.dead (by omega) ((hun u).2 h0)
        refine ⟨_, h4, ?_, ?_⟩
        · unfold dictHasLeaf hasLeafBit
          rw [testBit_8]
          simp only [decide_eq_false_iff_not]; omega
        · unfold dictOffset
          have : ((u ^^^ un) % 256) >>> 10 = 0 := by rw [Nat.shiftRight_eq_div_pow]; exact Nat.div_eq_of_lt (by omega)
          rw [this]; simp [u32]
    refine ⟨e1.len, ?_, ?_, ?_⟩
    · rw [e1.num]
      have h256 : ∀ n, unplacedBelow c [] n = n - 1 := by
        intro n
        induction n with
        | zero => rfl
        | succ n ih =>
          unfold unplacedBelow at ih ⊢
          rw [List.range_succ, List.countP_append, ih]
          simp only [List.countP_cons, List.countP_nil, hun, decide_eq_true_eq, ne_eq]
          split <;> omega
      rw [h256]
    · intro u hu
      obtain ⟨w, h1, h2, _⟩ := hword u hu
      simp only [Dictionary.hasValue, rd_some h1, ok_bind, pure_eq_ok, h2]
    · intro l u hu
      obtain ⟨w, h1, _, h3⟩ := hword u hu
      have hlt : u ^^^ dictOffset w ^^^ l.toNat < 256 := xor_lt_256 (xor_lt_256 hu h3) (label_lt l)
      obtain ⟨w', h4, _⟩ := hword _ hlt
      simp only [Dictionary.follow, rd_some h1, ok_bind, rd_some h4, pure_eq_ok]
      refine ⟨_, rfl, ?_⟩
      intro v hv
      split at hv
      · cases hv
      · simp only [Option.some.injEq] at hv; omega
  · exact absurd rfl e5

theorem empty_followString {D : Dictionary}
    (hf : ∀ l u, u < 256 → ∃ res, D.follow l u = .ok res ∧ ∀ v, res = some v → v < 256) :
    ∀ (q : Key) (u : Nat), u < 256 → ∃ ok v k, D.followString q u = .ok (ok, v, k) ∧ v < 256
  | [], u, hu => ⟨true, u, 0, rfl, hu⟩
  | l :: q, u, hu => by
    obtain ⟨res, h1, h2⟩ := hf l u hu
    cases res with
    | none => exact ⟨false, u, 0, by simp only [Dictionary.followString, h1, ok_bind, pure_eq_ok], hu⟩
    | some v =>
      obtain ⟨ok, v', k, h3, h4⟩ := empty_followString hf q v (h2 v rfl)
      exact ⟨ok, v', k + 1, by simp only [Dictionary.followString, h1, ok_bind, h3, pure_eq_ok], h4⟩

/-! ## Reachability -/

section
variable {c : Core} {r : Nat} {acc : Lang} {D : Dictionary} {B : Nat} {G : List (Nat × Nat)} {num : Nat}

theorem Node.same {u o s g L u' o' s' g' L'} (h : Node c G D u o s g L) (h' : Node c G D u' o' s' g' L') (hu : u = u') : o = o' := by
  obtain ⟨w, h1, _, h2⟩ := h.offset
  obtain ⟨w', h1', _, h2'⟩ := h'.offset
  rw [← hu] at h1' h2'
  rw [h1] at h1'
  cases h1'
  rw [← h2, ← h2']

theorem reach (h : DSem c r acc D B G num) (hne : acc ≠ []) : ∀ (n : Nat) {pre post : List (Nat × Nat)} {o s : Nat}, post.length = n → G = pre ++ (o, s) :: post →
    ∃ p u g, D.followString p 0 = .ok (true, u, p.length) ∧ Node c G D u o s g (residual acc p) := by
  intro n
  induction n using Nat.strongRecOn with
  | ind n ih =>
    intro pre post o s hn hG
    rcases h.u.parents hG with ⟨u, x, q, h1, h2, h3, _, h5, h6⟩ | ⟨h1, _, h3, h4⟩
    · obtain ⟨pre', post', hp⟩ := List.append_of_mem h1.1
      have hlen : post'.length < n := by rw [← hn, hp]; simp; omega
      obtain ⟨p, u', g, k1, k2⟩ := ih _ hlen (pre := pre ++ (o, s) :: pre') (post := post') (o := x.1) (s := x.2) rfl
        (by rw [hG, hp]; simp)
      have hq : q ∈ g := by have := h1.2.1; rwa [show grp c x.2 = g from k2.start.groupAt h.ne] at this
      obtain ⟨g', a1, a2⟩ := k2.den.child (h.core.cinv.asc _ k2.start.mem) hq h2
      rw [← residual_residual] at a2
      have hres : residual (residual acc p) [q.1] ≠ [] := by
        rw [← residual_residual]; exact a2.ne_nil h.ne (h.ne _ a1.mem)
      obtain ⟨b1, _⟩ := k2.follow_hit h hres
      refine ⟨p ++ [q.1], u, g', ?_, ⟨by rw [hG]; simp, h5, ⟨q.1, h6⟩, by rw [← h3]; exact a1, a2,
        .inr ⟨x, q, h1.mono (by intro y hy; rw [hG]; simp [hy])⟩⟩⟩
      rw [Dictionary.followString_append, k1]
      simp only [ok_bind, if_true, Dictionary.followString, b1, ← h1.2.2, pure_eq_ok]
      simp
    · obtain ⟨o', g, hn'⟩ := h.root hne
      have hNode : Node c G D 0 o s g acc := by
        refine ⟨by rw [hG]; simp, by simpa using h3, ⟨0, by simpa using h4⟩, by rw [h1]; exact hn'.start, hn'.den, .inl rfl⟩
      exact ⟨[], 0, g, rfl, by rw [residual_nil]; exact hNode⟩

theorem reach_mem (h : DSem c r acc D B G num) (hne : acc ≠ []) {o s : Nat} (ho : (o, s) ∈ G) :
    ∃ p u g, D.followString p 0 = .ok (true, u, p.length) ∧ Node c G D u o s g (residual acc p) := by
  obtain ⟨pre, post, hG⟩ := List.append_of_mem ho
  exact reach h hne _ rfl hG

theorem isKid_iff (h : DSem c r acc D B G num) (hne : acc ≠ []) {i : Nat} : ¬ Unplaced c G i ↔ i = D.root ∨ ∃ e ∈ acc, PartOf D e.1 i := by
  have hroot : D.root = 0 := rfl
  constructor
  · intro hu
    by_cases h0 : i = 0
    · exact .inl h0
    · have hk : IsKid c G i := Classical.byContradiction fun hk => hu ⟨h0, hk⟩
      right
      obtain ⟨⟨o, s⟩, q, hk⟩ := hk
      obtain ⟨p, u, g, h1, h2⟩ := reach_mem h hne hk.1
      have hq : q ∈ g := by have := hk.2.1; rwa [show grp c (o, s).2 = g from h2.start.groupAt h.ne] at this
      by_cases hq0 : q.1 = 0
      · have hv : (([] : Key), baseValue q.2) ∈ residual acc p := (DenG.nil_mem h2.den).2 ⟨q.2, by rw [← hq0]; exact hq, rfl⟩
        rw [mem_residual] at hv
        refine ⟨_, hv, .inr ?_⟩
        obtain ⟨w, w1, _, w3⟩ := h2.offset
        obtain ⟨l, hw⟩ := h2.word
        have := w1.symm.trans (rd_some hw)
        refine ⟨u, p.length, w, by simpa [hroot] using h1, ?_, ?_⟩
        · rw [hw]; cases this; rfl
        · rw [w3, hk.2.2, hq0]; simp
      · obtain ⟨g', a1, a2⟩ := h2.den.child (h.core.cinv.asc _ h2.start.mem) hq hq0
        have hres := a2.ne_nil h.ne (h.ne _ a1.mem)
        obtain ⟨b1, _⟩ := h2.follow_hit h hres
        rw [← residual_residual] at hres
        obtain ⟨e, he⟩ := List.exists_mem_of_ne_nil _ hres
        rw [mem_residual] at he
        refine ⟨_, he, .inl ⟨p ++ [q.1], p.length + 1, ⟨e.1, rfl⟩, ?_⟩⟩
        rw [hroot, Dictionary.followString_append, h1]
        simp only [ok_bind, if_true, Dictionary.followString, b1, ← hk.2.2, pure_eq_ok]
  · rintro (h0 | ⟨e, he, h1⟩) ⟨hu1, hu2⟩
    · exact hu1 h0
    · obtain ⟨o, g, hr⟩ := h.root hne
      rcases h1 with ⟨p, n, ⟨t, ht⟩, h1⟩ | ⟨u, n, w, h1, h2, h3⟩
      · have hres : residual acc p ≠ [] := by
          intro hc
          have : (t, e.2) ∈ residual acc p := by rw [mem_residual]; simp only [ht]; exact he
          rw [hc] at this; simp at this
        obtain ⟨v, o', s', g', k1, k2⟩ := followString_hit h hr hres
        rw [hroot, k1] at h1
        cases h1
        rcases k2.placed with h | h
        · exact hu1 h
        · exact hu2 h
      · have hmem : (([] : Key), e.2) ∈ residual acc e.1 := by rw [mem_residual]; simpa using he
        have hres : residual acc e.1 ≠ [] := List.ne_nil_of_mem hmem
        obtain ⟨v, o', s', g', k1, k2⟩ := followString_hit h hr hres
        rw [hroot, k1] at h1
        cases h1
        obtain ⟨w', w1, _, w3⟩ := k2.offset
        have := (rd_some h2).symm.trans w1
        cases this
        obtain ⟨b, hb, _⟩ := (DenG.nil_mem k2.den).1 hmem
        refine hu2 ⟨(o', s'), (0, b), k2.mem, by rw [show grp c (o', s').2 = g' from k2.start.groupAt h.ne]; exact hb, ?_⟩
        rw [h3, w3]; simp

end

end Dawg.Dict
