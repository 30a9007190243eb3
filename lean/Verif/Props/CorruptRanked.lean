import Verif.Proof.RankedAny
import Verif.Props.CorruptGuide
import Verif.Props.Ranked
/-! # C62: files with arbitrary ranked guides -/
namespace Dawg.Props
open Dawg Dawg.Spec Dawg.Client Dawg.Abs Dawg.Dict Dawg.Guided Dawg.Tool
attribute [-simp] List.length_flatten

section
variable {D : Dictionary} {g : Guide} {A : UInt8 → Prop} {S : Nat → Prop} {W : Nat → Nat} {R : Nat → UInt8 → Bool → Nat}

/-- The loop of the tool after the first call of `Next`. -/
theorem rankedLoop_any (h : Tame D g A S W R) {B : Nat} (hB : B < 4294967296) (key : Key) : ∀ (m : Nat) (rc : RankedCompleter) (os : List Nat), RInv D g S R rc.nodes rc.nodeQueue os B →
    CandOk rc.nodes rc.candidateQueue → rc.prefixLength ≤ rc.path.length → rc.value ≠ -1 → (B - rc.nodes.length) + rc.candidateQueue.length ≤ m → ∀ fuel, m + 1 ≤ fuel →
    ∃ xs rc', rankedLoop D g key fuel rc = .ok (xs, rc') := by
  intro m
  induction m with
  | zero =>
    intro rc os hI hc hp hv hm fuel hf
    obtain ⟨fuel, rfl⟩ : ∃ f, fuel = f + 1 := ⟨fuel - 1, by omega⟩
    obtain ⟨nodes, cq, os', e1, e2, e3, e4⟩ := drain_any h hB rc.nodeQueue rc os hI hc hv
    obtain ⟨rc', b, f1, f2⟩ := pop_any e1 e2 e3 hp
    rw [rankedLoop, f1]
    cases b with
    | false => exact ⟨_, _, rfl⟩
    | true =>
      obtain ⟨_, _, _, _, _, k⟩ := f2 rfl
      have := e2.room
      simp only at k
      omega
  | succ m ih =>
    intro rc os hI hc hp hv hm fuel hf
    obtain ⟨fuel, rfl⟩ : ∃ f, fuel = f + 1 := ⟨fuel - 1, by omega⟩
    obtain ⟨nodes, cq, os', e1, e2, e3, e4⟩ := drain_any h hB rc.nodeQueue rc os hI hc hv
    obtain ⟨rc', b, f1, f2⟩ := pop_any e1 e2 e3 hp
    rw [rankedLoop, f1]
    cases b with
    | false => exact ⟨_, _, rfl⟩
    | true =>
      obtain ⟨k1, k2, k3, k4, k5, k6⟩ := f2 rfl
      have := e2.room
      have := hI.room
      simp only at k5 k6
      obtain ⟨xs, rc'', h1⟩ := ih rc' os' k1 k2 k3 k4 (by omega) fuel (by omega)
      simp only [ok_bind, Bool.not_true, Bool.false_eq_true, if_false]
      rw [h1]
      exact ⟨_, _, rfl⟩

/-- The loop of the tool from a unit. -/
theorem rankedStart_any (h : Tame D g A S W R) (key : Key) {i : Nat} (hi : S i) (rc : RankedCompleter) : ∀ fuel, W i + 3 ≤ fuel →
    ∃ rc0 xs rc', RankedCompleter.start D g rc i = .ok rc0 ∧ rankedLoop D g key fuel rc0 = .ok (xs, rc') := by
  intro fuel hf
  obtain ⟨hv, hhv⟩ := h.closed.hasValue hi
  have hz : g.size ≠ 0 := by
    have := h.closed.lt hi
    show g.units.length ≠ 0
    rw [h.size]
    omega
  have hB := h.bound i hi
  have hstart : RankedCompleter.start D g rc i = .ok ⟨[], 0, -1, [⟨i, 0, 88, true, hv⟩], [0], []⟩ := by
    unfold RankedCompleter.start RankedCompleter.startStringLen Completer.takeLen
    rw [if_neg (by omega)]
    simp only [if_pos hz]
    unfold RankedCompleter.createNode
    rw [if_pos (by decide), hhv]
    rfl
  have hI : RInv D g S R [⟨i, 0, 88, true, hv⟩] [] [] 1 := by
    have hget : ∀ (n : Nat) x, ([⟨i, 0, 88, true, hv⟩] : List RNode)[n]? = some x → n = 0 ∧ x = ⟨i, 0, 88, true, hv⟩ := by
      intro n x hx
      obtain ⟨h1, h2⟩ := List.getElem?_eq_some_iff.1 hx
      simp only [List.length_singleton] at h1
      have : n = 0 := by omega
      subst this
      exact ⟨rfl, h2.symm⟩
    refine ⟨?_, ?_, ?_, ?_, by simp, List.nodup_nil, by simp, by simp, List.nodup_nil, by simp, by simp⟩
    · intro n x hx hn; exact absurd (hget n x hx).1 hn
    · intro n x hx
      obtain ⟨_, rfl⟩ := hget n x hx
      exact ⟨h.closed.lt hi, fun _ => hi⟩
    · intro n x p hx hn; exact absurd (hget n x hx).1 hn
    · intro n x hx
      obtain ⟨rfl, _⟩ := hget n x hx
      simp
  have hwpos := h.weight_pos (j := i) (l := 88) (fun _ => hi)
  have hw : weight W i 88 = W i := if_neg (by decide)
  obtain ⟨nodes, t, os', e1, e2, e3, e4, e5, e6⟩ := terminal_any h hB (2 * D.size + 2) ⟨[], 0, -1, [⟨i, 0, 88, true, hv⟩], [0], []⟩ 0 ⟨i, 0, 88, true, hv⟩ [] [] [] 1
    rfl rfl hI (fun _ => hhv) (by simp only; rw [hw] at hwpos ⊢; omega) List.nodup_nil (by simp) (by
      have : D.size = D.units.length := rfl
      simp only [List.length_nil]; omega)
  obtain ⟨_, e7⟩ := e6 (by simp)
  obtain ⟨cq, f1, f2, f3⟩ := candidate_any (rc := ⟨[], 0, -1, nodes, [0], []⟩) e2 ⟨fun i _ hi => absurd hi (by simp), by simp⟩ e3 (by omega)
  have hd : RankedCompleter.drainQueue D g [0] ⟨[], 0, -1, [⟨i, 0, 88, true, hv⟩], [0], []⟩ = .ok ⟨[], 0, -1, nodes, [0], cq⟩ := by
    rw [RankedCompleter.drainQueue, if_neg (by simp)]
    simp only [pure_eq_ok, ok_bind]
    unfold RankedCompleter.findTerminal
    rw [e1]
    simp only [ok_bind]
    rw [f1]
    rfl
  obtain ⟨rc', b, k1, k2⟩ := pop_any (rc := ⟨[], 0, -1, [⟨i, 0, 88, true, hv⟩], [0], []⟩) hd e2 f2 (Nat.le_refl _)
  obtain ⟨fuel, rfl⟩ : ∃ f, fuel = f + 1 := ⟨fuel - 1, by omega⟩
  suffices hl : ∃ xs rc', rankedLoop D g key (fuel + 1) ⟨[], 0, -1, [⟨i, 0, 88, true, hv⟩], [0], []⟩ = .ok (xs, rc') by
    obtain ⟨xs, rc', hl⟩ := hl
    exact ⟨_, xs, rc', hstart, hl⟩
  rw [rankedLoop, k1]
  cases b with
  | false => exact ⟨_, _, rfl⟩
  | true =>
    obtain ⟨j1, j2, j3, j4, j5, j6⟩ := k2 rfl
    simp only [List.length_nil] at j5 j6 f3
    obtain ⟨xs, rc'', h1⟩ := rankedLoop_any h hB key (W i + 1) rc' os' j1 j2 j3 j4 (by omega) fuel (by omega)
    simp only [ok_bind, Bool.not_true, Bool.false_eq_true, if_false]
    rw [h1]
    exact ⟨_, _, rfl⟩

/-- **C62**, what is true of dawgtool with a ranked guide: if the dictionary and the guide in a file are tame, all queries of such bytes are answered. -/
theorem C62_ranked_partial {dictionary rest rest' : List UInt8} (hd : Dictionary.readNew dictionary = (some D, rest)) (hg : Guide.readNew rest = (some g, rest')) (h : Tame D g A S W R) :
    ∃ N, ∀ lexicon, (∀ q ∈ scanLines lexicon, ∀ b ∈ q, A b) → ∀ fuel, N ≤ fuel →
      ∃ as, mainQuery { ranked := true } fuel dictionary lexicon = .ok (as, none) ∧ as.map (·.query) = scanLines lexicon := by
  refine ⟨4294967296 + 3, fun lexicon hq fuel hf => ?_⟩
  have key : ∀ (qs : List Key) (c : Completers), (∀ q ∈ qs, ∀ b ∈ q, A b) → ∃ as, answers { ranked := true } ⟨D, some g, none⟩ fuel c qs = .ok as ∧ as.map (·.query) = qs := by
    intro qs
    induction qs with
    | nil => intro c _; exact ⟨[], rfl, rfl⟩
    | cons q qs ih =>
      intro c hq
      obtain ⟨ok, j, n, hj, h1⟩ := h.closed.followString q h.closed.root (hq q List.mem_cons_self)
      have hone : ∃ a c', answer { ranked := true } ⟨D, some g, none⟩ fuel c q = .ok (a, c') ∧ a.query = q := by
        unfold answer queryRank
        simp only [ok_bind]
        rw [h1]
        simp only [ok_bind]
        cases ok with
        | false => exact ⟨_, _, rfl, rfl⟩
        | true =>
          obtain ⟨rc0, xs, c', h2, h3⟩ := rankedStart_any h q hj c.ranked fuel (by have := h.bound j hj; omega)
          simp only [Bool.not_true, Bool.false_eq_true, if_false, if_true]
          rw [h2]
          simp only [ok_bind]
          rw [h3]
          exact ⟨_, _, rfl, rfl⟩
      obtain ⟨a, c', h2, h3⟩ := hone
      obtain ⟨as, h4, h5⟩ := ih c' (fun x hx => hq x (List.mem_cons_of_mem _ hx))
      refine ⟨a :: as, ?_, by simp [h3, h5]⟩
      rw [answers, h2]
      simp only [ok_bind]
      rw [h4]
      rfl
  obtain ⟨as, h1, h2⟩ := key (scanLines lexicon) Completers.new hq
  refine ⟨as, ?_, h2⟩
  unfold mainQuery handleLoad load
  rw [hd]
  simp only [Bool.true_or, if_true]
  rw [hg]
  show (lift (answers { ranked := true } ⟨D, some g, none⟩ fuel Completers.new (scanLines lexicon)) >>= _) = _
  rw [h1]
  rfl
end

/-! ## Files that the tool has written are tame -/

theorem after_eq {l : UInt8} {post : List UInt8} : ∀ {xs pre : List UInt8}, xs = pre ++ l :: post → l ∉ pre → (xs.dropWhile (fun a => a != l)).tail = post
  | xs, [], hx, _ => by
    rw [hx, List.nil_append, List.dropWhile_cons, if_neg (by simp)]
    rfl
  | xs, a :: pre, hx, hl => by
    rw [hx, List.cons_append, List.dropWhile_cons, if_pos (by simpa using fun hc : a = l => hl (hc ▸ List.mem_cons_self))]
    exact after_eq (xs := pre ++ l :: post) rfl (fun hm => hl (List.mem_cons_of_mem _ hm))

theorem W_pre (L : Lang) (l : UInt8) : Guided.W (L.map (Abs.pre [l])) = Guided.W L + L.length := by
  induction L with
  | nil => rfl
  | cons e L ih =>
    rw [List.map_cons, W_cons, W_cons, ih]
    simp [Abs.pre]
    omega

theorem reach_W {kid : Nat → UInt8 → Nat} {acc : Lang} {u L} (h : Reach kid acc u L) : Guided.W L ≤ Guided.W acc := by
  induction h with
  | root => exact Nat.le_refl _
  | step _ _ ih => exact Nat.le_trans (W_residual_le _ _) ih

theorem made_tame {hist d D g} {sorter : Sorter} {cmp : Int → Int → Bool} (h : Made hist d D) (hp : ∀ less l, (sorter less l).Perm l) (hne : accepted hist ≠ [])
    (hg : buildRankedGuideCmp sorter d D cmp = .ok (some g)) : ∃ S W R, Tame D g (CleanByte hist) S W R := by
  obtain ⟨At, kid, DAt, V0, h0, WW, hd0⟩ := Made.view h hne
  obtain ⟨g', e1, hgi⟩ := buildRanked_spec (cmp := cmp) hp V0 WW h0 hd0
  rw [hg] at e1
  cases e1
  have V := V0.reach h0
  have ho : OrdPerm (Reach kid (words (accepted hist))) (rord D sorter cmp) := fun {_ _} h => rord_perm hp V h
  have hWb : ∀ u L, Reach kid (words (accepted hist)) u L → Guided.W L < 1073741824 := fun u L hu => Nat.lt_of_le_of_lt (reach_W hu) (W_words_lt h.1)
  generalize hord : rord D sorter cmp = ord at *
  generalize hR : Reach kid (words (accepted hist)) = R at *
  have hroot : R 0 (words (accepted hist)) := by rw [← hR]; exact .root
  obtain ⟨_, _, B, _, _, _, _, hsem⟩ := Made.sem h hne
  have hlen : D.units.length = 256 * B := hsem.u.len
  have harc : ∀ i L, R i L → ∃ l, l ∈ arcs L := by
    intro i L hi
    rcases V.shape hi with ⟨_, h3⟩ | ⟨v, h3, _⟩
    · cases hh : heads L with
      | nil => rw [hh] at h3; exact absurd h3 (V.ne hi)
      | cons l _ => exact ⟨l, heads_arcs (by rw [hh]; exact List.mem_cons_self)⟩
    · exact ⟨0, mem_arcs.2 (.inl ⟨rfl, v, by rw [h3]; exact List.mem_cons_self⟩)⟩
  have hchild : ∀ i L u, R i L → g.units[i]? = some u → ∃ post, ord L = u.child :: post := by
    intro i L u hi hu
    have hc := hgi.child hi
    have hc' : g.child i = .ok u.child := by unfold Guide.child; rw [rd_some hu]; rfl
    rw [hc] at hc'
    cases hh : ord L with
    | nil =>
      obtain ⟨l, hl⟩ := harc i L hi
      have := (ho hi).mem_iff.2 hl
      rw [hh] at this
      cases this
    | cons c post =>
      rw [hh] at hc'
      simp only [List.headD_cons, Except.ok.injEq] at hc'
      exact ⟨post, by rw [hc']⟩
  have hsib : ∀ i L A l post u, R i L → ord L = A ++ l :: post → g.units[kid i l]? = some u → u.sibling ≠ 0 ∨ decide ((0 : UInt8) ∈ post) = true → ∃ post', post = u.sibling :: post' := by
    intro i L A l post u hi hL hu hgo
    have hc := hgi.sibling hi hL
    have hc' : g.sibling (kid i l) = .ok u.sibling := by unfold Guide.sibling; rw [rd_some hu]; rfl
    rw [hc] at hc'
    cases post with
    | nil =>
      simp only [List.headD_nil, Except.ok.injEq] at hc'
      rcases hgo with hz | hz
      · exact absurd hc'.symm hz
      · simp at hz
    | cons c post =>
      simp only [List.headD_cons, Except.ok.injEq] at hc'
      exact ⟨post, by rw [hc']⟩
  have hterm : ∀ i L A l post, R i L → ord L = A ++ l :: post → (decide ((0 : UInt8) ∈ l :: post) && l != 0) = decide ((0 : UInt8) ∈ post) := by
    intro i L A l post hi hL
    by_cases hz : l = 0
    · subst hz
      have := (ord_split V ho hi hL).2.2
      simp [this]
    · have : ¬ (0 : UInt8) = l := fun hc => hz hc.symm
      simp [hz, this]
  -- what a ranked completer visits
  have hkid : ∀ i L j l t, R i L → RKid D g i j l t → ∃ A post, ord L = A ++ l :: post ∧ j = kid i l ∧ t = decide ((0 : UInt8) ∈ post) := by
    intro i L j l t hi hk
    induction hk with
    | @first u hv j hu h1 h2 =>
      obtain ⟨post, hL⟩ := hchild i L u hi hu
      rw [V.fwc _ hi] at h2
      cases h2
      refine ⟨[], post, hL, rfl, ?_⟩
      rw [V.hasValue hi, ← zero_mem_ord V ho hi] at h1
      cases h1
      rw [hL]
      exact hterm i L [] u.child post hi hL
    | @next k l t u j _ hu hgo h2 ih =>
      obtain ⟨A, post, hL, rfl, rfl⟩ := ih
      obtain ⟨post', rfl⟩ := hsib i L A l post u hi hL hu hgo
      rw [V.fwc _ hi] at h2
      cases h2
      have hL' : ord L = (A ++ [l]) ++ u.sibling :: post' := by rw [hL]; simp
      exact ⟨A ++ [l], post', hL', rfl, hterm i L _ _ _ hi hL'⟩
  classical
  have hE : ∀ {α : Type} (f : Lang → α) (z : α) u L, R u L → (if h : ∃ L, R u L then f h.choose else z) = f L := by
    intro α f z u L hu
    rw [dif_pos ⟨L, hu⟩, V.func (Exists.choose_spec (⟨L, hu⟩ : ∃ L, R u L)) hu]
  let Wf : Nat → Nat := fun u => if h : ∃ L, R u L then 1 + Guided.W h.choose else 0
  let Rf : Nat → UInt8 → Bool → Nat := fun u l _ => if h : ∃ L, R u L then Guided.W (underT h.choose ((ord h.choose).dropWhile (fun a => a != l)).tail) else 0
  have hWf : ∀ u L, R u L → Wf u = 1 + Guided.W L := fun u L hu => hE (fun L => 1 + Guided.W L) 0 u L hu
  have hRf : ∀ u L l t A post, R u L → ord L = A ++ l :: post → Rf u l t = Guided.W (underT L post) := by
    intro u L l t A post hu hL
    have h1 : Rf u l t = Guided.W (underT L ((ord L).dropWhile (fun a => a != l)).tail) := hE (fun L => Guided.W (underT L ((ord L).dropWhile (fun a => a != l)).tail)) 0 u L hu
    rw [h1, after_eq hL]
    have := (ho hu).nodup_iff.2 (arcs_nodup V hu)
    rw [hL, List.nodup_append] at this
    exact fun hm => this.2.2 l hm l List.mem_cons_self rfl
  have hweight : ∀ i L A l post, R i L → ord L = A ++ l :: post → weight Wf (kid i l) l ≤ Guided.W (underT L [l]) := by
    intro i L A l post hi hL
    obtain ⟨s1, s2, _⟩ := ord_split V ho hi hL
    unfold weight
    by_cases hz : l = 0
    · rw [if_pos hz]
      obtain ⟨v, hv⟩ := s2 hz
      subst hz
      rw [underT_zero, V.here_eq hi hv]
      simp [Guided.W]
    · rw [if_neg hz, underT_one L hz, W_pre, hWf _ _ (V.step hi (s1 hz))]
      have := List.length_pos_iff.2 (V.ne (V.step hi (s1 hz)))
      omega
  refine ⟨fun u => ∃ L, R u L, Wf, Rf, ⟨⟨by rw [hlen]; omega, ⟨_, hroot⟩, ?_, ?_⟩, ?_, hgi.size, ?_, ?_, ?_⟩⟩
  · rintro i ⟨L, hi⟩
    have hlt : i < D.units.length := V.lt hi
    refine ⟨D.units[i], List.getElem?_eq_getElem hlt, ?_⟩
    obtain ⟨l, hl⟩ := harc i L hi
    have h1 := V.kid_lt hi hl
    have h2 := V.fwc l hi
    unfold RankedBuilder.followWithoutCheck at h2
    rw [rd_lt hlt] at h2
    simp only [ok_bind, pure_eq_ok, Except.ok.injEq] at h2
    rw [← h2] at h1
    rw [hlen]
    rw [show D.size = 256 * B from hlen] at h1
    exact (xor_lt_of_block l.toNat_lt).1 h1
  · rintro i b j ⟨L, hi⟩ hb hf
    by_cases hm : b ∈ heads L
    · have := V.follow hi hm
      rw [hf] at this
      cases this
      exact ⟨_, V.step hi hm⟩
    · rw [V.miss hi hm hb] at hf
      cases hf
  · rintro i j l t ⟨L, hi⟩ hk hz
    obtain ⟨A, post, h1, rfl, _⟩ := hkid i L j l t hi hk
    exact ⟨_, V.step hi ((ord_split V ho hi h1).1 hz)⟩
  · rintro i u hv j ⟨L, hi⟩ hu _ h2
    obtain ⟨post, hL⟩ := hchild i L u hi hu
    rw [V.fwc _ hi] at h2
    cases h2
    have h3 := hweight i L [] u.child post hi hL
    rw [hRf i L _ (hv && u.child != 0) [] post hi hL, hWf i L hi]
    have h4 := W_perm (underT_ord V ho hi)
    rw [hL, underT_cons, W_append] at h4
    omega
  · rintro i k l t u j ⟨L, hi⟩ hk hu hgo h2
    obtain ⟨A, post, hL, rfl, rfl⟩ := hkid i L k l t hi hk
    obtain ⟨post', rfl⟩ := hsib i L A l post u hi hL hu hgo
    rw [V.fwc _ hi] at h2
    cases h2
    have hL' : ord L = (A ++ [l]) ++ u.sibling :: post' := by rw [hL]; simp
    have h3 := hweight i L _ _ _ hi hL'
    rw [hRf i L _ (decide ((0 : UInt8) ∈ u.sibling :: post') && u.sibling != 0) _ _ hi hL', hRf i L _ (decide ((0 : UInt8) ∈ u.sibling :: post')) _ _ hi hL, underT_cons, W_append]
    omega
  · rintro i ⟨L, hi⟩
    have := hWb i L hi
    rw [hWf i L hi]
    omega

/-- In particular `dawgtool -r` answers all queries of the bytes of the lexicon over the files that it has written itself (whatever the comparator was). -/
example {hist d D g} {sorter : Sorter} {cmp : Int → Int → Bool} (h : Made hist d D) (hp : ∀ less l, (sorter less l).Perm l) (hne : accepted hist ≠ [])
    (hg : buildRankedGuideCmp sorter d D cmp = .ok (some g)) :
    ∃ N, ∀ lexicon, (∀ q ∈ scanLines lexicon, ∀ b ∈ q, CleanByte hist b) → ∀ fuel, N ≤ fuel →
      ∃ as, mainQuery { ranked := true } fuel (D.write ++ g.write) lexicon = .ok (as, none) ∧ as.map (·.query) = scanLines lexicon := by
  obtain ⟨S, W, R, hS⟩ := made_tame h hp hne hg
  have hD := Made.units32 h
  have hlen : g.units.length < 4294967296 := by rw [hS.size]; exact hD.1
  have hr := (C19_guide_roundtrip g g hlen []).2
  rw [List.append_nil] at hr
  exact C62_ranked_partial (C19_dictionary_roundtrip D D hD _).2 hr hS

/-- A file that no builder writes. -/
theorem odd_tame : Tame oddDict oddGuide (fun _ => True) (fun i => i = 0 ∨ i = 97) (fun i => if i = 0 then 3 else 2) (fun _ _ _ => 0) := by
  have g0 : oddGuide.units[0]? = some ⟨97, 0⟩ := by decide +kernel
  have g97 : oddGuide.units[97]? = some ⟨0, 0⟩ := by decide +kernel
  have f0 : RankedBuilder.followWithoutCheck oddDict 0 97 = .ok 97 := by decide +kernel
  have f97 : RankedBuilder.followWithoutCheck oddDict 97 0 = .ok 97 := by decide +kernel
  have h0 : oddDict.hasValue 0 = .ok false := by decide +kernel
  have hkid : ∀ i j l t, (i = 0 ∨ i = 97) → RKid oddDict oddGuide i j l t → j = 97 ∧ t = false := by
    intro i j l t hi hk
    induction hk with
    | @first u hv j hu h1 h2 =>
      rcases hi with rfl | rfl
      · rw [g0] at hu
        cases hu
        rw [f0] at h2
        cases h2
        rw [h0] at h1
        cases h1
        exact ⟨rfl, rfl⟩
      · rw [g97] at hu
        cases hu
        rw [f97] at h2
        cases h2
        exact ⟨rfl, by simp⟩
    | @next k l t u j _ hu hgo _ ih =>
      obtain ⟨rfl, rfl⟩ := ih
      rw [g97] at hu
      cases hu
      rcases hgo with hgo | hgo
      · exact absurd rfl hgo
      · cases hgo
  refine ⟨odd_orderly.closed, fun i j l t hi hk _ => .inr (hkid i j l t hi hk).1, by decide +kernel, ?_, ?_, ?_⟩
  · rintro i u hv j (rfl | rfl) hu _ h2
    · rw [g0] at hu
      cases hu
      rw [f0] at h2
      cases h2
      simp [weight]
    · rw [g97] at hu
      cases hu
      simp [weight]
  · intro i k l t u j hi hk hu hgo _
    obtain ⟨rfl, rfl⟩ := hkid i k l t hi hk
    rw [g97] at hu
    cases hu
    rcases hgo with hgo | hgo
    · exact absurd rfl hgo
    · cases hgo
  · intro i _
    by_cases hi : i = 0
    · simp [hi]
    · simp [hi]

example : ∃ N, ∀ lexicon fuel, N ≤ fuel → ∃ as, mainQuery { ranked := true } fuel (oddDict.write ++ oddGuide.write) lexicon = .ok (as, none) ∧ as.map (·.query) = scanLines lexicon := by
  obtain ⟨N, h⟩ := C62_ranked_partial (dictionary := oddDict.write ++ oddGuide.write) (rest := oddGuide.write) (rest' := []) (by decide +kernel) (by decide +kernel) odd_tame
  exact ⟨N, fun lexicon fuel hf => h lexicon (fun _ _ _ _ => trivial) fuel hf⟩

end Dawg.Props
