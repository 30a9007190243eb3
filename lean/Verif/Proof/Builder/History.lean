import Verif.Proof.Builder.Close
import Verif.Spec
/-! # Insertion histories on the abstract builder -/
namespace Dawg.Abs
attribute [-simp] List.length_flatten

/-- `s` represents the accepted entries `acc`. -/
structure SInv (s : St) (acc : Lang) : Prop where
  core : CInv s.core
  desc : ∀ f ∈ s.frames, Desc f.label f.closed
  nodes : ∃ N, NInv s.core s.frames none N
  acc : (s.frames = [] ∧ s.val = 0 ∧ s.core.groups = [] ∧ acc = []) ∨
    (∃ fs P, s.frames = ⟨[], 0⟩ :: fs ∧ (∀ f ∈ fs, f.label ≠ 0) ∧ Ctx s.core.groups fs P ∧
      acc = P ++ [(path fs, s.val % 2147483648)])

theorem SInv.init : SInv St.init [] := by
  refine ⟨⟨by simp [St.init], by simp [St.init], by simp [St.init], by simp [St.init]⟩, by simp [St.init], ⟨[], ?_⟩, .inl ⟨rfl, rfl, rfl, rfl⟩⟩
  refine ⟨by simp, by simp, by simp [St.init, starts], by simp [St.init], by simp [St.init], by simp, ?_, by simp, by simp, by simp, by simp [St.init]⟩
  intro f fs' h
  simp [St.init] at h

theorem pushAll_append : ∀ (a b : List UInt8) (fs : List Frame), pushAll (a ++ b) fs = pushAll b (pushAll a fs)
  | [], _, _ => rfl
  | k :: a, b, fs => by simp only [List.cons_append, pushAll]; exact pushAll_append a b _

theorem pushAll_path : ∀ (ks : List UInt8) (fs : List Frame), path (pushAll ks fs) = path fs ++ ks := fun ks fs => by
  simpa [path] using pushAll_labels ks fs

theorem pushAll_nz : ∀ (ks : List UInt8) (fs : List Frame), (∀ f ∈ fs, f.label ≠ 0) → (0 : UInt8) ∉ ks →
    ∀ f ∈ pushAll ks fs, f.label ≠ 0
  | [], _, h, _ => h
  | k :: ks, fs, h, hk => by
    simp only [List.mem_cons, not_or] at hk
    refine pushAll_nz ks _ ?_ hk.2
    intro f hf
    rcases List.mem_cons.1 hf with rfl | hf
    · exact fun h => hk.1 h.symm
    · exact h f hf

theorem pushAll_ctx {gs : List Group} : ∀ (ks : List UInt8) (fs : List Frame) {P : Lang}, Ctx gs fs P → Ctx gs (pushAll ks fs) P
  | [], _, _, h => h
  | _ :: ks, fs, P, h => pushAll_ctx ks _ ⟨P, [], h, rfl, by simp⟩

theorem NInv.push {c : Core} {N} : ∀ (ks : List UInt8) (fs : List Frame), NInv c fs none N → NInv c (pushAll ks fs) none N
  | [], _, h => h
  | k :: ks, fs, h => by
    refine NInv.push ks _ ⟨h.nodup, h.start, h.count, h.markedSub, h.markedNodup, h.fwd, ?_, by simp, ?_, ?_, h.sum⟩
    · intro f fs' hs e he hl
      rcases List.suffix_cons_iff.1 hs with heq | hs
      · simp only [List.cons.injEq] at heq; rw [heq.1] at he; simp at he
      · exact h.fwdF f fs' hs e he hl
    · intro p s hps
      rcases h.bwd p s hps with h1 | ⟨f', fs', e, h1, h2⟩ | ⟨h1, _⟩
      · exact .inl h1
      · exact .inr (.inl ⟨f', fs', e, h1.trans (List.suffix_cons _ _), h2⟩)
      · simp at h1
    · intro x hx
      rcases h.sep x hx with hd | ⟨hf, _⟩
      · left; rw [path_cons]; exact hd.append _
      · simp at hf

/-- Turning the open transition of a frame into a finished one. -/
theorem NInv.shift {c : Core} {N} {f : Frame} {fs : List Frame} {pend : Option Nat} {r : Nat} {k : UInt8}
    (h : NInv c (f :: fs) pend N) (hp : f.label ≠ 0 → pend = some r) (hp0 : f.label = 0 → pend = none) (hk : f.label < k) :
    NInv c (⟨⟨f.label, r⟩ :: f.closed, k⟩ :: fs) none N := by
  refine ⟨h.nodup, h.start, h.count, h.markedSub, h.markedNodup, h.fwd, ?_, by simp, ?_, ?_, h.sum⟩
  · intro f' fs' hs e he hl
    rcases List.suffix_cons_iff.1 hs with heq | hs
    · simp only [List.cons.injEq] at heq
      obtain ⟨rfl, rfl⟩ := heq
      rcases List.mem_cons.1 he with rfl | he
      · have := h.pendIn r (hp hl)
        rwa [path_cons] at this
      · exact h.fwdF f fs' (List.suffix_refl _) e he hl
    · exact h.fwdF f' fs' (hs.trans (List.suffix_cons _ _)) e he hl
  · intro p s hps
    rcases h.bwd p s hps with h1 | ⟨f', fs', e, h1, h2⟩ | ⟨h1, h2⟩
    · exact .inl h1
    · right; left
      rcases List.suffix_cons_iff.1 h1 with heq | h1
      · simp only [List.cons.injEq] at heq
        obtain ⟨rfl, rfl⟩ := heq
        exact ⟨_, _, e, List.suffix_refl _, List.mem_cons_of_mem _ h2.1, h2.2⟩
      · exact ⟨f', fs', e, h1.trans (List.suffix_cons _ _), h2⟩
    · right; left
      have hl : f.label ≠ 0 := by intro h0; rw [hp0 h0] at h1; simp at h1
      rw [hp hl] at h1
      simp only [Option.some.injEq] at h1
      exact ⟨_, _, ⟨f.label, r⟩, List.suffix_refl _, List.mem_cons_self, hl, by rw [h2, path_cons], h1.symm⟩
  · intro x hx
    left
    rw [path_cons]
    rcases h.sep x hx with hd | ⟨_, hpre⟩
    · rw [path_cons] at hd
      rcases div_snoc hd with hd | ⟨l', r', he, hl⟩
      · exact hd.append _
      · exact ⟨path fs, l', k, r', [], he, rfl, UInt8.lt_trans hl hk⟩
    · rw [path_cons] at hpre
      obtain ⟨t, ht⟩ := hpre
      exact ⟨path fs, f.label, k, t, [], by rw [← ht]; simp, rfl, hk⟩

/-- Walking the labels of a key down the open path. -/
theorem walk_sem (c : Core) (v : Nat) (hc : CInv c) : ∀ (ks : List UInt8) (down fs : List Frame) (f0 : Frame) (P : Lang) (N : List (List UInt8 × Nat)),
    Term ks → (∀ f ∈ down, f.label ≠ 0) → (∀ f ∈ fs, f.label ≠ 0) → f0 = ⟨[], 0⟩ →
    (∀ f ∈ down, Desc f.label f.closed) →
    poolLen c.groups + edges (f0 :: (down.reverse ++ fs)) ≤ 1073741824 →
    Ctx c.groups (down.reverse ++ fs) P → NInv c (f0 :: (down.reverse ++ fs)) none N →
    (ks < down.map Frame.label ++ [0] ∧ walk c v ks (down ++ [f0]) fs = none) ∨
    (ks = down.map Frame.label ++ [0] ∧ walk c v ks (down ++ [f0]) fs = some (c, f0 :: (down.reverse ++ fs))) ∨
    (down.map Frame.label ++ [0] < ks ∧ ∃ c' fr, walk c v ks (down ++ [f0]) fs = some (c', ⟨[], 0⟩ :: fr) ∧
      CInv c' ∧ (∀ f ∈ fr, f.label ≠ 0) ∧ path fr ++ [0] = path fs ++ ks ∧
      Ctx c'.groups fr (P ++ [(path (down.reverse ++ fs), v % 2147483648)]) ∧
      ∃ N', NInv c' (⟨[], 0⟩ :: fr) none N') := by
  intro ks
  induction ks with
  | nil => intro _ _ _ _ _ ht; exact absurd rfl ht.ne
  | cons k ks ih =>
    intro down fs f0 P N ht hnz hnzf hf0 hdesc hlen hctx hN
    subst hf0
    cases down with
    | nil =>
      simp only [List.nil_append, List.map_nil, List.reverse_nil] at *
      simp only [walk]
      have hnlt : ¬ k < 0 := UInt8.not_lt_zero
      rw [if_neg hnlt]
      rcases ht.cases with ⟨rfl, rfl⟩ | ⟨hk, ht'⟩
      · right; left
        simp [walk]
      · right; right
        have hlt : (0 : UInt8) < k := UInt8.pos_iff_ne_zero.2 hk
        refine ⟨by simp [List.cons_lt_cons_iff, hlt], ?_⟩
        rw [if_pos hlt]
        obtain ⟨a, rfl, ha⟩ := ht'
        simp only [List.reverse_nil, closeFrames]
        refine ⟨c, pushAll a (⟨[⟨0, v⟩], k⟩ :: fs), ?_, hc, ?_, ?_, ?_, ?_⟩
        · rw [pushAll_append]; rfl
        · apply pushAll_nz _ _ _ ha
          intro f hf
          rcases List.mem_cons.1 hf with rfl | hf
          · exact hk
          · exact hnzf f hf
        · rw [pushAll_path, path_cons]; simp
        · apply pushAll_ctx
          exact ⟨P, [([], v % 2147483648)], hctx, ⟨[], _, rfl, by simp [DenC]; rfl, by simp [up]⟩, by simp [pre]⟩
        · refine ⟨N, ?_⟩
          have h1 := hN.shift (r := v) (k := k) (fun h => absurd rfl h) (fun _ => rfl) hlt
          have h2 := h1.push (a ++ [0])
          rw [pushAll_append] at h2
          exact h2
    | cons f down =>
      simp only [List.cons_append, walk, List.map_cons, List.reverse_cons, List.append_assoc, List.nil_append] at *
      have hfl : f.label ≠ 0 := hnz f (by simp)
      by_cases h1 : k < f.label
      · left
        rw [if_pos h1]
        exact ⟨by simp [List.cons_lt_cons_iff, h1], rfl⟩
      · rw [if_neg h1]
        by_cases h2 : f.label < k
        · right; right
          refine ⟨by simp [List.cons_lt_cons_iff, h2], ?_⟩
          rw [if_pos h2]
          have hk : k ≠ 0 := by rintro rfl; exact absurd h2 UInt8.not_lt_zero
          obtain ⟨a, rfl, ha⟩ : Term ks := by
            rcases ht.cases with ⟨h, _⟩ | ⟨_, h⟩
            · exact absurd h hk
            · exact h
          have hcl := closeFrames_spec down.reverse c v (f :: fs) P [([], v % 2147483648)] none N ⟨[], 0⟩ hc
            (by
              intro d hd
              rcases List.mem_cons.1 hd with rfl | hd
              · simp [Desc]
              · exact hdesc d (by simp at hd; simp [hd]))
            (by simp only [edges, edges_append] at hlen ⊢; omega)
            (by simp [DenC]) (by intro d hd; exact hnz d (by simp at hd; simp [hd])) ⟨P, [], hctx, rfl, by simp⟩ hN
            (fun h => absurd rfl h) (fun _ => rfl)
          simp only at hcl
          rw [show (down ++ [(⟨[], 0⟩ : Frame)]).reverse = ⟨[], 0⟩ :: down.reverse by simp]
          generalize closeFrames (⟨[], 0⟩ :: down.reverse) v c = r at hcl
          obtain ⟨hc', ⟨hs, hext⟩, ⟨g, Y, P0, r1, r2, r3, r4⟩, N', hN'⟩ := hcl
          refine ⟨r.1, pushAll a (⟨⟨f.label, r.2⟩ :: f.closed, k⟩ :: fs), ?_, hc', ?_, ?_, ?_, ?_⟩
          · rw [pushAll_append]; rfl
          · apply pushAll_nz _ _ _ ha
            intro f hf
            rcases List.mem_cons.1 hf with rfl | hf
            · exact hk
            · exact hnzf f hf
          · rw [pushAll_path, path_cons]; simp
          · apply pushAll_ctx
            obtain ⟨P1, Lc, q1, q2, rfl⟩ := r3
            refine ⟨P1, Lc ++ Y.map (pre [f.label]), q1, ⟨Lc, Y, q2, ?_, by simp [up, hfl]⟩, ?_⟩
            · simp only [DenC, if_neg hfl]; exact ⟨g, r1, r2⟩
            · simp only [up, if_true, List.map_cons, List.map_nil, pre, List.append_nil] at r4
              rw [r4, path_cons]
              simp [map_pre_map_pre, pre]
          · refine ⟨N', ?_⟩
            have h1 := hN'.shift (r := r.2) (k := k) (fun _ => rfl) (fun h => absurd h hfl) h2
            have h2 := h1.push (a ++ [0])
            rw [pushAll_append] at h2
            exact h2
        · have hkf : k = f.label := UInt8.le_antisymm (UInt8.not_lt.1 h2) (UInt8.not_lt.1 h1)
          subst hkf
          rw [if_neg h2]
          have ht' : Term ks := by
            rcases ht.cases with ⟨h, _⟩ | ⟨_, h⟩
            · exact absurd h hfl
            · exact h
          have := ih down (f :: fs) ⟨[], 0⟩ P N ht' (fun d hd => hnz d (by simp [hd]))
            (by
              intro d hd
              rcases List.mem_cons.1 hd with rfl | hd
              · exact hfl
              · exact hnzf d hd) rfl (fun d hd => hdesc d (by simp [hd])) hlen hctx hN
          rcases this with ⟨h3, h4⟩ | ⟨h3, h4⟩ | ⟨h3, c', fr, h4, h5, h6, h7, h8⟩
          · exact .inl ⟨by simp [List.cons_lt_cons_iff, h3], h4⟩
          · exact .inr (.inl ⟨by rw [h3], h4⟩)
          · refine .inr (.inr ⟨by simp [List.cons_lt_cons_iff, h3], c', fr, h4, h5, h6, ?_, h8⟩)
            rw [h7, path_cons]; simp

/-- Comparing keys with terminators. -/
theorem term_lt {a b : List UInt8} (ha : (0 : UInt8) ∉ a) (hb : (0 : UInt8) ∉ b) : a ++ [0] < b ++ [0] ↔ a < b := by
  induction a generalizing b with
  | nil =>
    cases b with
    | nil => simp
    | cons y b =>
      simp only [List.mem_cons, not_or] at hb
      have : (0 : UInt8) < y := UInt8.pos_iff_ne_zero.2 (fun h => hb.1 h.symm)
      simp [List.cons_lt_cons_iff, this]
  | cons x a ih =>
    simp only [List.mem_cons, not_or] at ha
    cases b with
    | nil =>
      have : ¬ x < 0 := UInt8.not_lt_zero
      have h0 : ¬ x = 0 := fun h => ha.1 h.symm
      simp [List.cons_lt_cons_iff, this, h0]
    | cons y b =>
      simp only [List.mem_cons, not_or] at hb
      simp only [List.cons_append, List.cons_lt_cons_iff, ih ha.2 hb.2]

theorem term_inj {a b : List UInt8} (h : a ++ [(0 : UInt8)] = b ++ [0]) : a = b := (List.append_inj' h rfl).1

/-- The specification on stored words. -/
def addW (acc : Lang) (k : List UInt8) (v : Nat) : Lang :=
  match acc.getLast? with
  | none => [(k, v)]
  | some (l, _) => if k < l then acc else if k = l then acc.dropLast ++ [(k, v)] else acc ++ [(k, v)]

def acceptsW (acc : Lang) (k : List UInt8) : Bool :=
  match acc.getLast? with
  | none => true
  | some (l, _) => decide (¬ k < l)

theorem path_reverse (fs : List Frame) : fs.reverse.map Frame.label = path fs := rfl

theorem nz_path {fs : List Frame} (h : ∀ f ∈ fs, f.label ≠ 0) : (0 : UInt8) ∉ path fs := by
  intro h0
  simp only [path, List.mem_map, List.mem_reverse] at h0
  obtain ⟨f, hf, he⟩ := h0
  exact h f hf he

theorem insert_sem {s : St} {acc : Lang} (h : SInv s acc) (k : List UInt8) (v : Nat) (hk : (0 : UInt8) ∉ k)
    (hsz : s.size ≤ 1073741824) :
    SInv (s.insert (k ++ [0]) v).1 (addW acc k (v % 2147483648)) ∧ (s.insert (k ++ [0]) v).2 = acceptsW acc k ∧
      ((s.insert (k ++ [0]) v).2 = false → (s.insert (k ++ [0]) v).1 = s) := by
  obtain ⟨N, hN⟩ := h.nodes
  rcases h.acc with ⟨hf, hv, hg, rfl⟩ | ⟨fs, P, hf, hnz, hctx, rfl⟩
  · have hw : walk s.core s.val (k ++ [0]) s.frames.reverse [] = some (s.core, ⟨[], 0⟩ :: pushAll k []) := by
      rw [hf]
      cases k with
      | nil => simp [walk, pushAll]
      | cons a k => simp [walk, pushAll, pushAll_append]
    simp only [St.insert, hw]
    refine ⟨⟨h.core, ?_, ⟨N, ?_⟩, .inr ⟨pushAll k [], [], rfl, ?_, ?_, ?_⟩⟩, rfl, by simp⟩
    · intro f hf'
      rcases List.mem_cons.1 hf' with rfl | hf'
      · simp [Desc]
      · exact pushAll_desc k [] (by simp) f hf'
    · rw [hf] at hN
      have := hN.push (k ++ [0])
      rw [pushAll_append] at this
      exact this
    · exact pushAll_nz k [] (by simp) hk
    · exact pushAll_ctx k [] rfl
    · simp [addW, pushAll_path, path_nil]
  · have hdesc : ∀ f ∈ fs.reverse, Desc f.label f.closed := fun f hf' => h.desc f (by rw [hf]; simp at hf'; simp [hf'])
    have hsz' : poolLen s.core.groups + edges (⟨[], 0⟩ :: fs) ≤ 1073741824 := by rw [← hf]; exact hsz
    have hctx' := hctx
    have hN' := hN
    rw [hf] at hN'
    have hw := walk_sem s.core s.val h.core (k ++ [0]) fs.reverse [] ⟨[], 0⟩ P N ⟨k, rfl, hk⟩ (by simpa using hnz) (by simp) rfl
      hdesc (by simpa using hsz') (by simpa using hctx) (by simpa using hN')
    have hrev : fs.reverse ++ [(⟨[], 0⟩ : Frame)] = s.frames.reverse := by rw [hf]; simp
    rw [hrev] at hw
    simp only [List.reverse_reverse, List.append_nil, path_reverse, term_lt hk (nz_path hnz), term_lt (nz_path hnz) hk, path_nil,
      List.nil_append] at hw
    have hlast : (P ++ [(path fs, s.val % 2147483648)]).getLast? = some (path fs, s.val % 2147483648) := by simp
    simp only [addW, acceptsW, hlast, St.insert]
    rcases hw with ⟨h1, hw⟩ | ⟨h1, hw⟩ | ⟨h1, c', fr, hw, hc', hnz', hp, hctx2, hN2⟩
    · simp only [hw, h1, if_true]
      exact ⟨h, by simp, by simp⟩
    · have h1 := term_inj h1
      subst h1
      simp only [hw, List.lt_irrefl, if_false, if_true]
      refine ⟨⟨h.core, ?_, ⟨N, hN'⟩, .inr ⟨fs, P, rfl, hnz, hctx, ?_⟩⟩, by simp, by simp⟩
      · intro f hf'; exact h.desc f (by rw [hf]; exact hf')
      · simp
    · have hnlt : ¬ k < path fs := List.lt_asymm h1
      have hne : k ≠ path fs := by rintro rfl; exact absurd h1 (List.lt_irrefl _)
      simp only [hw, if_neg hnlt, if_neg hne]
      have hp' := term_inj hp
      refine ⟨⟨hc', ?_, hN2, .inr ⟨fr, _, rfl, hnz', hctx2, by rw [hp']⟩⟩, by simp [hnlt], by simp⟩
      exact (walk_path _ _ _ _ _ _ _ hw (fun f hf' => h.desc f (by simpa using hf')) (by simp)).2

end Dawg.Abs
