import Verif.Props.Text
/-! # C63: the result depends on the set of keys and values only -/
namespace Dawg.Props
open Dawg Dawg.Spec Dawg.Client Dawg.Abs Dawg.Dict Dawg.Guided Dawg.Tool
attribute [-simp] List.length_flatten

theorem runAbs_snoc (s : St) (hist : List (Key × Int)) (e : Key × Int) : runAbs s (hist ++ [e]) = ((runAbs s hist).insert (e.1 ++ [0]) (baseOfValue e.2)).1 := by
  simp [runAbs, List.foldl_append]

theorem accepted_snoc (hist : List (Key × Int)) (e : Key × Int) : accepted (hist ++ [e]) = add (accepted hist) e.1 e.2 := by
  simp [accepted]

theorem runAbs_inv {hist : List (Key × Int)} (h : Admissible hist) :
    SInv (runAbs St.init hist) ((accepted hist).map wordE) ∧ (runAbs St.init hist).size ≤ 1073741824 := by
  obtain ⟨b0, i1, i2, i3, i4, i5⟩ := init_spec 1 (by omega) (by omega)
  obtain ⟨b, r1, r2, r3, r4, r5, r6, r7⟩ := insertAll_spec hist b0 St.init [] 0 i2 SInv.init i4 (by simp [St.size, St.init, poolLen, edges])
    (by omega) h.nulFree (by simpa [total] using h.small)
  refine ⟨r3, ?_⟩
  have := h.small
  simp only [total] at r5; omega

/-- The abstract builder depends on the accepted pairs only. -/
theorem runAbs_accepted : ∀ (n : Nat) (hist : List (Key × Int)), hist.length = n → Admissible hist → runAbs St.init hist = runAbs St.init (accepted hist)
  | 0, hist, hn, _ => by
    rw [List.eq_nil_of_length_eq_zero hn]; rfl
  | n + 1, hist, hn, hadm => by
    rcases List.eq_nil_or_concat hist with rfl | ⟨init, e, rfl⟩
    · simp at hn
    · rw [List.concat_eq_append] at *
      have ha := admissible_append hadm
      have ih := runAbs_accepted n init (by simpa using hn) ha
      rw [runAbs_snoc, accepted_snoc]
      obtain ⟨hs, hsz⟩ := runAbs_inv ha
      have hk : (0 : UInt8) ∉ e.1 := hadm.nulFree e (by simp)
      obtain ⟨_, q2, q3⟩ := insert_sem hs e.1 (baseOfValue e.2) hk hsz
      rw [acceptsW_map] at q2
      rcases List.eq_nil_or_concat (accepted init) with hacc | ⟨i', ⟨l, x⟩, hacc⟩
      · rw [ih, hacc]
        simp only [add, List.getLast?_nil]
        exact (runAbs_snoc St.init [] e).symm
      · rw [List.concat_eq_append] at hacc
        have hg : (accepted init).getLast? = some (l, x) := by rw [hacc]; simp
        simp only [add, hg]
        split
        · rename_i hlt
          have : (((runAbs St.init init).insert (e.1 ++ [0]) (baseOfValue e.2))).2 = false := by
            rw [q2]; simp [accepts, hg, hlt]
          rw [q3 this, ih]
        · split
          · rename_i heq
            rw [hacc, List.dropLast_concat, ih, hacc, runAbs_snoc, runAbs_snoc, ← heq]
            have hdesc : ∀ f ∈ (runAbs St.init i').frames, Desc f.label f.closed := by
              cases i' with
              | nil => simp [runAbs, St.init]
              | cons y i'' =>
                have hadm' : Admissible (y :: i'') := by
                  have hnul := accepted_nulFree ha.nulFree
                  have hsum := accepted_total init
                  have := ha.small
                  rw [hacc] at hnul hsum
                  simp only [List.map_append, List.sum_append] at hsum
                  exact ⟨fun e he => hnul e (List.mem_append_left _ he), by omega⟩
                exact (runAbs_inv hadm').1.desc
            rw [(insert_twice hdesc _ _ _).1]
          · rw [runAbs_snoc, ih]

/-! Values that agree in 31 bits are the same for the abstract builder, too. -/

def nE (e : Edge) : Edge := { e with child := e.child % 2147483648 }
def nF (f : Frame) : Frame := { f with closed := f.closed.map nE }
def nS (s : St) : St := { s with frames := s.frames.map nF, val := s.val % 2147483648 }

theorem nE_nE (e : Edge) : nE (nE e) = nE e := by simp [nE]

theorem nF_nF (f : Frame) : nF (nF f) = nF f := by simp [nF, nE_nE, Function.comp_def]

theorem baseOf_mod (l : UInt8) (v : Nat) (a b : Bool) : baseOf l (v % 2147483648) a b = baseOf l v a b := by
  have h1 : u32 ((v % 2147483648) <<< 1) = u32 (v <<< 1) := by simp only [u32, Nat.shiftLeft_eq]; omega
  have h2 : u32 ((v % 2147483648) <<< 2) = u32 (v <<< 2) := by simp only [u32, Nat.shiftLeft_eq]; omega
  simp only [baseOf, DawgUnit.base, h1, h2]

theorem encClosed_n (es : List Edge) : encClosed (es.map nE) = encClosed es := by
  induction es with
  | nil => rfl
  | cons e es ih => 
    rw [List.map_cons, encClosed, encClosed, ih]
    congr 2
    show baseOf e.label (e.child % 2147483648) _ _ = _
    rw [baseOf_mod]
    cases es <;> rfl

theorem encNode_n (l : UInt8) (v : Nat) (es : List Edge) : encNode l (v % 2147483648) (es.map nE) = encNode l v es := by
  unfold encNode
  rw [encClosed_n, baseOf_mod]
  cases es <;> rfl

theorem encNode_closed (l : UInt8) (v : Nat) (es : List Edge) : encNode l v (es.map nE) = encNode l v es := by
  unfold encNode
  rw [encClosed_n]
  cases es <;> rfl

theorem closeFrames_n' (fs : List Frame) (v : Nat) (c : Core) : closeFrames (fs.map nF) v c = closeFrames fs v c := by
  induction fs generalizing v c with
  | nil => rfl
  | cons f fs ih => 
    rw [List.map_cons, closeFrames, closeFrames, ih]
    simp only [nF, encNode_closed]

theorem closeFrames_n (fs : List Frame) (v : Nat) (c : Core) : (closeFrames (fs.map nF) (v % 2147483648) c).1 = (closeFrames fs v c).1 ∧ 
    (closeFrames (fs.map nF) (v % 2147483648) c).2 % 2147483648 = (closeFrames fs v c).2 % 2147483648 := by
  cases fs with
  | nil => simp [closeFrames]
  | cons f fs => 
    rw [List.map_cons, closeFrames, closeFrames, closeFrames_n']
    simp only [nF, encNode_n]
    exact ⟨trivial, trivial⟩

theorem pushAll_n (ks : List UInt8) (fs : List Frame) : (pushAll ks fs).map nF = pushAll ks (fs.map nF) := by
  induction ks generalizing fs with
  | nil => rfl
  | cons k ks ih => rw [pushAll, pushAll, ih]; rfl

theorem walk_n (c : Core) (v : Nat) : ∀ (ks : List UInt8) (down up : List Frame), (Abs.walk c (v % 2147483648) ks (down.map nF) (up.map nF)).map (fun r => (r.1, r.2.map nF)) =
    (Abs.walk c v ks down up).map (fun r => (r.1, r.2.map nF))
  | [], _, up => by simp [Abs.walk, nF_nF, Function.comp_def]
  | k :: ks, [], up => by simp [Abs.walk, pushAll_n, nF_nF, Function.comp_def]
  | k :: ks, f :: down, up => by
    rw [List.map_cons, Abs.walk, Abs.walk]
    rw [show (nF f).label = f.label from rfl]
    split
    · rfl
    · split
      · rw [← List.map_reverse]
        obtain ⟨h1, h2⟩ := closeFrames_n down.reverse v c
        simp only [Option.map_some, Option.some.injEq, Prod.mk.injEq, h1, true_and, pushAll_n]
        congr 1
        simp only [List.map_cons, List.map_map, List.cons.injEq]
        refine ⟨?_, ?_⟩
        · rw [List.map_reverse] at h2; simp [nF, nE, h2]
        · simp [nF_nF, Function.comp_def]
      · exact walk_n c v ks down (f :: up)

theorem insert_n (s : St) (ks : List UInt8) (v w : Nat) (h : v % 2147483648 = w % 2147483648) : nS ((nS s).insert ks v).1 = nS (s.insert ks w).1 := by
  have := walk_n s.core s.val ks s.frames.reverse []
  unfold St.insert
  rw [show (nS s).core = s.core from rfl, show (nS s).val = s.val % 2147483648 from rfl, show (nS s).frames.reverse = s.frames.reverse.map nF by simp [nS]]
  rw [List.map_nil] at this
  cases h1 : Abs.walk s.core s.val ks s.frames.reverse [] with
  | none => 
    rw [h1, Option.map_none, Option.map_eq_none_iff] at this
    rw [this]
    simp [nS, nF_nF, Function.comp_def]
  | some r =>
    rw [h1, Option.map_some, Option.map_eq_some_iff] at this
    obtain ⟨r', e1, e2⟩ := this
    rw [e1]
    simp only [Prod.mk.injEq] at e2
    simp [nS, e2.1, e2.2, h]

theorem nS_nS (s : St) : nS (nS s) = nS s := by simp [nS, nF_nF, Function.comp_def]

theorem insert_n' {s s' : St} (ks : List UInt8) {v w : Nat} (h : v % 2147483648 = w % 2147483648) (hs : nS s = nS s') : nS (s.insert ks v).1 = nS (s'.insert ks w).1 := by
  rw [← insert_n s ks w v h.symm, ← insert_n s' ks w w rfl, hs]

theorem runAbs_n : ∀ {hist hist' : List (Key × Int)} {s s' : St}, nS s = nS s' → words hist = words hist' → nS (runAbs s hist) = nS (runAbs s' hist')
  | [], [], _, _, h, _ => h
  | [], _ :: _, _, _, _, h => by simp [words] at h
  | _ :: _, [], _, _, _, h => by simp [words] at h
  | e :: hist, e' :: hist', s, s', hs, h => by
    simp only [words, List.map_cons, List.cons.injEq, Prod.mk.injEq] at h
    rw [runAbs, runAbs, List.foldl_cons, List.foldl_cons, ← runAbs, ← runAbs]
    refine runAbs_n ?_ h.2
    rw [h.1.1]
    exact insert_n' _ (by rw [word_eq, word_eq, h.1.2]) hs

theorem finish_n {s s' : St} (h : nS s = nS s') (hs : s.frames ≠ []) : s.finish = s'.finish := by
  have e : ∀ t : St, t.frames ≠ [] → (nS t).finish = t.finish := by
    intro t ht
    cases hf : t.frames with
    | nil => exact absurd hf ht
    | cons f fs =>
      unfold St.finish nS
      rw [hf]
      simp only [List.map_cons, closeFrames, closeFrames_n', nF, encNode_n]
  have hs' : s'.frames ≠ [] := by
    intro hc
    have := congrArg St.frames h
    simp [nS, hc, hs] at this
  rw [← e s hs, ← e s' hs', h]

theorem pushAll_ne (ks : List UInt8) {fs : List Frame} (h : ks ≠ [] ∨ fs ≠ []) : pushAll ks fs ≠ [] := by
  induction ks generalizing fs with
  | nil => simpa [pushAll] using h
  | cons k ks ih => rw [pushAll]; exact ih (.inr (by simp))

theorem walk_ne {c : Core} {v : Nat} : ∀ {ks : List UInt8} {down up : List Frame} {r : Core × List Frame}, Abs.walk c v ks down up = some r → ks ≠ [] ∨ up ≠ [] → r.2 ≠ []
  | [], _, up, r, h, hne => by
    simp only [Abs.walk, Option.some.injEq] at h
    subst h
    simpa using hne
  | k :: ks, [], up, r, h, _ => by
    simp only [Abs.walk, Option.some.injEq] at h
    subst h
    exact pushAll_ne _ (.inl (by simp))
  | k :: ks, f :: down, up, r, h, _ => by
    rw [Abs.walk] at h
    split at h
    · cases h
    · split at h
      · simp only [Option.some.injEq] at h
        subst h
        exact pushAll_ne _ (.inr (by simp))
      · exact walk_ne h (.inr (by simp))

theorem insert_ne (s : St) {ks : List UInt8} (v : Nat) (h : ks ≠ []) : (s.insert ks v).1.frames ≠ [] := by
  unfold St.insert
  cases hw : Abs.walk s.core s.val ks s.frames.reverse [] with
  | none =>
    intro hc
    have hc : s.frames = [] := hc
    rw [hc] at hw
    cases ks with
    | nil => exact h rfl
    | cons k ks => simp [Abs.walk] at hw
  | some r => exact walk_ne hw (.inl h)

theorem finish_words {hist hist' : List (Key × Int)} (h : words hist = words hist') : (runAbs St.init hist).finish = (runAbs St.init hist').finish := by
  rcases List.eq_nil_or_concat hist with rfl | ⟨i, e, rfl⟩
  · have : hist' = [] := by simpa [words] using h.symm
    rw [this]
  · refine finish_n (runAbs_n rfl h) ?_
    rw [List.concat_eq_append, runAbs_snoc]
    exact insert_ne _ _ (by simp)

/-- **C63.** The finished Dawg is determined by the accepted keys with their stored values, and determines them: it does not depend on rejected insertions, on overwritten
values or on the initial table size. -/
theorem C63_canonical {m n : Nat} (hm1 : 1 ≤ m) (hm2 : m < 2 ^ 32) (hn1 : 1 ≤ n) (hn2 : n < 2 ^ 32) {hist hist' : List (Key × Int)} (h : Admissible hist)
    (h' : Admissible hist') : ∃ oks oks' b b' d d', Client.build m hist = .ok (oks, b, d) ∧ Client.build n hist' = .ok (oks', b', d') ∧ 
      (d = d' ↔ words (accepted hist) = words (accepted hist')) := by
  obtain ⟨d, hd, hd1, hd2⟩ := build_spec m hm1 hm2 hist h
  obtain ⟨d', hd', hd1', hd2'⟩ := build_spec n hn1 hn2 hist' h'
  refine ⟨_, _, _, _, d, d', hd, hd', ?_, ?_⟩
  · rintro rfl
    obtain ⟨f, hf⟩ := hd1.dumpAll hd2
    obtain ⟨f', hf'⟩ := hd1'.dumpAll hd2'
    have e1 := hf (max f f') (Nat.le_max_left ..)
    have e2 := hf' (max f f') (Nat.le_max_right ..)
    rw [e1] at e2
    exact Except.ok.inj e2
  · intro heq
    rw [runAbs_accepted _ _ rfl h, finish_words heq, ← runAbs_accepted _ _ rfl h'] at hd1
    exact hd1.unique hd1'

/-- An overwritten value, a rejected key, a negative value. -/
example : ∃ oks oks' b b' d d', Client.build 7 [([97], 1), ([97], 5), ([98, 99], 2147483646), ([97], 9)] = .ok (oks, b, d) ∧
    Client.build 1 [([97], 5), ([98, 99], -2)] = .ok (oks', b', d') ∧ d = d' := by
  obtain ⟨oks, oks', b, b', d, d', h1, h2, h3⟩ := C63_canonical (m := 7) (n := 1) (by decide) (by decide) (by decide) (by decide)
    (hist := [([97], 1), ([97], 5), ([98, 99], 2147483646), ([97], 9)]) (hist' := [([97], 5), ([98, 99], -2)]) ⟨by decide, by decide⟩ ⟨by decide, by decide⟩
  exact ⟨oks, oks', b, b', d, d', h1, h2, h3.2 (by decide)⟩

/-- A different value makes a difference. -/
example : ∃ oks oks' b b' d d', Client.build 7 [([97], 5)] = .ok (oks, b, d) ∧ Client.build 7 [([97], 6)] = .ok (oks', b', d') ∧ d ≠ d' := by
  obtain ⟨oks, oks', b, b', d, d', h1, h2, h3⟩ := C63_canonical (m := 7) (n := 7) (by decide) (by decide) (by decide) (by decide)
    (hist := [([97], 5)]) (hist' := [([97], 6)]) ⟨by decide, by decide⟩ ⟨by decide, by decide⟩
  exact ⟨oks, oks', b, b', d, d', h1, h2, fun h => absurd (h3.1 h) (by decide)⟩

/-! ## dawgtool -/

theorem bind_ok {ε α β : Type} {x : Except ε α} {f : α → Except ε β} {b : β} : (x >>= f) = .ok b ↔ ∃ a, x = .ok a ∧ f a = .ok b := by
  cases x with
  | error e => exact ⟨fun h => (by cases h), fun ⟨_, h, _⟩ => (by cases h)⟩
  | ok a => exact ⟨fun h => ⟨a, rfl, h⟩, fun ⟨_, h1, h2⟩ => (by cases h1; exact h2)⟩

theorem sorted_unique {α : Type} {less : α → α → Bool} (hw : StrictWeak less) (ht : ∀ a b, less a b = false → less b a = false → a = b)
    {s s' : (α → α → Bool) → List α → List α} (hs : StableSort s) (hs' : StableSort s') {l l' : List α} (hp : l.Perm l') : s less l = s' less l' :=
  List.Perm.eq_of_pairwise (le := fun a b => less b a = false) (fun a b _ _ h1 h2 => ht a b h2 h1) (hs.sorted less l hw) (hs'.sorted less l' hw)
    ((hs.perm less l).trans (hp.trans (hs'.perm less l').symm))

theorem linkCmp_total {cmp : Int → Int → Bool} (h : StrictTotal cmp) (a b : Link) (h1 : linkCmp cmp a b = false) (h2 : linkCmp cmp b a = false) : a = b := by
  unfold linkCmp at h1 h2
  by_cases hv : a.value = b.value
  · rw [if_neg (by simp [hv]), decide_eq_false_iff_not] at h1 h2
    have hl : a.label = b.label := UInt8.le_antisymm (UInt8.not_lt.1 h2) (UInt8.not_lt.1 h1)
    cases a; cases b; simp_all
  · rw [if_pos hv] at h1
    rw [if_pos (Ne.symm hv)] at h2
    rcases h.total _ _ hv with h3 | h3
    · rw [h2] at h3; cases h3
    · rw [h1] at h3; cases h3

theorem enumerateLinks_congr {d : Dawg} {D : Dictionary} {f g : RankedBuilder → Nat → Nat → Go (RankedBuilder × Option Int)} (h : ∀ rb i x, f rb i x = g rb i x) (u : Nat) (ks : List Nat) (rb : RankedBuilder) :
    RankedBuilder.enumerateLinks d D f u ks rb = RankedBuilder.enumerateLinks d D g u ks rb := by
  have : f = g := by funext rb i x; exact h rb i x
  rw [this]

theorem buildIndices_congr {s s' : Sorter} {d : Dawg} {D : Dictionary} {cmp : Int → Int → Bool} (h : s (linkCmp cmp) = s' (linkCmp cmp)) :
    ∀ fuel rb i x, RankedBuilder.buildIndices s d D cmp fuel rb i x = RankedBuilder.buildIndices s' d D cmp fuel rb i x
  | 0, _, _, _ => rfl
  | fuel + 1, rb, i, x => by
    unfold RankedBuilder.buildIndices
    have e : (fun rb i x => RankedBuilder.buildIndices s d D cmp fuel rb i x) = (fun rb i x => RankedBuilder.buildIndices s' d D cmp fuel rb i x) := by
      funext rb i x; exact buildIndices_congr h fuel rb i x
    rw [h, e]

theorem buildRankedGuide_congr {s s' : Sorter} (hs : StableSort s) (hs' : StableSort s') (d : Dawg) (D : Dictionary) : buildRankedGuide s d D = buildRankedGuide s' d D := by
  have h : s (linkCmp (fun lhs rhs => decide (lhs < rhs))) = s' (linkCmp (fun lhs rhs => decide (lhs < rhs))) := by
    funext l
    exact sorted_unique (linkCmp_strictWeak strictTotal_lt) (linkCmp_total strictTotal_lt) hs hs' (List.Perm.refl l)
  unfold buildRankedGuide buildRankedGuideCmp RankedBuilder.build
  simp only [buildIndices_congr h]

theorem buildFile_congr {s s' : Sorter} (hs : StableSort s) (hs' : StableSort s') (o : Opts) (d : Dawg) : buildFile s o d = buildFile s' o d := by
  unfold buildFile
  simp only [buildRankedGuide_congr hs hs']

/-- **C63**, `-s` without `-u`: the order of the lines does not matter, whatever the lines are and whatever the outcome is; nor do the sorting routines. -/
theorem C63_order {sorter sorter' : LineSorter} (hs : StableSort sorter) (hs' : StableSort sorter') {linkSorter linkSorter' : Sorter} (hls : StableSort linkSorter)
    (hls' : StableSort linkSorter') (grow grow' : Nat → Nat) {o : Opts} (ho : o.sort = true) (hu : o.utfc = false) {lexicon lexicon' : List UInt8}
    (hp : (scanLines lexicon).Perm (scanLines lexicon')) : mainBuild sorter linkSorter grow o lexicon = mainBuild sorter' linkSorter' grow' o lexicon' := by
  have e : orderLines sorter grow o (scanLines lexicon) = orderLines sorter' grow' o (scanLines lexicon') := by
    unfold orderLines
    rw [if_pos ho, if_pos ho, hu]
    exact sorted_unique bytesLess_weak (fun a b h1 h2 => by
      rw [bytesLess_eq, decide_eq_false_iff_not] at h1 h2
      exact List.le_antisymm (List.not_lt.1 h2) (List.not_lt.1 h1)) hs hs' hp
  unfold mainBuild buildDawg
  simp only [e, buildFile_congr hls hls']

/-- "b\t2", "a\t1" and "a\t3" in two orders. -/
example (sorter : LineSorter) (hs : StableSort sorter) (linkSorter : Sorter) (hls : StableSort linkSorter) (grow : Nat → Nat) :
    mainBuild sorter linkSorter grow { sort := true, tab := true, ranked := true } "b\t2\na\t1\na\t3\n".toUTF8.toList =
      mainBuild sorter linkSorter grow { sort := true, tab := true, ranked := true } "a\t3\r\nb\t2\na\t1".toUTF8.toList :=
  C63_order hs hs hls hls grow grow rfl rfl (List.isPerm_iff.1 (by decide +kernel))

theorem processLines_insertAll {o : Opts} : ∀ {lines : List (List UInt8)} {b b' : Builder}, processLines o lines b = .ok b' →
    ∃ oks, insertAll b ((lines.filter (fun l => l.length ≠ 0)).map (entry o)) = .ok (b', oks) ∧ (∀ ok ∈ oks, ok = true) ∧ ∀ l ∈ lines, l ≠ [] → ∃ p, parseLine o.tab l = .ok p
  | [], b, b', h => by
    simp only [processLines, Except.ok.injEq] at h
    exact ⟨[], by simp [insertAll, h], by simp, by simp⟩
  | l :: lines, b, b', h => by
    rw [processLines] at h
    obtain ⟨⟨b1, t⟩, h1, h2⟩ := bind_ok.1 h
    obtain ⟨oks, k1, k2, k3⟩ := processLines_insertAll h2
    by_cases hl : l.length = 0
    · rw [processLine, if_pos hl] at h1
      cases h1
      rw [List.filter_cons_of_neg (by simp [List.length_eq_zero_iff.1 hl])]
      refine ⟨oks, k1, k2, fun x hx hne => ?_⟩
      rcases List.mem_cons.1 hx with rfl | hx
      · exact absurd (List.length_eq_zero_iff.1 hl) hne
      · exact k3 x hx hne
    · rw [List.filter_cons_of_pos (by simpa using hl), List.map_cons, insertAll]
      rw [processLine, if_neg hl] at h1
      obtain ⟨p, h3, h4⟩ := bind_ok.1 h1
      have he : entry o l = (keyBytes o.utfc p.1, p.2) := by simp only [entry, h3]
      obtain ⟨⟨b2, ok⟩, h5, h6⟩ := bind_ok.1 h4
      have h5' : b.insertKeyValue (keyBytes o.utfc p.1) (keyBytes o.utfc p.1).length p.2 = .ok (b2, ok) := by
        revert h5
        cases b.insertKeyValue (keyBytes o.utfc p.1) (keyBytes o.utfc p.1).length p.2 with
        | error f => intro h5; cases h5
        | ok r => intro h5; cases h5; rfl
      cases ok with
      | false => cases h6
      | true =>
        cases h6
        refine ⟨true :: oks, ?_, by simpa using k2, fun x hx hne => ?_⟩
        · rw [he]
          unfold Builder.insertStringValue
          simp only [h5', ok_bind, k1, pure_eq_ok]
        · rcases List.mem_cons.1 hx with rfl | hx
          · exact ⟨p, h3⟩
          · exact k3 x hx hne

/-- What dawgtool has inserted when it has built a Dawg. -/
theorem buildDawg_history {sorter : LineSorter} (hs : StableSort sorter) {grow : Nat → Nat} {o : Opts} {lines : List (List UInt8)} {d : Dawg} (h : buildDawg sorter grow o lines = .ok d) :
    ∃ ls : List (List UInt8), ls.Perm (lines.filter (fun l => l.length ≠ 0)) ∧ ∃ oks b, Client.build 256 (ls.map (entry o)) = .ok (oks, b, d) ∧ ∀ ok ∈ oks, ok = true := by
  unfold buildDawg at h
  obtain ⟨b, h1, h2⟩ := bind_ok.1 h
  obtain ⟨oks, k1, k2, _⟩ := processLines_insertAll h1
  obtain ⟨⟨b', d'⟩, h3, h4⟩ := bind_ok.1 h2
  cases h4
  have h3' : b.finish = .ok (b', d) := by
    revert h3
    cases b.finish with
    | error f => intro h3; cases h3
    | ok r => intro h3; cases h3; rfl
  refine ⟨(orderLines sorter grow o lines).filter (fun l => l.length ≠ 0), ?_, oks, b', ?_, k2⟩
  · refine List.Perm.filter _ ?_
    unfold orderLines
    split
    · exact hs.perm _ _
    · exact List.Perm.refl _
  · unfold Client.build
    change (insertAll Builder.new _ >>= _) = _
    rw [k1]
    simp only [ok_bind, h3', pure_eq_ok]

/-- The keys and values that a lexicon contains. -/
def entries (o : Opts) (lines : List (List UInt8)) : List (Key × Int) := (lines.filter (fun l => l.length ≠ 0)).map (entry o)

/-- Two histories with non-decreasing keys and the same pairs, one value for each key. -/
theorem accepted_same {hist hist' : List (Key × Int)} (h : ∀ ok ∈ verdicts [] hist, ok = true) (h' : ∀ ok ∈ verdicts [] hist', ok = true) (hm : ∀ e, e ∈ hist ↔ e ∈ hist')
    (hv : ∀ a ∈ hist, ∀ b ∈ hist, a.1 = b.1 → a.2 = b.2) : accepted hist = accepted hist' := by
  have key : ∀ {x y : List (Key × Int)}, (∀ ok ∈ verdicts [] y, ok = true) → (∀ e, e ∈ x → e ∈ y) → (∀ a ∈ y, ∀ b ∈ y, a.1 = b.1 → a.2 = b.2) → ∀ e ∈ accepted x, e ∈ accepted y := by
    intro x y hy hxy hv e he
    have h1 := hxy e (mem_of_accepted he)
    obtain ⟨e', h2, h3⟩ := (keys_accepted hy e.1).2 ⟨e, h1, rfl⟩
    have h4 := hv e' (mem_of_accepted h2) e h1 h3
    have : e' = e := Prod.ext h3 h4
    rwa [← this]
  have hnd : ∀ x : List (Key × Int), (accepted x).Nodup := fun x => (accepted_sorted x).imp (fun {a b} hab => by rintro rfl; exact absurd hab (List.lt_irrefl _))
  refine List.Perm.eq_of_pairwise (le := fun a b : Key × Int => a.1 < b.1) (fun a b _ _ h1 h2 => absurd (List.lt_trans h1 h2) (List.lt_irrefl _)) (accepted_sorted _) (accepted_sorted _)
    ((List.perm_ext_iff_of_nodup (hnd _) (hnd _)).2 fun e => ⟨key h' (fun e he => (hm e).1 he) ?_ e, key h (fun e he => (hm e).2 he) hv e⟩)
  intro a ha b hb
  exact hv a ((hm a).2 ha) b ((hm b).2 hb)

/-- **C63**, all options: two lexicons with the same keys and values give the same Dawg, when both can be built at all. -/
theorem C63_dawg {sorter sorter' : LineSorter} (hs : StableSort sorter) (hs' : StableSort sorter') {grow grow' : Nat → Nat} {o : Opts} {lines lines' : List (List UInt8)} {d d' : Dawg}
    (h : buildDawg sorter grow o lines = .ok d) (h' : buildDawg sorter' grow' o lines' = .ok d') (hadm : Admissible (entries o lines)) (hadm' : Admissible (entries o lines'))
    (hsame : ∀ e, e ∈ entries o lines ↔ e ∈ entries o lines') (hv : ∀ a ∈ entries o lines, ∀ b ∈ entries o lines, a.1 = b.1 → a.2 = b.2) : d = d' := by
  have key : ∀ {sorter : LineSorter} (_ : StableSort sorter) {grow : Nat → Nat} {lines : List (List UInt8)} {d : Dawg}, buildDawg sorter grow o lines = .ok d → Admissible (entries o lines) →
      ∃ hist oks b, Client.build 256 hist = .ok (oks, b, d) ∧ (∀ ok ∈ verdicts [] hist, ok = true) ∧ Admissible hist ∧ ∀ e, e ∈ hist ↔ e ∈ entries o lines := by
    intro sorter hs grow lines d h1 hadm
    obtain ⟨ls, p1, oks, b, p2, p3⟩ := buildDawg_history hs h1
    have hp := p1.map (entry o)
    have hadm' : Admissible (ls.map (entry o)) := ⟨fun e he => hadm.nulFree e (hp.mem_iff.1 he), by rw [(hp.map _).sum_nat]; exact hadm.small⟩
    refine ⟨_, oks, b, p2, ?_, hadm', fun e => hp.mem_iff⟩
    obtain ⟨b', d', h3⟩ := C07_build_returns 256 (by omega) (by omega) _ hadm'
    rw [p2] at h3
    simp only [Except.ok.injEq, Prod.mk.injEq] at h3
    rwa [h3.1] at p3
  obtain ⟨hist, oks, b, k1, k2, k3, k4⟩ := key hs h hadm
  obtain ⟨hist', oks', b', k1', k2', k3', k4'⟩ := key hs' h' hadm'
  have hacc : accepted hist = accepted hist' := accepted_same k2 k2' (fun e => (k4 e).trans ((hsame e).trans (k4' e).symm)) (fun a ha b hb => hv a ((k4 a).1 ha) b ((k4 b).1 hb))
  obtain ⟨o1, o2, b1, b2, d1, d2, e1, e2, e3⟩ := C63_canonical (m := 256) (n := 256) (by omega) (by omega) (by omega) (by omega) k3 k3'
  rw [k1] at e1
  rw [k1'] at e2
  cases e1
  cases e2
  exact e3.2 (by rw [hacc])

/-- **C63**, all options: two lexicons with the same keys and values give the same dictionary file, when both can be built at all. -/
theorem C63_file {sorter sorter' : LineSorter} (hs : StableSort sorter) (hs' : StableSort sorter') {linkSorter linkSorter' : Sorter} (hls : StableSort linkSorter)
    (hls' : StableSort linkSorter') {grow grow' : Nat → Nat} {o : Opts} {lexicon lexicon' : List UInt8} {file file' : List UInt8}
    (h : mainBuild sorter linkSorter grow o lexicon = .ok file) (h' : mainBuild sorter' linkSorter' grow' o lexicon' = .ok file')
    (hadm : Admissible (entries o (scanLines lexicon))) (hadm' : Admissible (entries o (scanLines lexicon')))
    (hsame : ∀ e, e ∈ entries o (scanLines lexicon) ↔ e ∈ entries o (scanLines lexicon'))
    (hv : ∀ a ∈ entries o (scanLines lexicon), ∀ b ∈ entries o (scanLines lexicon), a.1 = b.1 → a.2 = b.2) : file = file' := by
  unfold mainBuild at h h'
  obtain ⟨d, h1, h2⟩ := bind_ok.1 h
  obtain ⟨d', h1', h2'⟩ := bind_ok.1 h'
  have hd := C63_dawg hs hs' h1 h1' hadm hadm' hsame hv
  subst hd
  rw [buildFile_congr hls hls', h2'] at h2
  exact (Except.ok.inj h2).symm

theorem scanLoop_size : ∀ (bs cur : List UInt8), ((scanLoop bs cur).map (fun l => l.length + 1)).sum ≤ bs.length + cur.length + 1
  | [], cur => by
    have : (dropCR cur).length ≤ cur.length := by unfold dropCR; split <;> simp
    unfold scanLoop
    split
    · simp
    · simp only [List.map_cons, List.map_nil, List.sum_cons, List.sum_nil, List.length_nil]; omega
  | b :: bs, cur => by
    have : (dropCR cur).length ≤ cur.length := by unfold dropCR; split <;> simp
    unfold scanLoop
    split
    · have := scanLoop_size bs []
      simp only [List.map_cons, List.sum_cons, List.length_nil, List.length_cons] at *; omega
    · split
      · simp
      · have := scanLoop_size bs (cur ++ [b])
        simp only [List.length_append, List.length_cons, List.length_nil] at *; omega

/-- **C63**, `-s` without `-t` and `-u`: the dictionary file is a function of the set of non-empty lines. -/
theorem C63_lines {sorter sorter' : LineSorter} (hs : StableSort sorter) (hs' : StableSort sorter') {linkSorter linkSorter' : Sorter} (hls : StableSort linkSorter)
    (hls' : StableSort linkSorter') (grow grow' : Nat → Nat) {o : Opts} (ho : o.sort = true) (ht : o.tab = false) (hu : o.utfc = false) {lexicon lexicon' : List UInt8}
    (hnul : ∀ l ∈ scanLines lexicon, (0 : UInt8) ∉ l) (hsz : lexicon.length < 1073741823) (hsz' : lexicon'.length < 1073741823)
    (hsame : ∀ l, l ≠ [] → (l ∈ scanLines lexicon ↔ l ∈ scanLines lexicon')) : mainBuild sorter linkSorter grow o lexicon = mainBuild sorter' linkSorter' grow' o lexicon' := by
  have hnul' : ∀ l ∈ scanLines lexicon', (0 : UInt8) ∉ l := by
    intro l hl
    by_cases he : l = []
    · simp [he]
    · exact hnul l ((hsame l he).2 hl)
  have hent : ∀ l, entry o l = (l, 0) := by
    intro l
    simp only [entry, parseLine, ht, hu, keyBytes]
    rfl
  have key : ∀ {sorter : LineSorter} (_ : StableSort sorter) (grow : Nat → Nat) {lex : List UInt8}, lex.length < 1073741823 → (∀ l ∈ scanLines lex, (0 : UInt8) ∉ l) →
      (∃ d, buildDawg sorter grow o (scanLines lex) = .ok d) ∧ Admissible (entries o (scanLines lex)) := by
    intro sorter hs grow lex hsz hnul
    have hsum : ((scanLines lex).map (fun l => (entry o l).1.length + 1)).sum < 1073741824 := by
      have := scanLoop_size lex []
      simp only [hent]
      unfold scanLines
      simp only [List.length_nil] at this
      omega
    constructor
    · obtain ⟨d, ls, _, h1, _⟩ := build_sorted (o := o) hs grow ho hu (lines := scanLines lex) (fun l _ _ => by simp [parseLine, ht]) (fun l hl _ => by rw [hent]; exact hnul l hl) hsum
        (fun a _ b _ _ _ h => by rw [hent, hent]; exact h)
      exact ⟨d, h1⟩
    · refine ⟨fun e he => ?_, Nat.lt_of_le_of_lt (filter_small o _) hsum⟩
      obtain ⟨l, hl, rfl⟩ := List.mem_map.1 he
      rw [hent]
      exact hnul l ((List.mem_filter.1 hl).1)
  obtain ⟨⟨d, h1⟩, h2⟩ := key hs grow hsz hnul
  obtain ⟨⟨d', h1'⟩, h2'⟩ := key hs' grow' hsz' hnul'
  have hmem : ∀ (lines : List (List UInt8)) (e : Key × Int), e ∈ entries o lines ↔ (e.1 ∈ lines ∧ e.1 ≠ []) ∧ e.2 = 0 := by
    intro lines e
    unfold entries
    rw [List.mem_map]
    constructor
    · rintro ⟨l, hl, rfl⟩
      rw [hent]
      rw [List.mem_filter] at hl
      exact ⟨⟨hl.1, by rintro rfl; simp at hl⟩, rfl⟩
    · rintro ⟨⟨a1, a2⟩, a3⟩
      exact ⟨e.1, List.mem_filter.2 ⟨a1, by simpa using a2⟩, by rw [hent, ← a3]⟩
  have hd : d = d' := C63_dawg hs hs' h1 h1' h2 h2' (fun e => by
    rw [hmem, hmem]
    constructor
    · rintro ⟨⟨a1, a2⟩, a3⟩; exact ⟨⟨(hsame _ a2).1 a1, a2⟩, a3⟩
    · rintro ⟨⟨a1, a2⟩, a3⟩; exact ⟨⟨(hsame _ a2).2 a1, a2⟩, a3⟩) (fun a ha b hb _ => by rw [((hmem _ a).1 ha).2, ((hmem _ b).1 hb).2])
  subst hd
  unfold mainBuild
  rw [h1, h1']
  exact buildFile_congr hls hls' o d

/-- "b", "", "a", "b" and "a", "b". -/
example (sorter : LineSorter) (hs : StableSort sorter) (linkSorter : Sorter) (hls : StableSort linkSorter) (grow : Nat → Nat) :
    mainBuild sorter linkSorter grow { sort := true, guide := true, index := true } "b\n\na\nb".toUTF8.toList =
      mainBuild sorter linkSorter grow { sort := true, guide := true, index := true } "a\r\nb\r\n".toUTF8.toList := by
  have e1 : scanLines "b\n\na\nb".toUTF8.toList = [[98], [], [97], [98]] := by decide +kernel
  have e2 : scanLines "a\r\nb\r\n".toUTF8.toList = [[97], [98]] := by decide +kernel
  refine C63_lines hs hs hls hls grow grow rfl rfl rfl (by rw [e1]; decide) (by decide +kernel) (by decide +kernel) ?_
  rw [e1, e2]
  intro l hl
  simp only [List.mem_cons, List.not_mem_nil, or_false]
  grind

/-- Small lexicons in order can be built. -/
theorem unsorted_ok {o : Opts} (ho : o.sort = false) (hi : o.index = false) {lexicon : List UInt8} (hparse : ∀ l ∈ scanLines lexicon, l ≠ [] → ∃ p, parseLine o.tab l = .ok p)
    (hnul : ∀ l ∈ scanLines lexicon, l ≠ [] → (0 : UInt8) ∉ (entry o l).1) (hsz : ((scanLines lexicon).map (fun l => (entry o l).1.length + 1)).sum < 2097152)
    (hord : ((scanLines lexicon).filter (fun l => l.length ≠ 0)).Pairwise (fun a b => ¬ (entry o b).1 < (entry o a).1))
    (sorter : LineSorter) {linkSorter : Sorter} (hls : StableSort linkSorter) (grow : Nat → Nat) : ∃ file, mainBuild sorter linkSorter grow o lexicon = .ok file := by
  obtain ⟨d, oks, b, h1, h2, _⟩ := (C47_unsorted sorter grow ho hparse hnul (by omega)).1 hord
  obtain ⟨d', D, h3, oks', b', h4⟩ := C14_small_builds 256 (by omega) (by omega) (entries o (scanLines lexicon)) (fun e he => by
    obtain ⟨l, hl, rfl⟩ := List.mem_map.1 he
    obtain ⟨l1, l2⟩ := List.mem_filter.1 hl
    exact hnul l l1 (by rintro rfl; simp at l2)) (Nat.lt_of_le_of_lt (filter_small o _) hsz)
  rw [show Client.build 256 (entries o (scanLines lexicon)) = .ok (oks, b, d) from h2] at h4
  cases h4
  obtain ⟨file, h5⟩ := C45_tool_writes h3 hls o (by simp [hi])
  refine ⟨file, ?_⟩
  unfold mainBuild
  rw [h1]
  exact h5

def lexicon0 : List UInt8 := "a\t0\nb\t7\n".toUTF8.toList
def lexicon1 : List UInt8 := "a\t-5\na\t0\nb\t7\tx\n".toUTF8.toList

/-- With `-t`: repeated lines, and values outside of the range. -/
example (sorter sorter' : LineSorter) (hs : StableSort sorter) (hs' : StableSort sorter') (linkSorter : Sorter) (hls : StableSort linkSorter) (grow : Nat → Nat) :
    ∃ file, mainBuild sorter linkSorter grow { tab := true } lexicon0 = .ok file ∧ mainBuild sorter' linkSorter grow { tab := true } lexicon1 = .ok file := by
  have l0 : scanLines lexicon0 = [[97, 9, 48], [98, 9, 55]] := by decide +kernel
  have l1 : scanLines lexicon1 = [[97, 9, 45, 53], [97, 9, 48], [98, 9, 55, 9, 120]] := by decide +kernel
  obtain ⟨f, h1⟩ := unsorted_ok (o := { tab := true }) (lexicon := lexicon0) rfl rfl (by
    rw [l0]; intro l hl _; simp only [List.mem_cons, List.not_mem_nil, or_false] at hl; rcases hl with rfl | rfl <;> exact ⟨_, rfl⟩)
    (by rw [l0]; decide) (by rw [l0]; decide) (by rw [l0]; decide) sorter hls grow
  obtain ⟨f', h2⟩ := unsorted_ok (o := { tab := true }) (lexicon := lexicon1) rfl rfl (by
    rw [l1]; intro l hl _; simp only [List.mem_cons, List.not_mem_nil, or_false] at hl; rcases hl with rfl | rfl | rfl <;> exact ⟨_, rfl⟩)
    (by rw [l1]; decide) (by rw [l1]; decide) (by rw [l1]; decide) sorter' hls grow
  have e1 : entries { tab := true } (scanLines lexicon0) = [([97], 0), ([98], 7)] := by decide +kernel
  have e2 : entries { tab := true } (scanLines lexicon1) = [([97], 0), ([97], 0), ([98], 7)] := by decide +kernel
  have := C63_file hs hs' hls hls h1 h2 (by rw [e1]; exact ⟨by decide, by decide⟩) (by rw [e2]; exact ⟨by decide, by decide⟩) (by rw [e1, e2]; simp) (by rw [e1]; decide)
  exact ⟨f, h1, this ▸ h2⟩

end Dawg.Props
