import Verif.Props.View
/-! # C22–C26: guides and completers -/
namespace Dawg.Props
open Dawg Dawg.Spec Dawg.Client Dawg.Abs Dawg.Dict Dawg.Guided
attribute [-simp] List.length_flatten

/-! ## C26 -/

/-- **C26.** `BuildGuide` succeeds on every finished Dawg and its dictionary.  For the index `u` of a prefix `p` of a key, `Child(u)` is the smallest
byte that continues `p`, and for the index `v` behind such a byte, `Sibling(v)` is the next greater one (0 if there is none). -/
theorem C26_guide {hist d D} (h : Made hist d D) : ∃ gd, buildGuide d D = .ok (some gd) ∧
    gd.size = (if accepted hist = [] then 0 else D.size) ∧
    ∀ p u n, (∃ e ∈ accepted hist, p <+: e.1) → D.followString p D.root = .ok (true, u, n) →
      gd.child u = .ok ((heads (residual (accepted hist) p)).headD 0) ∧
      ∀ A l B, heads (residual (accepted hist) p) = A ++ l :: B → ∃ v, D.follow l u = .ok (some v) ∧ gd.sibling v = .ok (B.headD 0) := by
  by_cases hne : accepted hist = []
  · refine ⟨Guide.new, ?_, by rw [if_pos hne]; rfl, ?_⟩
    · unfold buildGuide GuideBuilder.build
      simp only
      rw [if_pos (by rw [Made.empty_size h hne]; omega)]
      rfl
    · rintro p u n ⟨e, he, _⟩
      rw [hne] at he; simp at he
  · obtain ⟨At, kid, DAt, V, h0, W, hd0⟩ := Made.view h hne
    obtain ⟨gd, e1, e2⟩ := buildGuide_spec V W h0 hd0
    refine ⟨gd, e1, by rw [if_neg hne]; exact e2.size, ?_⟩
    intro p u n hp hf
    have hu := Made.index h V h0 hp hf
    have hh : heads (residual (words (accepted hist)) p) = heads (residual (accepted hist) p) := by
      unfold heads words residual
      simp only [List.filter_map (l := accepted hist), List.map_map, List.any_map, Function.comp_def]
    rw [← hh]
    refine ⟨e2.child hu, ?_⟩
    intro A l B hL
    have hl : l ∈ heads (residual (words (accepted hist)) p) := by rw [hL]; simp
    exact ⟨kid u l, (V.reach h0).follow hu hl, e2.sibling hu hL⟩

/-- The three keys used in examples. -/
def keysG : List (Key × Int) := [([97], 5), ([97, 98], 3), ([98], 7)]

theorem madeG : ∃ d D, Made keysG d D := by
  obtain ⟨d, D, h, _⟩ := C14_small_builds 1 (by omega) (by omega) keysG (by decide) (by decide)
  exact ⟨d, D, h⟩

example : ∃ hist d D gd, Made hist d D ∧ buildGuide d D = .ok (some gd) ∧ gd.child D.root = .ok 97 := by
  obtain ⟨d, D, h⟩ := madeG
  obtain ⟨gd, h1, _, h2⟩ := C26_guide h
  have := (h2 [] 0 0 ⟨([97], 5), by decide, by simp⟩ rfl).1
  exact ⟨_, d, D, gd, h, h1, by rw [show D.root = 0 from rfl, this]; decide⟩

/-! ## C22 -/

theorem Ready.listing {D : Dictionary} {At kid clean} (V : View D At kid clean) {gd : Guide} (hg : GuideIs D At kid heads gd) {u0 L0} (h0 : At u0 L0) {P : Key} :
    ∀ {T c} (n : Nat), Ready D kid P u0 L0 c T → T.length < n →
    ∃ c', Client.listing D gd n c = .ok (T.map (fun e => (P ++ e.1 ++ [0], ((P.length + e.1.length : Nat) : Int), e.2)), c') ∧ c'.indexStack = []
  | T, c, 0, _, hn => absurd hn (by omega)
  | T, c, n + 1, hr, hn => by
    rcases next_spec V hg h0 hr with ⟨rfl, c', e1, e2⟩ | ⟨k, v, T', c', rfl, e1, e2, e3, e4⟩
    · refine ⟨c', ?_, e2⟩
      rw [Client.listing, e1]
      rfl
    · obtain ⟨c'', f1, f2⟩ := Ready.listing V hg h0 n e4 (by simp only [List.length_cons] at hn; omega)
      refine ⟨c'', ?_, f2⟩
      have hlen : c'.length = ((P.length + k.length : Nat) : Int) := by
        have : c'.path = P ++ k ++ [0] := e2
        unfold Completer.length
        rw [this]
        simp only [List.length_append, List.length_singleton]; omega
      rw [Client.listing, e1]
      simp only [ok_bind, Bool.not_true, Bool.false_eq_true, if_false, e3, f1, e2, hlen, pure_eq_ok, List.map_cons]

theorem next_ended {D : Dictionary} {gd : Guide} {c : Completer} (h : c.indexStack = []) : Completer.next D gd c = .ok (c, false) := by
  unfold Completer.next
  rw [h]
  rfl

/-- The full claim C22 (with the exact form of the keys left to C23): started at the index of the prefix `p`, with the string `P` to begin with, `Next`
succeeds once for every key with prefix `p`, in increasing order, then returns false for ever. -/
def C22_statement : Prop := ∀ hist d D gd p u n, Made hist d D → buildGuide d D = .ok (some gd) → (∃ e ∈ accepted hist, p <+: e.1) →
  D.followString p D.root = .ok (true, u, n) → ∀ (c c0 : Completer) (P : Key), Completer.startString gd c u P = .ok c0 →
    ∃ N, ∀ m, N ≤ m → ∃ c', listing D gd m c0 = .ok ((residual (words (accepted hist)) p).map
        (fun e => (P ++ e.1 ++ [0], ((P.length + e.1.length : Nat) : Int), e.2)), c') ∧ Completer.next D gd c' = .ok (c', false)

theorem startString_eq {gd : Guide} (hz : gd.size ≠ 0) (c : Completer) (u : Nat) (P : Key) :
    Completer.startString gd c u P = .ok ⟨P ++ [0], [u], 0⟩ := by
  unfold Completer.startString Completer.startStringLen Completer.takeLen
  rw [if_neg (by omega)]
  simp [hz, ok_bind, pure_eq_ok]

/-- **C22**, for all key sets and prefixes except the empty prefix in a dictionary with the empty key: `Next` succeeds once for every key with prefix `p`
in increasing byte order, `Value()` is its value, `Key()` is the string given to `StartString`, the rest of the key, and a NUL byte; then `Next`
returns false for ever.  (`Start(u)` is `StartString(u, "")`.) -/
theorem C22_completions_partial {hist d D gd p u n} (h : Made hist d D) (hg : buildGuide d D = .ok (some gd)) (hp : ∃ e ∈ accepted hist, p <+: e.1)
    (hf : D.followString p D.root = .ok (true, u, n)) (hx : ¬ (p = [] ∧ ∃ e ∈ accepted hist, e.1 = [])) (c : Completer) (P : Key) :
    ∃ c0, Completer.startString gd c u P = .ok c0 ∧
      ∀ m, (residual (words (accepted hist)) p).length < m → ∃ c', listing D gd m c0 = .ok ((residual (words (accepted hist)) p).map
        (fun e => (P ++ e.1 ++ [0], ((P.length + e.1.length : Nat) : Int), e.2)), c') ∧ Completer.next D gd c' = .ok (c', false) := by
  have hne : accepted hist ≠ [] := by
    obtain ⟨e, he, _⟩ := hp; exact List.ne_nil_of_mem he
  obtain ⟨At, kid, DAt, V, h0, W, hd0⟩ := Made.view h hne
  obtain ⟨gd', e1, e2⟩ := buildGuide_spec V W h0 hd0
  rw [hg] at e1
  cases e1
  have V' := V.reach h0
  have hu := Made.index h V h0 hp hf
  have hz : gd.size ≠ 0 := by
    have h1 := e2.size
    have h2 := V'.lt hu
    show gd.units.length ≠ 0
    omega
  refine ⟨_, startString_eq hz c u P, ?_⟩
  intro m hm
  have hr : Ready D kid P u (residual (words (accepted hist)) p) ⟨P ++ [0], [u], 0⟩ (residual (words (accepted hist)) p) := by
    refine .fresh ?_
    intro hu0 v hv
    subst hu0
    have := V'.func hu Reach.root
    rw [this] at hv
    refine hx ⟨?_, mem_words.1 ⟨v, hv⟩⟩
    -- only the empty prefix leads to the root
    cases hp' : p with
    | nil => rfl
    | cons l q =>
      exfalso
      rw [hp', show l :: q = [l] ++ q from rfl] at this
      obtain ⟨m, hm, hall⟩ := exists_longest (V'.ne Reach.root)
      have h2 := hm
      rw [← this, mem_residual] at h2
      have := hall _ h2
      simp only [List.length_append, List.length_cons] at this; omega
  obtain ⟨c', f1, f2⟩ := Ready.listing V' e2 hu m hr hm
  exact ⟨c', f1, next_ended f2⟩

example : ∃ hist d D gd u c0, Made hist d D ∧ buildGuide d D = .ok (some gd) ∧ D.followString [97] D.root = .ok (true, u, 1) ∧
    Completer.start gd Completer.new u = .ok c0 ∧ ∃ c', listing D gd 3 c0 = .ok ([([0], 0, 5), ([98, 0], 1, 3)], c') := by
  obtain ⟨d, D, h⟩ := madeG
  obtain ⟨gd, h1, _⟩ := C26_guide h
  obtain ⟨u, h2, _⟩ := follow_prefix h (q := [97]) ⟨([97], 5), by decide, by simp⟩
  obtain ⟨c0, h3, h4⟩ := C22_completions_partial h h1 ⟨([97], 5), by decide, by simp⟩ h2 (by simp) Completer.new []
  obtain ⟨c', h5, _⟩ := h4 3 (by decide)
  exact ⟨_, d, D, gd, u, c0, h, h1, h2, h3, c', h5⟩

/-! ## C24 -/

/-- With the empty key in the dictionary, a completer started at the root returns the empty key again and again. -/
theorem C24_empty_key_repeats {hist d D gd} (h : Made hist d D) (hg : buildGuide d D = .ok (some gd)) (he : ∃ e ∈ accepted hist, e.1 = []) (c : Completer)
    (P : Key) : ∃ c0, Completer.startString gd c D.root P = .ok c0 ∧ ∀ n, nextN D gd (n + 1) c0 = .ok (c0, true) := by
  have hne : accepted hist ≠ [] := by
    obtain ⟨e, he, _⟩ := he; exact List.ne_nil_of_mem he
  obtain ⟨At, kid, DAt, V, h0, W, hd0⟩ := Made.view h hne
  obtain ⟨gd', e1, e2⟩ := buildGuide_spec V W h0 hd0
  rw [hg] at e1
  cases e1
  have hz : gd.size ≠ 0 := by
    have h1 := e2.size
    have h2 := V.lt h0
    show gd.units.length ≠ 0
    omega
  refine ⟨_, startString_eq hz c D.root P, ?_⟩
  have hstep : Completer.next D gd ⟨P ++ [0], [D.root], 0⟩ = .ok (⟨P ++ [0], [D.root], 0⟩, true) := by
    unfold Completer.next
    simp only
    rw [if_neg (by simp [Dictionary.root])]
    unfold Completer.findTerminal
    rw [Completer.findTerminalLoop, show D.root = 0 from rfl, V.hasValue h0]
    obtain ⟨v, hv⟩ := mem_words.2 he
    rw [List.any_eq_true.2 ⟨_, hv, by simp⟩]
    rfl
  intro n
  induction n with
  | zero =>
    unfold nextN
    rw [hstep]
    rfl
  | succ n ih =>
    unfold nextN
    rw [hstep]
    simp only [ok_bind]
    rw [if_neg (by omega)]
    exact ih

/-- The full claim C24 for indices that `FollowString` reaches: after finitely many calls `Next` returns false, and stays at false. -/
def C24_statement : Prop := ∀ hist d D gd p u n, Made hist d D → buildGuide d D = .ok (some gd) → (∃ e ∈ accepted hist, p <+: e.1) →
  D.followString p D.root = .ok (true, u, n) → ∀ (c c0 : Completer) (P : Key), Completer.startString gd c u P = .ok c0 →
    ∃ N, ∀ m, N ≤ m → ∃ c', nextN D gd m c0 = .ok (c', false)

def keysE : List (Key × Int) := [([], 1), ([97], 2)]

theorem madeE : ∃ d D, Made keysE d D := by
  obtain ⟨d, D, h, _⟩ := C14_small_builds 1 (by omega) (by omega) keysE (by decide) (by decide)
  exact ⟨d, D, h⟩

/-- **C24 is false**: the keys "" and "a". -/
theorem C24_ends_false : ¬ C24_statement := by
  intro hs
  obtain ⟨d, D, h⟩ := madeE
  obtain ⟨gd, h1, _⟩ := C26_guide h
  obtain ⟨c0, h2, h3⟩ := C24_empty_key_repeats h h1 ⟨([], 1), by decide, rfl⟩ Completer.new []
  obtain ⟨N, h4⟩ := hs keysE d D gd [] D.root 0 h h1 ⟨([], 1), by decide, by simp⟩ rfl Completer.new c0 [] h2
  obtain ⟨c', h5⟩ := h4 (N + 1) (by omega)
  rw [h3 N] at h5
  cases h5

theorem listing_endless {D : Dictionary} {gd : Guide} {c0 : Completer} (h : nextN D gd 1 c0 = .ok (c0, true)) :
    ∀ m xs c', listing D gd m c0 ≠ .ok (xs, c') := by
  have hstep : Completer.next D gd c0 = .ok (c0, true) := by
    unfold nextN at h
    cases hn : Completer.next D gd c0 with
    | error e => rw [hn] at h; cases h
    | ok x => rw [hn] at h; exact h
  intro m
  induction m with
  | zero => intro xs c' hc; cases hc
  | succ m ih =>
    intro xs c' hc
    rw [listing, hstep] at hc
    simp only [ok_bind, Bool.not_true, Bool.false_eq_true, if_false] at hc
    cases hv : c0.value D with
    | error e => rw [hv] at hc; cases hc
    | ok v =>
      rw [hv] at hc
      simp only [ok_bind] at hc
      cases hl : listing D gd m c0 with
      | error e => rw [hl] at hc; cases hc
      | ok x => exact ih x.1 x.2 hl

/-- **C22 is false** for the same reason. -/
theorem C22_completions_false : ¬ C22_statement := by
  intro hs
  obtain ⟨d, D, h⟩ := madeE
  obtain ⟨gd, h1, _⟩ := C26_guide h
  obtain ⟨c0, h2, h3⟩ := C24_empty_key_repeats h h1 ⟨([], 1), by decide, rfl⟩ Completer.new []
  obtain ⟨N, h4⟩ := hs keysE d D gd [] D.root 0 h h1 ⟨([], 1), by decide, by simp⟩ rfl Completer.new c0 [] h2
  obtain ⟨c', h5, _⟩ := h4 (N + 1) (by omega)
  exact listing_endless (h3 0) _ _ _ h5

theorem nextN_listing {D : Dictionary} {gd : Guide} : ∀ {m c xs c'}, listing D gd m c = .ok (xs, c') → Completer.next D gd c' = .ok (c', false) →
    ∀ k, xs.length < k → nextN D gd k c = .ok (c', false)
  | 0, c, xs, c', h, _, _, _ => by cases h
  | m + 1, c, xs, c', h, he, k, hk => by
    obtain ⟨k, rfl⟩ : ∃ j, k = j + 1 := ⟨k - 1, by omega⟩
    have stay : ∀ k, nextN D gd (k + 1) c' = .ok (c', false) := by
      intro k
      induction k with
      | zero => unfold nextN; rw [he]; rfl
      | succ k ih =>
        unfold nextN
        rw [he]
        simp only [ok_bind]
        rw [if_neg (by omega)]
        exact ih
    rw [listing] at h
    unfold nextN
    cases hn : Completer.next D gd c with
    | error e => rw [hn] at h; cases h
    | ok x =>
      obtain ⟨c1, ok⟩ := x
      rw [hn] at h
      simp only [ok_bind] at h ⊢
      cases ok with
      | false =>
        simp only [Bool.not_false, if_true, pure_eq_ok, Except.ok.injEq, Prod.mk.injEq] at h
        obtain ⟨rfl, rfl⟩ := h
        by_cases hk0 : k = 0
        · rw [if_pos hk0]; rfl
        · rw [if_neg hk0]
          obtain ⟨k, rfl⟩ : ∃ j, k = j + 1 := ⟨k - 1, by omega⟩
          exact stay k
      | true =>
        simp only [Bool.not_true, Bool.false_eq_true, if_false] at h
        cases hv : c1.value D with
        | error e => rw [hv] at h; cases h
        | ok v =>
          rw [hv] at h
          simp only [ok_bind] at h
          cases hl : listing D gd m c1 with
          | error e => rw [hl] at h; cases h
          | ok y =>
            obtain ⟨ys, c2⟩ := y
            rw [hl] at h
            simp only [ok_bind, pure_eq_ok, Except.ok.injEq, Prod.mk.injEq] at h
            obtain ⟨rfl, rfl⟩ := h
            simp only [List.length_cons] at hk
            rw [if_neg (by omega)]
            exact nextN_listing hl he k (by omega)

/-- **C24**, for all indices reached with a prefix, except the root of a dictionary with the empty key. -/
theorem C24_ends_partial {hist d D gd p u n} (h : Made hist d D) (hg : buildGuide d D = .ok (some gd)) (hp : ∃ e ∈ accepted hist, p <+: e.1)
    (hf : D.followString p D.root = .ok (true, u, n)) (hx : ¬ (p = [] ∧ ∃ e ∈ accepted hist, e.1 = [])) (c : Completer) (P : Key) :
    ∃ c0, Completer.startString gd c u P = .ok c0 ∧
      ∀ m, (residual (words (accepted hist)) p).length < m → ∃ c', nextN D gd m c0 = .ok (c', false) := by
  obtain ⟨c0, h1, h2⟩ := C22_completions_partial h hg hp hf hx c P
  refine ⟨c0, h1, ?_⟩
  intro m hm
  obtain ⟨c', h3, h4⟩ := h2 m hm
  exact ⟨c', nextN_listing h3 h4 m (by simpa using hm)⟩

example : ∃ hist d D gd u c0 c', Made hist d D ∧ buildGuide d D = .ok (some gd) ∧ D.followString [97] D.root = .ok (true, u, 1) ∧
    Completer.start gd Completer.new u = .ok c0 ∧ nextN D gd 3 c0 = .ok (c', false) := by
  obtain ⟨d, D, h⟩ := madeG
  obtain ⟨gd, h1, _⟩ := C26_guide h
  obtain ⟨u, h2, _⟩ := follow_prefix h (q := [97]) ⟨([97], 5), by decide, by simp⟩
  obtain ⟨c0, h3, h4⟩ := C24_ends_partial h h1 ⟨([97], 5), by decide, by simp⟩ h2 (by simp) Completer.new []
  obtain ⟨c', h5⟩ := h4 3 (by decide)
  exact ⟨_, d, D, gd, u, c0, c', h, h1, h2, h3, h5⟩

/-! ## C23 -/

/-- The full claim C23: whatever is listed is a completion, letter for letter. -/
def C23_statement : Prop := ∀ hist d D gd p u n, Made hist d D → buildGuide d D = .ok (some gd) → (∃ e ∈ accepted hist, p <+: e.1) →
  D.followString p D.root = .ok (true, u, n) → ∀ (c c0 : Completer) (m : Nat) (xs : List (Key × Int × Nat)) (c' : Completer),
    Completer.start gd c u = .ok c0 → listing D gd m c0 = .ok (xs, c') →
      ∀ x ∈ xs, (∃ e ∈ accepted hist, e.1 = p ++ x.1) ∧ x.2.1 = x.1.length

/-- **C23 is false**: `Key()` ends in a NUL byte. -/
theorem C23_exact_false : ¬ C23_statement := by
  intro hs
  obtain ⟨d, D, h⟩ := madeG
  obtain ⟨gd, h1, _⟩ := C26_guide h
  obtain ⟨u, h2, _⟩ := follow_prefix h (q := [97]) ⟨([97], 5), by decide, by simp⟩
  obtain ⟨c0, h3, h4⟩ := C22_completions_partial h h1 ⟨([97], 5), by decide, by simp⟩ h2 (by simp) Completer.new []
  obtain ⟨c', h5, _⟩ := h4 3 (by decide)
  have := (hs keysG d D gd [97] u 1 h h1 ⟨([97], 5), by decide, by simp⟩ h2 Completer.new c0 3 _ c' h3 h5 ([0], 0, 5) (by decide)).2
  simp at this

/-- **C23**, what holds instead: without its last byte, which is NUL, `Key()` is exactly the completion (after the string given to `StartString`), and
`Length()` is the length without that byte. -/
theorem C23_exact_partial {hist d D gd p u n} (h : Made hist d D) (hg : buildGuide d D = .ok (some gd)) (hp : ∃ e ∈ accepted hist, p <+: e.1)
    (hf : D.followString p D.root = .ok (true, u, n)) (c c0 : Completer) (P : Key) (m : Nat) (xs : List (Key × Int × Nat)) (c' : Completer)
    (hc : Completer.startString gd c u P = .ok c0) (hl : listing D gd m c0 = .ok (xs, c')) :
    ∀ x ∈ xs, ∃ k, x.1 = P ++ k ++ [0] ∧ (∃ e ∈ accepted hist, e.1 = p ++ k ∧ x.2.2 = stored e.2) ∧ x.2.1 = (P ++ k).length := by
  by_cases hx : p = [] ∧ ∃ e ∈ accepted hist, e.1 = []
  · -- the enumeration does not end
    exfalso
    obtain ⟨rfl, he⟩ := hx
    have hu : u = D.root := by cases hf; rfl
    subst hu
    obtain ⟨c1, h2, h3⟩ := C24_empty_key_repeats h hg he c P
    rw [hc] at h2
    cases h2
    exact listing_endless (h3 0) _ _ _ hl
  · obtain ⟨c1, h1, h2⟩ := C22_completions_partial h hg hp hf hx c P
    rw [hc] at h1
    cases h1
    have mono : ∀ {m c xs c'}, listing D gd m c = .ok (xs, c') → ∀ m', m ≤ m' → listing D gd m' c = .ok (xs, c') := by
      intro m
      induction m with
      | zero => intro c xs c' hc; cases hc
      | succ m ih =>
        intro c xs c' hc m' hm
        obtain ⟨m', rfl⟩ : ∃ j, m' = j + 1 := ⟨m' - 1, by omega⟩
        rw [listing] at hc ⊢
        cases hn : Completer.next D gd c with
        | error e => rw [hn] at hc; cases hc
        | ok x =>
          obtain ⟨c1, ok⟩ := x
          rw [hn] at hc
          simp only [ok_bind] at hc ⊢
          cases ok with
          | false => exact hc
          | true =>
            simp only [Bool.not_true, Bool.false_eq_true, if_false] at hc ⊢
            cases hv : c1.value D with
            | error e => rw [hv] at hc; cases hc
            | ok v =>
              rw [hv] at hc
              simp only [ok_bind] at hc ⊢
              cases hl : listing D gd m c1 with
              | error e => rw [hl] at hc; cases hc
              | ok y =>
                rw [hl] at hc
                rw [ih (c' := y.2) (xs := y.1) hl m' (by omega)]
                exact hc
    obtain ⟨c2, h3, _⟩ := h2 (m + (residual (words (accepted hist)) p).length + 1) (by omega)
    have := mono hl (m + (residual (words (accepted hist)) p).length + 1) (by omega)
    rw [h3] at this
    cases this
    intro x hx
    obtain ⟨e, he, rfl⟩ := List.mem_map.1 hx
    rw [mem_residual] at he
    obtain ⟨a, ha, hae⟩ := List.mem_map.1 he
    refine ⟨e.1, rfl, ⟨a, ha, congrArg Prod.fst hae, (congrArg Prod.snd hae).symm⟩, ?_⟩
    simp

example : ∃ hist d D gd u c0 c', Made hist d D ∧ buildGuide d D = .ok (some gd) ∧ D.followString [97] D.root = .ok (true, u, 1) ∧
    Completer.startString gd Completer.new u [97] = .ok c0 ∧ listing D gd 3 c0 = .ok ([([97, 0], 1, 5), ([97, 98, 0], 2, 3)], c') := by
  obtain ⟨d, D, h⟩ := madeG
  obtain ⟨gd, h1, _⟩ := C26_guide h
  obtain ⟨u, h2, _⟩ := follow_prefix h (q := [97]) ⟨([97], 5), by decide, by simp⟩
  obtain ⟨c0, h3, h4⟩ := C22_completions_partial h h1 ⟨([97], 5), by decide, by simp⟩ h2 (by simp) Completer.new [97]
  obtain ⟨c', h5, _⟩ := h4 3 (by decide)
  exact ⟨_, d, D, gd, u, c0, c', h, h1, h2, h3, h5⟩

/-! ## C25 -/

theorem startStringLen_neg {gd : Guide} {c : Completer} {u : Nat} {P : Key} {len : Int} (h : len < 0 ∨ P.length < len.toNat) :
    Completer.startStringLen gd c u P len = .error .panic := by
  unfold Completer.startStringLen Completer.takeLen
  by_cases hlen : len < 0
  · rw [if_pos hlen]; rfl
  · rw [if_neg hlen, if_neg (show ¬ len.toNat ≤ P.length by omega)]; rfl

theorem startStringLen_nonneg {gd : Guide} {c : Completer} {u : Nat} {P : Key} {len : Int} (h : ¬ len < 0) (h2 : len.toNat ≤ P.length) :
    Completer.startStringLen gd c u P len =
      .ok (if gd.size ≠ 0 then ⟨P.take len.toNat ++ [0], [u], 0⟩ else ⟨P.take len.toNat ++ [0], [], c.lastIndex⟩) := by
  unfold Completer.startStringLen Completer.takeLen
  rw [if_neg h, if_pos h2]
  by_cases hz : gd.size ≠ 0
  · rw [if_pos hz]; simp only [ok_bind]; rw [if_pos hz]; rfl
  · rw [if_neg hz]; simp only [ok_bind]; rw [if_neg hz]; rfl

/-- **C25.** Whatever a completer has been doing, `StartStringLen` (and so `Start` and `StartString`) makes it behave like a new one: on any dictionary
and guide, all later calls return the same. -/
theorem C25_restart (D : Dictionary) (gd : Guide) (c : Completer) (u : Nat) (P : Key) (len : Int) :
    (∃ c1 c2, Completer.startStringLen gd c u P len = .ok c1 ∧ Completer.startStringLen gd Completer.new u P len = .ok c2 ∧ c1.key = c2.key ∧
      ∀ n, observe D gd n c1 = observe D gd n c2) ∨
    (Completer.startStringLen gd c u P len = .error .panic ∧ Completer.startStringLen gd Completer.new u P len = .error .panic) := by
  by_cases h : len < 0 ∨ P.length < len.toNat
  · exact .inr ⟨startStringLen_neg h, startStringLen_neg h⟩
  · left
    refine ⟨_, _, startStringLen_nonneg (by omega) (by omega), startStringLen_nonneg (by omega) (by omega), ?_⟩
    by_cases hz : gd.size ≠ 0
    · rw [if_pos hz, if_pos hz]
      exact ⟨rfl, fun _ => rfl⟩
    · rw [if_neg hz, if_neg hz]
      refine ⟨rfl, ?_⟩
      intro n
      induction n with
      | zero => rfl
      | succ n ih =>
        rw [observe, observe, next_ended rfl, next_ended rfl]
        simp only [ok_bind, Bool.false_eq_true, if_false, pure_eq_ok, ih]
        rfl

example : ∃ c1 c2, Completer.startStringLen ⟨[⟨0, 0⟩]⟩ ⟨[1, 2, 3, 0], [7, 5], 7⟩ 0 [97] 1 = .ok c1 ∧
    Completer.startStringLen ⟨[⟨0, 0⟩]⟩ Completer.new 0 [97] 1 = .ok c2 ∧ c1.key = [97, 0] := ⟨_, _, rfl, rfl, rfl⟩

end Dawg.Props
