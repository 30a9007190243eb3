import Verif.Proof.Guide.Steps
import Verif.Props.Guide
/-! # C109: how many transitions are followed when completions are listed -/
namespace Dawg.Props
open Dawg Dawg.Spec Dawg.Client Dawg.Abs Dawg.Dict Dawg.Guided
attribute [-simp] List.length_flatten

/-- Calling `Next` until it returns false, at most `n` times: after each success what `Key()` returns, with the number of transitions that the call has followed; at the end the number
followed by the last call, and the number of rounds of the climbing loop in all calls together. -/
def followed (D : Dictionary) (gd : Guide) : Nat → Completer → Go (List (Key × Nat) × Nat × Nat)
  | 0, _ => .error .hang
  | n + 1, c => do
    let ((c, ok), f, r) ← Completer.nextC D gd c
    if !ok then return ([], f, r)
    let (rest, f', r') ← followed D gd n c
    return ((c.key, f) :: rest, f', r + r')

/-- The numbers `fs` are the numbers of prefixes of each key of `T` that are no prefixes of the key before; before the first one is `k`. -/
def Along : Key → List (Key × Nat) → List Nat → Prop
  | _, [], fs => fs = []
  | k, e :: T, fs => ∃ f gs, fs = f :: gs ∧ HasCard (fun x => x <+: e.1 ∧ ¬ x <+: k) f ∧ Along e.1 T gs

theorem Along.length {k : Key} {T : List (Key × Nat)} {fs : List Nat} (h : Along k T fs) : fs.length = T.length := by
  induction T generalizing k fs with
  | nil => rw [Along] at h; rw [h]; rfl
  | cons e T ih =>
    obtain ⟨f, gs, rfl, _, h2⟩ := h
    simp [ih h2]

theorem prefix_between : ∀ {x k k' t : Key}, x <+: k → x <+: t → ¬ k' < k → ¬ t < k' → x <+: k'
  | [], _, _, _, _, _, _, _ => List.nil_prefix
  | c :: x, k, k', t, h1, h2, h3, h4 => by
    obtain ⟨k, rfl⟩ : ∃ r, k = c :: r := by obtain ⟨r, rfl⟩ := h1; exact ⟨x ++ r, rfl⟩
    obtain ⟨t, rfl⟩ : ∃ r, t = c :: r := by obtain ⟨r, rfl⟩ := h2; exact ⟨x ++ r, rfl⟩
    cases k' with
    | nil => exact absurd (by simp) h3
    | cons d k' =>
      rw [List.cons_lt_cons_iff] at h3 h4
      have hd : c = d := by
        have e1 : ¬ d < c := fun h => h3 (.inl h)
        have e2 : ¬ c < d := fun h => h4 (.inl h)
        exact UInt8.le_antisymm (UInt8.not_lt.1 e1) (UInt8.not_lt.1 e2)
      subst hd
      rw [List.cons_prefix_cons] at h1 h2 ⊢
      exact ⟨rfl, prefix_between h1.2 h2.2 (fun h => h3 (.inr ⟨rfl, h⟩)) (fun h => h4 (.inr ⟨rfl, h⟩))⟩

/-- The sum of these numbers is the number of nodes that are reached. -/
theorem Along.sum {k : Key} {T : List (Key × Nat)} {fs : List Nat} (h : Along k T fs) (hk : ∀ e ∈ T, ¬ e.1 < k) (hs : T.Pairwise (fun a b => a.1 < b.1)) :
    HasCard (fun x => ∃ e ∈ T, x <+: e.1 ∧ ¬ x <+: k) fs.sum := by
  induction T generalizing k fs with
  | nil =>
    rw [Along] at h
    subst h
    exact ⟨[], by simp, by simp, rfl⟩
  | cons e T ih =>
    obtain ⟨f, gs, rfl, h1, h2⟩ := h
    rw [List.pairwise_cons] at hs
    obtain ⟨l1, a1, a2, a3⟩ := h1
    obtain ⟨l2, b1, b2, b3⟩ := ih h2 (fun x hx hc => List.lt_irrefl _ (List.lt_trans hc (hs.1 x hx))) hs.2
    refine ⟨l1 ++ l2, ?_, ?_, by simp [a3, b3]⟩
    · rw [List.nodup_append]
      refine ⟨a1, b1, ?_⟩
      rintro x hx y hy rfl
      obtain ⟨_, _, _, hn⟩ := (b2 x).1 hy
      exact hn ((a2 x).1 hx).1
    · intro x
      rw [List.mem_append, a2, b2]
      constructor
      · rintro (⟨h3, h4⟩ | ⟨t, ht, h3, h4⟩)
        · exact ⟨e, by simp, h3, h4⟩
        · refine ⟨t, by simp [ht], h3, fun hc => h4 ?_⟩
          exact prefix_between hc h3 (hk e (by simp)) (fun hc => List.lt_irrefl _ (List.lt_trans hc (hs.1 t ht)))
      · rintro ⟨t, ht, h3, h4⟩
        by_cases hx : x <+: e.1
        · exact .inl ⟨hx, h4⟩
        · rcases List.mem_cons.1 ht with rfl | ht
          · exact absurd h3 hx
          · exact .inr ⟨t, ht, h3, hx⟩

theorem ReadyAt.followed {D : Dictionary} {At : Nat → Lang → Prop} {kid : Nat → UInt8 → Nat} {clean : UInt8 → Prop} {gd : Guide} (V : View D At kid clean)
    (hg : GuideIs D At kid heads gd) {u0 : Nat} {L0 : Lang} (h0 : At u0 L0) {P : Key} : ∀ (m : Nat) {c : Completer} {k : Key} {T : Lang}, ReadyAt D kid P u0 L0 c k T → T.length < m →
    ∃ fs, Along k T fs ∧ followed D gd m c = .ok ((T.map (fun e => P ++ e.1 ++ [0])).zip fs, 0, c.indexStack.length + fs.sum)
  | 0, _, _, _, _, hm => absurd hm (by omega)
  | m + 1, c, k, T, hr, hm => by
    rw [Props.followed]
    rcases nextC_spec V hg h0 hr with ⟨rfl, c', h1, h2⟩ | ⟨k', v, T', c', f, r, rfl, h1, h2, h3, h4, h5, h6⟩
    · exact ⟨[], rfl, by rw [h1]; rfl⟩
    · obtain ⟨fs, e1, e2⟩ := ReadyAt.followed V hg h0 m h4 (by simp only [List.length_cons] at hm; omega)
      refine ⟨f :: fs, ⟨f, fs, rfl, h5, e1⟩, ?_⟩
      rw [h1]
      simp only [ok_bind, Bool.not_true, Bool.false_eq_true, if_false, e2, pure_eq_ok, h2, List.map_cons, List.zip_cons_cons, List.sum_cons]
      congr 3
      omega

/-- **C109.** The functions with counts give the same results: for all dictionaries, guides and completers. -/
theorem C109_same (D : Dictionary) (gd : Guide) (c : Completer) : (Completer.nextC D gd c).map (·.1) = Completer.next D gd c := nextC_fst D gd c

theorem residual_ordered {L : List (Key × Nat)} (hL : L.Pairwise (fun a b => a.1 < b.1)) (p : Key) : (residual L p).Pairwise (fun a b => a.1 < b.1) := by
  unfold residual
  rw [List.pairwise_map]
  refine List.Pairwise.imp_of_mem ?_ (hL.filter _)
  intro a b ha hb hab
  rw [List.mem_filter, List.isPrefixOf_iff_prefix] at ha hb
  obtain ⟨x, hx⟩ := ha.2
  obtain ⟨y, hy⟩ := hb.2
  rw [← hx, ← hy] at hab ⊢
  rw [List.drop_left, List.drop_left]
  clear hx hy ha hb
  induction p with
  | nil => exact hab
  | cons c p ih =>
    rw [List.cons_append, List.cons_append, List.cons_lt_cons_self] at hab
    exact ih hab

/-- **C109.** A completer that is started at the index of a prefix `p` and asked for all completions follows each edge of the trie of the keys below `p` exactly once (`n` is their number), and
climbs `n + 1` times.  Each call of `Next` follows as many transitions as the new key has prefixes that are no prefixes of the key before, and the last call follows none. -/
theorem C109_listing {hist d D gd p u n} (h : Made hist d D) (hg : buildGuide d D = .ok (some gd)) (hp : ∃ e ∈ accepted hist, p <+: e.1)
    (hf : D.followString p D.root = .ok (true, u, n)) (hx : ¬ (p = [] ∧ ∃ e ∈ accepted hist, e.1 = [])) (c : Completer) (P : Key) :
    ∃ c0 fs, Completer.startString gd c u P = .ok c0 ∧ Along [] (residual (words (accepted hist)) p) fs ∧
      HasCard (fun x => x ≠ p ∧ p <+: x ∧ ∃ e ∈ accepted hist, x <+: e.1) fs.sum ∧
      ∀ m, (residual (words (accepted hist)) p).length < m →
        followed D gd m c0 = .ok (((residual (words (accepted hist)) p).map (fun e => P ++ e.1 ++ [0])).zip fs, 0, fs.sum + 1) := by
  have hne : accepted hist ≠ [] := by
    obtain ⟨e, he, _⟩ := hp; exact List.ne_nil_of_mem he
  obtain ⟨At, kid, DAt, V, h0, W, hd0⟩ := Made.view h hne
  obtain ⟨gd', e1, e2⟩ := buildGuide_spec V W h0 hd0
  rw [hg] at e1
  cases e1
  have V' := V.reach h0
  have hu := Made.index h V h0 hp hf
  have hz : gd.size ≠ 0 := by
    have h1 := e2.size
    have h2 := V'.lt hu
    show gd.units.length ≠ 0
    omega
  have hr : ReadyAt D kid P u (residual (words (accepted hist)) p) ⟨P ++ [0], [u], 0⟩ [] (residual (words (accepted hist)) p) := by
    refine .fresh ?_
    intro hu0 v hv
    subst hu0
    have := V'.func hu Reach.root
    rw [this] at hv
    refine hx ⟨?_, mem_words.1 ⟨v, hv⟩⟩
    cases hp' : p with
    | nil => rfl
    | cons l q =>
      exfalso
      rw [hp', show l :: q = [l] ++ q from rfl] at this
      obtain ⟨m, hm, hall⟩ := exists_longest (V'.ne Reach.root)
      have h2 := hm
      rw [← this, mem_residual] at h2
      have := hall _ h2
      simp only [List.length_append, List.length_cons] at this; omega
  obtain ⟨fs, f1, f2⟩ := ReadyAt.followed V' e2 hu _ hr (Nat.lt_succ_self _)
  have hsrt : (words (accepted hist)).Pairwise (fun a b => a.1 < b.1) := by
    unfold words
    rw [List.pairwise_map]
    exact accepted_sorted hist
  have hcard := f1.sum (by simp) (residual_ordered hsrt p)
  refine ⟨_, fs, startString_eq hz c u P, f1, ?_, fun m hm => ?_⟩
  · obtain ⟨l, l1, l2, l3⟩ := hcard
    refine ⟨l.map (p ++ ·), ?_, ?_, by simpa using l3⟩
    · unfold List.Nodup at l1 ⊢
      rw [List.pairwise_map]
      exact l1.imp (fun hab hc => hab (List.append_cancel_left hc))
    · intro x
      rw [List.mem_map]
      constructor
      · rintro ⟨y, hy, rfl⟩
        obtain ⟨⟨k, v⟩, he, h3, h4⟩ := (l2 y).1 hy
        rw [mem_residual] at he
        refine ⟨fun hc => h4 ?_, List.prefix_append _ _, ?_⟩
        · rw [List.append_right_eq_self] at hc
          rw [hc]
          exact List.prefix_rfl
        · obtain ⟨e', h5, h6⟩ := mem_words.1 ⟨v, he⟩
          exact ⟨e', h5, by rw [h6]; exact (List.prefix_append_right_inj p).2 h3⟩
      · rintro ⟨h3, ⟨y, rfl⟩, e, he, h5⟩
        refine ⟨y, (l2 y).2 ?_, rfl⟩
        obtain ⟨t, ht⟩ := h5
        obtain ⟨v, hv⟩ := mem_words.2 ⟨e, he, rfl⟩
        rw [← ht, List.append_assoc] at hv
        refine ⟨(y ++ t, v), mem_residual.2 hv, List.prefix_append _ _, fun hc => h3 ?_⟩
        rw [List.prefix_nil.1 hc, List.append_nil]
  · obtain ⟨fs', g1, g2⟩ := ReadyAt.followed V' e2 hu m hr hm
    have : fs' = fs := by
      have key : ∀ {k : Key} {T : List (Key × Nat)} {a b : List Nat}, Along k T a → Along k T b → a = b := by
        intro k T
        induction T generalizing k with
        | nil => intro a b ha hb; rw [Along] at ha hb; rw [ha, hb]
        | cons e T ih =>
          rintro a b ⟨f, gs, rfl, a1, a2⟩ ⟨f', gs', rfl, b1, b2⟩
          rw [a1.unique b1, ih a2 b2]
      exact key g1 f1
    rw [g2, this]
    congr 3
    simp only [List.length_singleton]
    omega

/-- For the keys "a", "ab" and "b": listing everything follows three transitions, one for each of "a", "ab" and "b", and climbs four times. -/
example : ∃ hist d D gd c0, Made hist d D ∧ buildGuide d D = .ok (some gd) ∧ Completer.startString gd Completer.new D.root [] = .ok c0 ∧
    followed D gd 4 c0 = .ok ([([97, 0], 1), ([97, 98, 0], 1), ([98, 0], 1)], 0, 4) := by
  obtain ⟨d, D, h⟩ := madeG
  obtain ⟨gd, h1, _⟩ := C26_guide h
  obtain ⟨c0, fs, h3, h4, h5, h6⟩ := C109_listing h h1 (p := []) ⟨([97], 5), by decide, by simp⟩ (u := D.root) (n := 0) rfl (by decide) Completer.new []
  refine ⟨_, d, D, gd, c0, h, h1, h3, ?_⟩
  have e : residual (words (accepted keysG)) [] = [([97], 5), ([97, 98], 3), ([98], 7)] := by decide
  rw [e] at h4 h6
  obtain ⟨f1, _, rfl, c1, f2, _, rfl, c2, f3, _, rfl, c3, h7⟩ := h4
  cases h7
  have e1 : f1 = 1 := c1.unique (fresh_prefixes (a := []) (b := [97]) (by simp) (by simp))
  have e2 : f2 = 1 := c2.unique (fresh_prefixes (a := [97]) (b := [98]) (by simp) (by intro m t h; cases h; decide))
  have e3 : f3 = 1 := c3.unique (fresh_prefixes (k := [97, 98]) (a := []) (b := [98]) (by simp) (by intro m t h; cases h; decide))
  rw [h6 4 (by decide), e1, e2, e3]
  rfl

end Dawg.Props
