import Verif.Props.OneEach
/-! # C107: how many units of a dictionary are in use -/
namespace Dawg.Props
open Dawg Dawg.Spec Dawg.Client Dawg.Abs Dawg.Dict Dawg.Guided
attribute [-simp] List.length_flatten

/-- The full claim C107: at least a quarter of the units of a dictionary of 65536 units or more are in use. -/
def C107_statement : Prop := ∀ hist d D unused, Made hist d D → 2 ^ 16 ≤ D.size → d.buildWithUnused = .ok (some (D, unused)) → D.size ≤ 4 * (D.size - unused)

/-! ## From below -/

theorem edge_arc {acc : List (Key × Int)} {p : Key} {l : UInt8} (h : TrieEdge acc (p ++ [l])) : l ∈ arcs (residual (words acc) p) := by
  obtain ⟨_, e, he, hp⟩ := h
  rw [mem_arcs]
  rcases List.prefix_concat_iff.1 hp with h1 | ⟨t, ht⟩
  · obtain ⟨h2, h3⟩ := List.append_inj' h1 rfl
    simp only [List.cons.injEq, and_true] at h3
    refine .inl ⟨h3, stored e.2, ?_⟩
    rw [mem_residual, h2, List.append_nil]
    exact List.mem_map.2 ⟨e, he, rfl⟩
  · refine .inr (mem_heads.2 fun hc => ?_)
    rw [← residual_residual] at hc
    have : (t, stored e.2) ∈ residual (words acc) (p ++ [l]) := by
      rw [mem_residual, ht]
      exact List.mem_map.2 ⟨e, he, rfl⟩
    rw [hc] at this; cases this

theorem reach_at {kid : Nat → UInt8 → Nat} {acc : Lang} : ∀ (p : Key) {u L}, Reach kid acc u L → residual L p ≠ [] → ∃ u', Reach kid acc u' (residual L p)
  | [], u, L, h, _ => ⟨u, by rw [residual_nil]; exact h⟩
  | l :: p, u, L, h, hne => by
    rw [show l :: p = [l] ++ p from rfl, residual_residual] at hne ⊢
    exact reach_at p (h.step (mem_heads.2 fun hc => hne (by rw [hc]; rfl))) hne

theorem same_block {a b : Nat} (h : a / 256 = b / 256) : a ^^^ b < 256 := by
  have h1 : (a ^^^ b) >>> 8 = 0 := by
    rw [Nat.shiftRight_xor_distrib, Nat.shiftRight_eq_div_pow, Nat.shiftRight_eq_div_pow, h, Nat.xor_self]
  rw [Nat.shiftRight_eq_div_pow] at h1
  omega

/-- **C107**, from below: of prefixes with different completions whose next bytes have all differences, each takes a block of 256 units of its own. -/
theorem C107_blocks {hist d D} (h : Made hist d D) {ps : List Key} (hps : ps.Pairwise (fun p q =>
      residual (words (accepted hist)) p ≠ residual (words (accepted hist)) q ∧
      ∀ x : UInt8, ∃ l l', TrieEdge (accepted hist) (p ++ [l]) ∧ TrieEdge (accepted hist) (q ++ [l']) ∧ l ^^^ l' = x)) : 256 * ps.length ≤ D.size := by
  obtain ⟨_, _, _, _, _, _, _, _, c1, c2, _⟩ := C79_size h
  by_cases hlen : ps.length ≤ 1
  · omega
  have hpair : ∀ p ∈ ps, ∀ q ∈ ps, p ≠ q → residual (words (accepted hist)) p ≠ residual (words (accepted hist)) q ∧
      ∀ x : UInt8, ∃ l l', TrieEdge (accepted hist) (p ++ [l]) ∧ TrieEdge (accepted hist) (q ++ [l']) ∧ l ^^^ l' = x := by
    intro p hp q hq hpq
    obtain ⟨i, hi, rfl⟩ := List.mem_iff_getElem.1 hp
    obtain ⟨j, hj, rfl⟩ := List.mem_iff_getElem.1 hq
    have hij : i ≠ j := by rintro rfl; exact hpq rfl
    rcases Nat.lt_or_gt_of_ne hij with hij | hij
    · exact List.pairwise_iff_getElem.1 hps i j hi hj hij
    · obtain ⟨h1, h2⟩ := List.pairwise_iff_getElem.1 hps j i hj hi hij
      refine ⟨Ne.symm h1, fun x => ?_⟩
      obtain ⟨l, l', h3, h4, h5⟩ := h2 x
      exact ⟨l', l, h4, h3, by rw [UInt8.xor_comm]; exact h5⟩
  have hnd : ps.Nodup := hps.imp fun {p q} hpq hc => hpq.1 (by rw [hc])
  have hedge : ∀ p ∈ ps, ∃ l, TrieEdge (accepted hist) (p ++ [l]) := by
    intro p hp
    obtain ⟨q, hq, hpq⟩ : ∃ q ∈ ps, p ≠ q := by
      refine Classical.byContradiction fun hc => ?_
      have hall : ∀ q ∈ ps, q = p := fun q hq => Classical.byContradiction fun hne => hc ⟨q, hq, Ne.symm hne⟩
      have := List.Nodup.length_le_of_subset hnd (l₂ := [p]) (fun q hq => by simp [hall q hq])
      simp at this
      omega
    obtain ⟨l, _, h1, _⟩ := (hpair p hp q hq hpq).2 0
    exact ⟨l, h1⟩
  have hne : accepted hist ≠ [] := by
    intro hc
    obtain ⟨p, hp⟩ := List.exists_mem_of_length_pos (l := ps) (by omega)
    obtain ⟨l, _, e, he, _⟩ := hedge p hp
    rw [hc] at he; cases he
  obtain ⟨At, kid, DAt, V, h0, _, _⟩ := Made.view h hne
  have V' := V.reach h0
  have hkid : ∀ {u L}, Reach kid (words (accepted hist)) u L → ∃ o, ∀ l : UInt8, kid u l = o ^^^ l.toNat := by
    intro u L hu
    have hr := V'.fwc 0 hu
    unfold RankedBuilder.followWithoutCheck at hr
    obtain ⟨w, hw, _⟩ := bind_eq_ok.1 hr
    refine ⟨u ^^^ dictOffset w, fun l => ?_⟩
    have hr' := V'.fwc l hu
    unfold RankedBuilder.followWithoutCheck at hr'
    rw [hw] at hr'
    simp only [ok_bind, pure_eq_ok, Except.ok.injEq] at hr'
    exact hr'.symm
  have hle : ps.length ≤ D.size / 256 := by
    refine card_le (S := (· ∈ ps)) (T := (· < D.size / 256)) ⟨ps, hnd, fun _ => Iff.rfl, rfl⟩ ⟨List.range (D.size / 256), List.nodup_range, by simp, by simp⟩
      (fun p b => ∃ u o, Reach kid (words (accepted hist)) u (residual (words (accepted hist)) p) ∧ (∀ l : UInt8, kid u l = o ^^^ l.toNat) ∧ o / 256 = b) ?_ ?_
    · intro p hp
      obtain ⟨l, hl⟩ := hedge p hp
      have harc := edge_arc hl
      obtain ⟨u, hu⟩ := reach_at p Reach.root (L := words (accepted hist)) (kid := kid) (fun hc => by rw [hc] at harc; simp [arcs, heads] at harc)
      obtain ⟨o, ho⟩ := hkid hu
      refine ⟨o / 256, ?_, u, o, hu, ho, rfl⟩
      have := V'.kid_lt hu harc
      rw [ho] at this
      have hb := (xor_lt_of_block (o := o) (B := D.size / 256) (label_lt l)).1 (by omega)
      omega
    · rintro p q b hp hq ⟨u, o, hu, ho, hb⟩ ⟨u', o', hu', ho', hb'⟩
      refine Classical.byContradiction fun hpq => ?_
      obtain ⟨h1, h2⟩ := hpair p hp q hq hpq
      have hlt := same_block (hb.trans hb'.symm)
      obtain ⟨l, l', h3, h4, h5⟩ := h2 (UInt8.ofNat (o ^^^ o'))
      have h6 := congrArg UInt8.toNat h5
      rw [UInt8.toNat_xor, UInt8.toNat_ofNat_of_lt' hlt] at h6
      have h7 : kid u l = kid u' l' := by
        rw [ho, ho']
        calc o ^^^ l.toNat = o ^^^ (l.toNat ^^^ l'.toNat) ^^^ l'.toNat := by rw [Nat.xor_assoc, Nat.xor_assoc, Nat.xor_self, Nat.xor_zero]
          _ = o' ^^^ l'.toNat := by rw [h6, ← Nat.xor_assoc, Nat.xor_self, Nat.zero_xor]
      exact h1 (V'.uniq hu hu' (edge_arc h3) (edge_arc h4) h7).2
  omega

/-! ## From above -/

/-- **C107**, from above: a dictionary has at most one block of 256 units for every unit in use, and at most one for every state of the Dawg if it has no more than 2^21 units. -/
theorem C107_blocks_used_partial {hist d D} (h : Made hist d D) : ∃ unused : Nat, d.buildWithUnused = .ok (some (D, unused)) ∧ D.size ≤ 256 * (D.size - unused) ∧
    (D.size ≤ 2 ^ 21 → D.size ≤ 256 * d.numOfStates) := by
  obtain ⟨n, oks, b, num, h1, h2, hadm, h3, h4⟩ := Made.unfold' h
  obtain ⟨c, r, e1, e2, ⟨B, G, pend, e3, e4, _, e5, e6, e7, e8⟩⟩ := dict_built h1 h2 hadm h3 h4
  have hsz : D.size = 256 * B := e3.len
  refine ⟨num, h4, ?_, fun hs => ?_⟩
  · have := e3.arranged_le rfl e4 e2.cinv.ne
    have hu : D.units.length = D.size := rfl
    omega
  · obtain ⟨m, m1, m2, _⟩ := C05_number_of_states n h1 h2 hist hadm oks b d h3
    rw [m1]
    have hG : G.length ≤ m := by
      rcases e6 with ⟨_, rfl, _⟩ | ⟨he, rfl⟩
      · simp
      have hsem : DSem c r ((accepted hist).map wordE) D B G num := ⟨e3, e4, e5, e2, by
        intro e he
        obtain ⟨x, _, rfl⟩ := List.mem_map.1 he
        exact stored_lt _⟩
      have hone := e7 fun x hx => by
        have := (e3.offs x hx).2.1
        omega
      have hnd : G.Nodup := List.Pairwise.of_map (S := (· ≠ ·)) Prod.fst (by intro a b hab hc; exact hab (by rw [hc])) e3.nodup
      refine card_le (S := (· ∈ G)) ⟨G, hnd, fun _ => Iff.rfl, rfl⟩ m2 (fun x L => ∃ u g, Node c G D u x.1 x.2 g L) ?_ ?_
      · rintro ⟨o, s⟩ hx
        obtain ⟨p, u, g, a1, a2⟩ := reach_mem hsem he hx
        exact ⟨_, ⟨a2.den.ne_nil hsem.ne (hsem.ne _ a2.start.mem), p, rfl⟩, u, g, a2⟩
      · rintro ⟨o, s⟩ ⟨o', s'⟩ L hx hx' ⟨u, g, a1⟩ ⟨u', g', a2⟩
        have hg := hsem.core.cinv.minimal a1.start.mem a2.start.mem a1.den a2.den
        subst hg
        have hs := IsStart.inj hsem.core.cinv.nodup a1.start a2.start
        simp only at hs
        subst hs
        rw [hone _ _ _ hx hx']
    omega

/-! ## Key sets that fill few units -/

/-- The bytes 0x01, 0x10 … 0x1F, 0x21, 0x31 … 0xE1: those below 0xF1 with a hexadecimal digit 1. -/
def marks : List UInt8 := [0x01, 0x10, 0x11, 0x12, 0x13, 0x14, 0x15, 0x16, 0x17, 0x18, 0x19, 0x1a, 0x1b, 0x1c, 0x1d, 0x1e, 0x1f, 0x21, 0x31, 0x41, 0x51, 0x61, 0x71, 0x81, 0x91,
  0xa1, 0xb1, 0xc1, 0xd1, 0xe1]

/-- The keys of fewer than `m` bytes 0xF1 and one of `marks`, and the key of `m` bytes 0xF1; all with the value 0. -/
def sparse : Nat → List (Key × Int)
  | 0 => [([], 0)]
  | m + 1 => marks.map (fun l => ([l], 0)) ++ (sparse m).map (fun e => (0xf1 :: e.1, e.2))

theorem accepted_of_sorted {hist : List (Key × Int)} (h : hist.Pairwise (fun a b => a.1 < b.1)) : accepted hist = hist := by
  suffices ∀ (hist acc : List (Key × Int)), (acc ++ hist).Pairwise (fun a b => a.1 < b.1) → hist.foldl (fun acc e => add acc e.1 e.2) acc = acc ++ hist from this hist [] h
  intro hist
  induction hist with
  | nil => intro acc _; simp
  | cons e hist ih =>
    intro acc h
    have hadd : add acc e.1 e.2 = acc ++ [e] := by
      unfold add
      cases hl : acc.getLast? with
      | none => rw [List.getLast?_eq_none_iff.1 hl]; rfl
      | some x =>
        have hlt : x.1 < e.1 := (List.pairwise_append.1 h).2.2 x (List.mem_of_getLast? hl) e List.mem_cons_self
        simp only
        rw [if_neg (fun hc => List.lt_irrefl _ (List.lt_trans hlt hc)), if_neg (fun hc => by rw [hc] at hlt; exact List.lt_irrefl _ hlt)]
    rw [List.foldl_cons, hadd, ih (acc ++ [e]) (by simpa using h)]
    simp

theorem sparse_sorted : ∀ m, (sparse m).Pairwise (fun a b => a.1 < b.1)
  | 0 => by simp [sparse]
  | m + 1 => by
    rw [sparse, List.pairwise_append, List.pairwise_map, List.pairwise_map]
    refine ⟨by decide, ?_, ?_⟩
    · refine (sparse_sorted m).imp fun {a b} hab => ?_
      exact List.cons_lt_cons_iff.2 (.inr ⟨rfl, hab⟩)
    · intro a ha b hb
      obtain ⟨l, hl, rfl⟩ := List.mem_map.1 ha
      obtain ⟨e, _, rfl⟩ := List.mem_map.1 hb
      exact List.cons_lt_cons_iff.2 (.inl ((by decide : ∀ l ∈ marks, l < (0xf1 : UInt8)) l hl))

theorem sparse_accepted (m : Nat) : accepted (sparse m) = sparse m := accepted_of_sorted (sparse_sorted m)

theorem sparse_length : ∀ m, (sparse m).length = 30 * m + 1
  | 0 => rfl
  | m + 1 => by
    rw [sparse, List.length_append, List.length_map, List.length_map, sparse_length m, show marks.length = 30 from rfl]
    omega

theorem sparse_total : ∀ m, ((sparse m).map (fun e => e.1.length + 1)).sum = 1 + 46 * m + 15 * (m * m)
  | 0 => rfl
  | m + 1 => by
    have h1 : ∀ L : List (Key × Int), ((L.map (fun e => ((0xf1 : UInt8) :: e.1, e.2))).map (fun e => e.1.length + 1)).sum = (L.map (fun e => e.1.length + 1)).sum + L.length := by
      intro L
      induction L with
      | nil => rfl
      | cons e L ih => simp only [List.map_cons, List.sum_cons, List.length_cons] at ih ⊢; omega
    rw [sparse, List.map_append, List.sum_append, h1, sparse_total m, sparse_length m, show ((marks.map (fun l => ([l], (0 : Int)))).map (fun e => e.1.length + 1)).sum = 60 from rfl]
    have : (m + 1) * (m + 1) = m * m + 2 * m + 1 := by rw [Nat.add_mul, Nat.mul_add]; omega
    rw [this]
    omega

theorem sparse_nulFree : ∀ m, ∀ e ∈ sparse m, (0 : UInt8) ∉ e.1
  | 0 => by simp [sparse]
  | m + 1 => by
    intro e he
    rw [sparse, List.mem_append] at he
    rcases he with he | he
    · obtain ⟨l, hl, rfl⟩ := List.mem_map.1 he
      have := (by decide : ∀ l ∈ marks, (0 : UInt8) ≠ l) l hl
      simpa using this
    · obtain ⟨e', he', rfl⟩ := List.mem_map.1 he
      simpa using sparse_nulFree m e' he'

theorem sparse_mem {m : Nat} {e : Key × Int} : e ∈ sparse (m + 1) ↔ (∃ l ∈ marks, e = ([l], 0)) ∨ ∃ e' ∈ sparse m, e = (0xf1 :: e'.1, e'.2) := by
  rw [sparse, List.mem_append, List.mem_map, List.mem_map]
  simp only [eq_comm]

theorem sparse_residual (m : Nat) : residual (words (sparse (m + 1))) [0xf1] = words (sparse m) := by
  rw [sparse]
  unfold words
  rw [List.map_append, List.map_map, List.map_map]
  unfold residual
  rw [List.filter_append, List.map_append]
  have h1 : (List.map ((fun e : Key × Int => (e.1, stored e.2)) ∘ fun l => ([l], (0 : Int))) marks).filter (fun e => List.isPrefixOf [0xf1] e.1) = [] := by decide
  rw [h1, List.map_nil, List.nil_append, List.filter_eq_self.2, List.map_map]
  · rfl
  · intro e he
    obtain ⟨x, _, rfl⟩ := List.mem_map.1 he
    rfl

theorem sparse_at : ∀ (i m : Nat), residual (words (sparse (i + m))) (List.replicate i 0xf1) = words (sparse m)
  | 0, m => by rw [Nat.zero_add]; exact residual_nil _
  | i + 1, m => by
    rw [List.replicate_succ, show (0xf1 : UInt8) :: List.replicate i 0xf1 = [0xf1] ++ List.replicate i 0xf1 from rfl, residual_residual, show i + 1 + m = (i + m) + 1 by omega,
      sparse_residual, sparse_at i m]

theorem sparse_edge : ∀ (i m : Nat) {l : UInt8}, i < m → l ∈ marks ∨ l = 0xf1 → TrieEdge (sparse m) (List.replicate i 0xf1 ++ [l])
  | _, 0, _, h, _ => by omega
  | 0, m + 1, l, _, hl => by
    refine ⟨by simp, ?_⟩
    rcases hl with hl | rfl
    · exact ⟨([l], 0), sparse_mem.2 (.inl ⟨l, hl, rfl⟩), ⟨[0], rfl⟩⟩
    · obtain ⟨e, he⟩ := List.exists_mem_of_length_pos (l := sparse m) (by rw [sparse_length]; omega)
      exact ⟨_, sparse_mem.2 (.inr ⟨e, he, rfl⟩), ⟨e.1 ++ [0], rfl⟩⟩
  | i + 1, m + 1, l, h, hl => by
    obtain ⟨_, e, he, hp⟩ := sparse_edge i m (by omega) hl
    refine ⟨by simp, _, sparse_mem.2 (.inr ⟨e, he, rfl⟩), ?_⟩
    rw [List.replicate_succ, List.cons_append, List.cons_append, List.cons_prefix_cons]
    exact ⟨rfl, hp⟩

/-- All edges of the trie of `sparse m`. -/
def sparseEdges : Nat → List Key
  | 0 => [[0]]
  | m + 1 => marks.flatMap (fun l => [[l], [l, 0]]) ++ [0xf1] :: (sparseEdges m).map (0xf1 :: ·)

theorem sparseEdges_length : ∀ m, (sparseEdges m).length = 61 * m + 1
  | 0 => rfl
  | m + 1 => by
    rw [sparseEdges, List.length_append, List.length_cons, List.length_map, sparseEdges_length m, show (marks.flatMap (fun l => [[l], [l, 0]])).length = 60 from rfl]
    omega

theorem mem_sparseEdges : ∀ (m : Nat) {y : Key}, TrieEdge (sparse m) y → y ∈ sparseEdges m
  | 0, y, ⟨h0, e, he, hp⟩ => by
    simp only [sparse, List.mem_singleton] at he
    subst he
    match y, h0, hp with
    | a :: y, _, hp =>
      simp only [List.nil_append, List.cons_prefix_cons, List.prefix_nil] at hp
      rw [hp.1, hp.2]
      simp [sparseEdges]
  | m + 1, y, ⟨h0, e, he, hp⟩ => by
    rw [sparseEdges, List.mem_append, List.mem_cons, List.mem_map, List.mem_flatMap]
    rcases sparse_mem.1 he with ⟨l, hl, rfl⟩ | ⟨e', he', rfl⟩
    · refine .inl ⟨l, hl, ?_⟩
      match y, h0, hp with
      | [a], _, hp => simp at hp; simp [hp]
      | [a, b], _, hp => simp at hp; simp [hp]
      | a :: b :: c :: y, _, hp => simp at hp
    · match y, h0, hp with
      | a :: y, _, hp =>
        rw [List.cons_append, List.cons_prefix_cons] at hp
        obtain ⟨rfl, hp⟩ := hp
        by_cases hy : y = []
        · exact .inr (.inl (by rw [hy]))
        · exact .inr (.inr ⟨y, mem_sparseEdges m ⟨hy, e', he', hp⟩, rfl⟩)

/-- **C107**, key sets that fill few units: the dictionary of `sparse m` has at least `m` blocks of 256 units, of which at most `61 * m + 2` units are in use. -/
theorem C107_sparse {m : Nat} {d D} (h : Made (sparse m) d D) : 256 * m ≤ D.size ∧
    ∃ unused : Nat, d.buildWithUnused = .ok (some (D, unused)) ∧ D.size ≤ unused + 61 * m + 2 := by
  constructor
  · have := C107_blocks h (ps := (List.range m).map (fun i => List.replicate i 0xf1)) (by
      rw [List.pairwise_map, sparse_accepted]
      refine List.pairwise_lt_range.imp_of_mem ?_
      intro i j hi hj hij
      rw [List.mem_range] at hi hj
      refine ⟨fun hc => ?_, fun x => ?_⟩
      · obtain ⟨a, rfl⟩ : ∃ a, m = i + a := ⟨m - i, by omega⟩
        rw [sparse_at] at hc
        rw [show i + a = j + (i + a - j) by omega, sparse_at] at hc
        have := congrArg List.length hc
        simp only [words, List.length_map, sparse_length] at this
        omega
      · have hall : ∀ x < 256, ∃ l ∈ marks ++ [0xf1], ∃ l' ∈ marks ++ [0xf1], (l : UInt8) ^^^ l' = UInt8.ofNat x := by decide +kernel
        obtain ⟨l, hl, l', hl', hx⟩ := hall x.toNat x.toNat_lt
        simp only [List.mem_append, List.mem_singleton] at hl hl'
        exact ⟨l, l', sparse_edge i m hi hl, sparse_edge j m hj hl', by rw [hx]; simp⟩)
    simpa using this
  · obtain ⟨_, used, edges, _, ⟨l, a1, a2, a3⟩, ⟨l', b1, b2, b3⟩, _, hue, _⟩ := C79_size h
    obtain ⟨num, h2, ⟨l'', c1, c2, c3⟩, _⟩ := C15_unused_exact h
    refine ⟨num, h2, ?_⟩
    have h1 : edges ≤ 61 * m + 1 := by
      rw [← b3, ← sparseEdges_length]
      refine List.Nodup.length_le_of_subset b1 fun y hy => ?_
      have := (b2 y).1 hy
      rw [sparse_accepted] at this
      exact mem_sparseEdges m this
    have h3 : D.size ≤ 1 + l.length + l''.length := by
      have := List.Nodup.length_le_of_subset (l₁ := List.range D.size) (l₂ := D.root :: (l ++ l'')) List.nodup_range (by
        intro i hi
        rw [List.mem_cons, List.mem_append, a2, c2]
        by_cases h0 : i = D.root
        · exact .inl h0
        · by_cases hx : ∃ e ∈ accepted (sparse m), PartOf D e.1 i
          · exact .inr (.inl ⟨h0, hx⟩)
          · exact .inr (.inr ⟨List.mem_range.1 hi, h0, fun e he hp => hx ⟨e, he, hp⟩⟩))
      simp only [List.length_cons, List.length_append, List.length_range] at this
      omega
    omega

/-- `sparse m` can be built for all `m` up to 350. -/
theorem sparse_made {m : Nat} (hm : m ≤ 350) : ∃ d D, Made (sparse m) d D := by
  obtain ⟨d, D, h, _⟩ := C14_small_builds 1 (by omega) (by omega) (sparse m) (sparse_nulFree m) (by
    rw [sparse_total]
    have : m * m ≤ 350 * 350 := Nat.mul_le_mul hm hm
    omega)
  exact ⟨d, D, h⟩

/-- **C107 is false**: of the dictionary of `sparse 256` less than a quarter is in use. -/
theorem C107_quarter_false : ¬ C107_statement := by
  intro hst
  obtain ⟨d, D, h⟩ := sparse_made (m := 256) (by omega)
  obtain ⟨h1, unused, h2, h3⟩ := C107_sparse h
  have := hst _ d D unused h (by omega) h2
  omega

/-- The dictionary of `sparse 3` has at least three blocks; of its units fewer than 186 are in use. -/
example : ∃ d D unused, Made (sparse 3) d D ∧ 768 ≤ D.size ∧ d.buildWithUnused = .ok (some (D, unused)) ∧ D.size - unused ≤ 185 := by
  obtain ⟨d, D, h⟩ := sparse_made (m := 3) (by omega)
  obtain ⟨h1, unused, h2, h3⟩ := C107_sparse h
  exact ⟨d, D, unused, h, h1, h2, by omega⟩

/-- `Witness.histA` has its 256 units for at least one in use. -/
example : ∃ (d : Dawg) (unused : Nat), d.buildWithUnused = .ok (some (Witness.dictA, unused)) ∧ Witness.dictA.size ≤ 256 * (Witness.dictA.size - unused) := by
  obtain ⟨d, hd⟩ := sampleMade
  obtain ⟨unused, h1, h2, _⟩ := C107_blocks_used_partial hd
  exact ⟨d, unused, h1, h2⟩

end Dawg.Props
