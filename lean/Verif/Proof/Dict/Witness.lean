import Verif.Proof.Dict.Main
/-! # Some dictionaries, computed by the kernel

The first block after `reserveUnit(0)` is computed once; `fixAllBlocks` is not computed but replaced by what
is proved about it. -/
namespace Dawg.Witness
open Dawg.Spec Dawg.Client Dawg.Dict Dawg.Abs DictBuilder

/-- The first block of extra units with unit 0 taken. -/
def firstExtra (i : Nat) : ExtraUnit :=
  if i = 0 then ⟨3, 511⟩ else ⟨2 * (if i = 255 then 1 else i + 1), 2 * (if i = 1 then 255 else i - 1)⟩

/-- The builder after the first steps of `BuildDictionary`, for a link table of `n` entries. -/
def first (n : Nat) : DictBuilder :=
  { units := 1024 :: List.replicate 255 0, extras := [(List.range 256).map firstExtra], labels := [], linkTable := LinkTable.new n,
    unfixedIndex := 1, numOfUnusedUnits := 0 }

/-- That this is so. -/
def First (n : Nat) : Prop := (do
      let db := { DictBuilder.new with linkTable := LinkTable.new n }
      let db ← db.reserveUnit 0
      let db ← db.modExtra 0 ExtraUnit.setIsUsed
      let db ← db.modUnit 0 (fun u => (dictSetOffset u 1).getD u)
      db.modUnit 0 (fun u => dictSetLabel u 0)) = .ok (first n)

set_option maxRecDepth 100000 in
theorem first_eq : First (0 + (0 >>> 1)) := by unfold First; decide +kernel

/-- Units that are not fixed get their labels. -/
def fixed (unused : Nat) (es : List ExtraUnit) (us : List Nat) : List Nat :=
  (List.zip us es).mapIdx fun j x => if x.2.isFixed then x.1 else dictSetLabel x.1 (UInt8.ofNat (j ^^^ unused))

theorem findUnused_ok {db : DictBuilder} {ex : Nat → ExtraUnit} (h : EX db.units db.extras 1 ex) : ∀ (n i : Nat), i + n = 256 →
    db.findUnusedOffset n i = .ok ((((List.range' i n).find? fun j => !(ex j).isUsed)).getD 0)
  | 0, i, _ => rfl
  | n + 1, i, hi => by
    rw [findUnusedOffset, h.extra ⟨by omega, by omega⟩]
    simp only [ok_bind, List.range'_succ, List.find?_cons]
    cases (ex i).isUsed with
    | true => simpa using findUnused_ok h n (i + 1) (by omega)
    | false => rfl

theorem fixAll_of {db : DictBuilder} {ex : Nat → ExtraUnit} (hext : EX db.units db.extras 1 ex) (hfl : FL 1 ex db.unfixedIndex) (unused : Nat) (hun : db.findUnusedOffset 256 0 = .ok unused) (es : List ExtraUnit)
    (hes : db.extras = [es]) : ∃ db', db.fixAllBlocks = .ok db' ∧ db'.units = fixed unused es db.units ∧ db'.numOfUnusedUnits = db.numOfUnusedUnits + es.countP (fun e => !e.isFixed) := by
  have hes' : es = blockOf ex 0 := by
    have := hext.get 0 (by omega)
    rw [hes] at this
    simpa using this
  obtain ⟨us, xs, uf, num, ex', e1, e2, _, _, _, e6, e7⟩ := fixBlockLoop_spec (by omega) unused 256 (256 * 0) db ex hext hfl
    (fun j h1 h2 => ⟨by omega, by omega⟩)
  have hnb : db.numOfBlocks = 1 := by unfold DictBuilder.numOfBlocks; rw [hext.len]; rfl
  refine ⟨{ db with units := us, extras := xs, unfixedIndex := uf, numOfUnusedUnits := num }, ?_, ?_, ?_⟩
  · unfold fixAllBlocks
    simp only [hnb, numOfUnfixedBlocks]
    rw [if_neg (by omega)]
    rw [Nat.mul_zero] at e1
    have hfb : db.fixBlock 0 = .ok { db with units := us, extras := xs, unfixedIndex := uf, numOfUnusedUnits := num } := by
      unfold fixBlock
      simp only [blockSize]
      rw [show u32 (0 * 256) = 0 from rfl, hun]
      simp only [ok_bind]
      rw [e1]
    show fixBlocksLoop 1 0 db = _
    rw [fixBlocksLoop, hfb]
    rfl
  · simp only []
    have hl : db.units.length = 256 := hext.units
    apply List.ext_getElem?
    intro j
    unfold fixed
    rw [List.getElem?_mapIdx, List.zip, List.getElem?_zipWith, e6, hes']
    by_cases hj : j < 256
    · have h1 : db.units[j]? = some db.units[j] := by simp
      rw [h1, blockOf_get _ _ hj]
      simp only [Option.map_some, Nat.mul_zero, Nat.zero_add, Nat.zero_le, hj, true_and]
      cases (ex j).isFixed <;> simp
    · rw [if_neg (by omega), List.getElem?_eq_none (by omega)]
      simp
  · have hc : List.countP (fun e => !e.isFixed) es = List.countP (fun j => !(ex j).isFixed) (List.range' (256 * 0) 256) := by
      rw [hes', blockOf, List.countP_map, Nat.mul_zero, ← List.range_eq_range']
      apply List.countP_congr
      intro j hj
      simp only [Function.comp, Nat.zero_add]
    rw [hc]
    exact e7

theorem fixAll_eq {c r db ex G pend} (h : DInv c r db 1 ex G pend) (unused : Nat) (hun : db.findUnusedOffset 256 0 = .ok unused) (es : List ExtraUnit)
    (hes : db.extras = [es]) : ∃ db', db.fixAllBlocks = .ok db' ∧ db'.units = fixed unused es db.units ∧ db'.numOfUnusedUnits = db.numOfUnusedUnits + es.countP (fun e => !e.isFixed) :=
  fixAll_of h.ext h.fl unused hun es hes

/-- Insertions into a builder of size 1, then `Finish`, then `BuildWithUnused`. -/
def run (hist : List (Key × Int)) : Go (Option (Dictionary × Nat)) := do
  let (_, _, d) ← Client.build 1 hist
  d.buildWithUnused

theorem made_of_run {hist : List (Key × Int)} (hadm : Admissible hist) {D num} (h : run hist = .ok (some (D, num))) :
    ∃ d, Made hist d D ∧ d.buildWithUnused = .ok (some (D, num)) := by
  obtain ⟨d, c, r, e1, _⟩ := Dict.dict_spec 1 (by omega) (by omega) hist hadm
  unfold run at h
  rw [e1] at h
  simp only [ok_bind] at h
  exact ⟨d, ⟨hadm, 1, _, _, by omega, by omega, e1, Dict.build_of_unused h⟩, h⟩

/-- The part that is computed, for a Dawg with `m` merging states. -/
def start (m : Nat) (hist : List (Key × Int)) : Go (Nat × Nat × Dictionary × Nat) := do
  let (_, _, d) ← Client.build 1 hist
  let (db, ok) ← buildRoot d (first (m + (m >>> 1)))
  let un ← db.findUnusedOffset 256 0
  if ok then
    match db.extras with
    | [es] => return (d.numOfMergingStates, db.units.length, ⟨fixed un es db.units⟩, db.numOfUnusedUnits + es.countP (fun e => !e.isFixed))
    | _ => .error .hang
  else .error .hang

theorem run_of_start {m : Nat} (hfirst : First (m + (m >>> 1))) {hist : List (Key × Int)} (hadm : Admissible hist) {D num} (h : start m hist = .ok (m, 256, D, num)) :
    run hist = .ok (some (D, num)) := by
  obtain ⟨d, c, r, e1, e2, e3, e4⟩ := Dict.dict_spec 1 (by omega) (by omega) hist hadm
  unfold start at h
  unfold run
  rw [e1] at h ⊢
  simp only [ok_bind] at h ⊢
  obtain ⟨db0, ex0, i1, i2, i3⟩ := init_spec c r (LinkTable.new (m + (m >>> 1)))
  unfold First at hfirst
  rw [hfirst] at i1
  cases i1
  cases hr : buildRoot d (first (m + (m >>> 1))) with
  | error e => rw [hr] at h; cases h
  | ok x =>
    obtain ⟨db, ok⟩ := x
    rw [hr] at h
    simp only [ok_bind] at h
    cases hun : db.findUnusedOffset 256 0 with
    | error e => rw [hun] at h; cases h
    | ok un =>
      rw [hun] at h
      simp only [ok_bind] at h
      cases ok with
      | false => simp at h
      | true =>
        rw [if_pos rfl] at h
        have hm : ∃ es, db.extras = [es] := by
          revert h
          cases db.extras with
          | nil => intro h; cases h
          | cons a l =>
            cases l with
            | nil => intro _; exact ⟨a, rfl⟩
            | cons b l => intro h; cases h
        obtain ⟨es, hes⟩ := hm
        rw [hes] at h
        simp only [pure_eq_ok, Except.ok.injEq, Prod.mk.injEq] at h
        obtain ⟨hm0, hlen, hD, hnum⟩ := h
        have hmk : c.marked.length = m := by rw [← e2.merging]; exact hm0
        have hmb : c.marked.length ≤ 1073741824 := by
          obtain ⟨N, hN⟩ := e3.nodes
          have h1 := List.Nodup.length_le_of_subset hN.markedNodup (l₂ := List.range (poolLen c.groups)) (by
            intro s hs
            rw [List.mem_range]
            exact starts_lt e3.cinv.ne (hN.markedSub s hs))
          rw [List.length_range] at h1
          have := e3.small
          omega
        have hhalf : m >>> 1 = m / 2 := by rw [Nat.shiftRight_eq_div_pow]
        have ht : TInv c (first (m + (m >>> 1))).linkTable [] := by
          refine ⟨fun _ => 0, [], LinkInv.new (by omega), by simp, by simp, ?_⟩
          rw [show (first (m + (m >>> 1))).linkTable = LinkTable.new (m + (m >>> 1)) from rfl, LinkTable.new, List.length_replicate]
          omega
        rcases buildRoot_spec e2 e3 (by
          intro e he
          obtain ⟨x, _, rfl⟩ := List.mem_map.1 he
          exact stored_lt _) i2 ht with ⟨db', k1, k2, _⟩ | ⟨db', B, ex, G, pend, k1, k2, _⟩
        · rw [hr] at k1; cases k1
        · rw [hr] at k1
          simp only [Except.ok.injEq, Prod.mk.injEq, and_true] at k1
          subst k1
          have hB : B = 1 := by have := k2.ext.units; omega
          subst hB
          obtain ⟨db2, f1, f2, f3⟩ := fixAll_eq k2 un hun es hes
          have hfull : buildDictionary d = .ok (db2, true) := by
            have hsplit : ∀ {α} (k : DictBuilder → Go α), (do
                let db ← ({ DictBuilder.new with linkTable := LinkTable.new (m + (m >>> 1)) } : DictBuilder).reserveUnit 0
                let db ← db.modExtra 0 ExtraUnit.setIsUsed
                let db ← db.modUnit 0 (fun u => (dictSetOffset u 1).getD u)
                let db ← db.modUnit 0 (fun u => dictSetLabel u 0)
                k db) = k (first (m + (m >>> 1))) := by
              intro α k
              have := congrArg (· >>= k) hfirst
              simpa only [bind_assoc, ok_bind] using this
            unfold buildDictionary
            rw [hm0]
            refine (hsplit _).trans ?_
            rw [hr]
            simp only [ok_bind, Bool.not_true, Bool.false_eq_true, if_false, f1, pure_eq_ok]
          simp only [Dawg.buildWithUnused, hfull, ok_bind, pure_eq_ok, if_true, Except.ok.injEq, Option.some.injEq, Prod.mk.injEq]
          exact ⟨by rw [← hD, f2], by rw [← hnum, f3]⟩

/-- One block of units: the given ones, all others as `fixBlock` fills them. -/
def block (unused : Nat) (ps : List (Nat × Nat)) : Dictionary :=
  ⟨(List.range 256).map fun u => (ps.lookup u).getD (u ^^^ unused)⟩

/-- "a" with value 354 = 256 + 98. -/
def histA : List (Key × Int) := [([97], 354)]
def dictA : Dictionary := block 1 [(0, 98304), (1, 3425), (2, 2147484002)]

theorem admA : Admissible histA := ⟨by decide, by decide⟩

set_option maxRecDepth 100000 in
theorem runA : run histA = .ok (some (dictA, 253)) := run_of_start (m := 0) first_eq admA (by decide +kernel)

/-- The empty dictionary. -/
def dictE : Dictionary := block 1 [(0, 1024)]

set_option maxRecDepth 100000 in
theorem runE : run [] = .ok (some (dictE, 255)) := run_of_start (m := 0) first_eq ⟨by simp, by decide⟩ (by decide +kernel)

/-! For keys with NUL bytes, about which less is proved, the free units are checked as well. -/

/-- Whether the free units of a block form circular lists. -/
def linked (es : List ExtraUnit) (uf : Nat) : Bool :=
  let free (i : Nat) : Bool := match es[i]? with | some e => !e.isFixed | none => false
  es.length == 256 && (uf == 256 || free uf) &&
    (List.range 256).all fun i => match es[i]? with
      | none => false
      | some e => e.isFixed || (free e.next && free e.prev && (es[e.next]?).map (·.prev) == some i && (es[e.prev]?).map (·.next) == some i)

theorem linked_spec {db : DictBuilder} {es : List ExtraUnit} (hu : db.units.length = 256) (hes : db.extras = [es]) (h : linked es db.unfixedIndex = true) :
    ∃ ex, EX db.units db.extras 1 ex ∧ FL 1 ex db.unfixedIndex := by
  unfold linked at h
  simp only [Bool.and_eq_true, beq_iff_eq, Bool.or_eq_true, List.all_eq_true, List.mem_range] at h
  obtain ⟨⟨hl, huf⟩, hall⟩ := h
  have hget : ∀ i, i < 256 → ∃ e, es[i]? = some e := fun i hi => ⟨es[i], List.getElem?_eq_getElem (by omega)⟩
  have hfree : ∀ i, (match es[i]? with | some e => !e.isFixed | none => false) = true → i < 256 ∧ ∃ e, es[i]? = some e ∧ e.isFixed = false := by
    intro i hi
    cases he : es[i]? with
    | none => rw [he] at hi; cases hi
    | some e =>
      rw [he] at hi
      refine ⟨?_, e, rfl, by simpa using hi⟩
      have := (List.getElem?_eq_some_iff.1 he).1
      omega
  refine ⟨fun i => (es[i]?).getD ⟨0, 0⟩, ⟨by omega, by rw [hes]; rfl, ?_⟩, ?_⟩
  · intro b hb
    have : b = 0 := by omega
    subst this
    rw [hes, if_neg (by omega)]
    simp only [List.getElem?_cons_zero, Option.some.injEq]
    apply List.ext_getElem?
    intro i
    unfold blockOf
    rw [List.getElem?_map]
    by_cases hi : i < 256
    · obtain ⟨e, he⟩ := hget i hi
      rw [List.getElem?_range hi]
      simp [he]
    · rw [List.getElem?_eq_none (by omega), List.getElem?_eq_none (by simp; omega)]
      rfl
  · have hF : ∀ i, Free 1 (fun i => (es[i]?).getD ⟨0, 0⟩) i → i < 256 ∧ ∃ e, es[i]? = some e ∧ e.isFixed = false := by
      intro i hi
      have hi' : i < 256 := by have := hi.1.1; omega
      obtain ⟨e, he⟩ := hget i hi'
      refine ⟨hi', e, he, ?_⟩
      have := hi.2
      simpa [he] using this
    have hG : ∀ i e, i < 256 → es[i]? = some e → e.isFixed = false → Free 1 (fun i => (es[i]?).getD ⟨0, 0⟩) i := by
      intro i e hi he hf
      exact ⟨⟨by omega, by omega⟩, by simp [he, hf]⟩
    have hA : ∀ i e, i < 256 → es[i]? = some e → e.isFixed = false →
        ((e.next < 256 ∧ ∃ e', es[e.next]? = some e' ∧ e'.isFixed = false ∧ e'.prev = i) ∧ (e.prev < 256 ∧ ∃ e', es[e.prev]? = some e' ∧ e'.isFixed = false ∧ e'.next = i)) := by
      intro i e hi he hf
      have h1 := hall i hi
      rw [he] at h1
      simp only [hf, Bool.false_or, Bool.and_eq_true, beq_iff_eq] at h1
      obtain ⟨⟨⟨h1, h2⟩, h3⟩, h4⟩ := h1
      obtain ⟨a1, e1, b1, c1⟩ := hfree _ h1
      obtain ⟨a2, e2, b2, c2⟩ := hfree _ h2
      rw [b1] at h3
      rw [b2] at h4
      exact ⟨⟨a1, e1, b1, c1, by simpa using h3⟩, a2, e2, b2, c2, by simpa using h4⟩
    refine ⟨?_, ?_, ?_, ?_, ?_⟩
    · rcases huf with h | h
      · exact .inl (by omega)
      · obtain ⟨a, e, b, c⟩ := hfree _ h
        exact .inr (hG _ e a b c)
    · intro i hi
      obtain ⟨a, e, b, c⟩ := hF i hi
      obtain ⟨⟨d, e', f, g, _⟩, _⟩ := hA i e a b c
      simpa [b] using hG _ e' d f g
    · intro i hi
      obtain ⟨a, e, b, c⟩ := hF i hi
      obtain ⟨_, d, e', f, g, _⟩ := hA i e a b c
      simpa [b] using hG _ e' d f g
    · intro i hi
      obtain ⟨a, e, b, c⟩ := hF i hi
      obtain ⟨⟨d, e', f, g, h⟩, _⟩ := hA i e a b c
      simp [b, f, h]
    · intro i hi
      obtain ⟨a, e, b, c⟩ := hF i hi
      obtain ⟨_, d, e', f, g, h⟩ := hA i e a b c
      simp [b, f, h]

/-- The part of `BuildWithUnused` that is computed. -/
def part (m : Nat) (d : Dawg) : Go (Bool × Nat × Nat × Dictionary × Nat) := do
  let (db, ok) ← DictBuilder.buildRoot d (first (m + (m >>> 1)))
  let un ← db.findUnusedOffset 256 0
  match db.extras with
  | [es] => return (ok && linked es db.unfixedIndex, d.numOfMergingStates, db.units.length, ⟨fixed un es db.units⟩, db.numOfUnusedUnits + es.countP (fun e => !e.isFixed))
  | _ => .error .hang

theorem built_of_part {m : Nat} (hfirst : First (m + (m >>> 1))) {d : Dawg} {D num} (h : part m d = .ok (true, m, 256, D, num)) : d.buildWithUnused = .ok (some (D, num)) := by
  unfold part at h
  unfold First at hfirst
  cases hr : DictBuilder.buildRoot d (first (m + (m >>> 1))) with
  | error e => rw [hr] at h; cases h
  | ok x =>
    obtain ⟨db, ok⟩ := x
    rw [hr] at h
    simp only [ok_bind] at h
    cases hun : db.findUnusedOffset 256 0 with
    | error e => rw [hun] at h; cases h
    | ok un =>
      rw [hun] at h
      simp only [ok_bind] at h
      have hm : ∃ es, db.extras = [es] := by
        revert h
        cases db.extras with
        | nil => intro h; cases h
        | cons a l =>
          cases l with
          | nil => intro _; exact ⟨a, rfl⟩
          | cons b l => intro h; cases h
      obtain ⟨es, hes⟩ := hm
      rw [hes] at h
      simp only [pure_eq_ok, Except.ok.injEq, Prod.mk.injEq, Bool.and_eq_true] at h
      obtain ⟨⟨rfl, hlk⟩, hm0, hlen, hD, hnum⟩ := h
      obtain ⟨ex, k1, k2⟩ := linked_spec hlen hes hlk
      obtain ⟨db2, f1, f2, f3⟩ := fixAll_of k1 k2 un hun es hes
      have hfull : DictBuilder.buildDictionary d = .ok (db2, true) := by
        have hsplit : ∀ {α} (k : DictBuilder → Go α), (do
            let db ← ({ DictBuilder.new with linkTable := LinkTable.new (m + (m >>> 1)) } : DictBuilder).reserveUnit 0
            let db ← db.modExtra 0 ExtraUnit.setIsUsed
            let db ← db.modUnit 0 (fun u => (dictSetOffset u 1).getD u)
            let db ← db.modUnit 0 (fun u => dictSetLabel u 0)
            k db) = k (first (m + (m >>> 1))) := by
          intro α k
          have := congrArg (· >>= k) hfirst
          simpa only [bind_assoc, ok_bind] using this
        unfold DictBuilder.buildDictionary
        rw [hm0]
        refine (hsplit _).trans ?_
        rw [hr]
        simp only [ok_bind, Bool.not_true, Bool.false_eq_true, if_false, f1, pure_eq_ok]
      simp only [Dawg.buildWithUnused, hfull, ok_bind, pure_eq_ok, if_true, Except.ok.injEq, Option.some.injEq, Prod.mk.injEq]
      exact ⟨by rw [← hD, f2], by rw [← hnum, f3]⟩

end Dawg.Witness
