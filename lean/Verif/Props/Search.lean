import Verif.Proof.Dict.Witness
import Verif.Props.Guide
/-! # C101: how many places the dictionary builder tries -/
namespace Dawg.Props
open Dawg Dawg.Spec Dawg.Client Dawg.Abs Dawg.Dict DictBuilder
attribute [-simp] List.length_flatten

/-! ## The count changes nothing else -/

theorem findLoopN_fst (db : DictBuilder) (index : Nat) : ∀ (fuel cur : Nat),
    (do let x ← db.findGoodOffsetLoopN index fuel cur; .ok x.1) = db.findGoodOffsetLoop index fuel cur
  | 0, _ => rfl
  | fuel + 1, cur => by
    rw [findGoodOffsetLoopN, findGoodOffsetLoop]
    cases rd db.labels 0 with
    | error e => rfl
    | ok l =>
      simp only [ok_bind]
      cases db.isGoodOffset index (cur ^^^ l.toNat) with
      | error e => rfl
      | ok b =>
        cases b with
        | true => rfl
        | false =>
          simp only [ok_bind, Bool.false_eq_true, if_false]
          cases db.extra cur with
          | error e => rfl
          | ok ex =>
            simp only [ok_bind]
            by_cases h : ex.next = db.unfixedIndex
            · rw [if_pos h, if_pos h]; rfl
            · rw [if_neg h, if_neg h, ← findLoopN_fst db index fuel ex.next]
              cases db.findGoodOffsetLoopN index fuel ex.next <;> rfl

theorem findN_fst (db : DictBuilder) (index : Nat) : (do let x ← db.findGoodOffsetN index; .ok x.1) = db.findGoodOffset index := by
  unfold findGoodOffsetN findGoodOffset
  rw [← findLoopN_fst]
  by_cases h : db.unfixedIndex ≥ db.numOfUnits
  · rw [if_pos h, if_pos h]; rfl
  · rw [if_neg h, if_neg h]
    cases db.findGoodOffsetLoopN index (db.units.length + 1) db.unfixedIndex with
    | error e => rfl
    | ok x =>
      obtain ⟨o, n⟩ := x
      cases o <;> rfl

theorem arrangeN_fst (d : Dawg) (db : DictBuilder) (i u : Nat) : (do let x ← arrangeChildNodesN d db i u; .ok x.1) = arrangeChildNodes d db i u := by
  unfold arrangeChildNodesN arrangeChildNodes
  cases dawgKids d i with
  | error e => rfl
  | ok kids =>
    simp only [ok_bind]
    cases collectLabels d kids with
    | error e => rfl
    | ok labels =>
      simp only [ok_bind]
      rw [← findN_fst]
      cases findGoodOffsetN { db with labels := labels } u with
      | error e => rfl
      | ok x =>
        obtain ⟨o, n⟩ := x
        simp only [ok_bind]
        cases rd db.units u with
        | error e => rfl
        | ok w =>
          simp only [ok_bind]
          cases dictSetOffset w (u ^^^ o) with
          | none => rfl
          | some w' =>
            simp only [bind_assoc]
            rfl

theorem indicesN_fst (d : Dawg) : ∀ (fuel : Nat) (db : DictBuilder) (i u : Nat),
    (do let x ← buildIndicesN d fuel db i u; .ok x.1) = buildIndices d fuel db i u
  | 0, _, _, _ => rfl
  | fuel + 1, db, i, u => by
    rw [buildIndicesN, buildIndices]
    cases d.isLeaf i with
    | error e => rfl
    | ok b =>
      cases b with
      | true => rfl
      | false =>
        simp only [ok_bind, Bool.false_eq_true, if_false]
        cases d.child i with
        | error e => rfl
        | ok ch =>
          simp only [ok_bind]
          cases tryLink d db ch u with
          | error e => rfl
          | ok r =>
            cases r with
            | some db' => rfl
            | none =>
              simp only [ok_bind]
              rw [← arrangeN_fst]
              cases arrangeChildNodesN d db i u with
              | error e => rfl
              | ok x =>
                obtain ⟨⟨db1, o⟩, n⟩ := x
                simp only [ok_bind]
                by_cases h : o = 0
                · rw [if_pos h, if_pos h]; rfl
                · rw [if_neg h, if_neg h]
                  cases recordLink d db1 ch o with
                  | error e => rfl
                  | ok db2 =>
                    simp only [ok_bind]
                    cases d.chain (d.size + 1) ch with
                    | error e => rfl
                    | ok kids =>
                      simp only [ok_bind]
                      have key : ∀ (ks : List Nat) (p : DictBuilder × Bool) (n : Nat),
                          (do let x ← ks.foldlM (init := (p, n)) (fun (x : (DictBuilder × Bool) × Nat) c => (do
                              if !x.1.2 then return ((x.1.1, false), x.2)
                              let l ← d.label c
                              let y ← buildIndicesN d fuel x.1.1 c (o ^^^ l.toNat)
                              return (y.1, x.2 + y.2) : Go ((DictBuilder × Bool) × Nat))); .ok x.1) =
                          ks.foldlM (init := p) (fun (x : DictBuilder × Bool) c => (do
                              if !x.2 then return (x.1, false)
                              let l ← d.label c
                              buildIndices d fuel x.1 c (o ^^^ l.toNat) : Go (DictBuilder × Bool))) := by
                        intro ks
                        induction ks with
                        | nil => intro p n; rfl
                        | cons k ks ih =>
                          intro p n
                          rw [List.foldlM_cons, List.foldlM_cons]
                          cases hp : p.2 with
                          | false =>
                            simp only [Bool.not_false, if_true, pure_bind]
                            exact ih (p.1, false) n
                          | true =>
                            simp only [Bool.not_true, Bool.false_eq_true, if_false]
                            cases d.label k with
                            | error e => rfl
                            | ok l =>
                              simp only [ok_bind]
                              rw [← indicesN_fst d fuel p.1 k (o ^^^ l.toNat)]
                              cases buildIndicesN d fuel p.1 k (o ^^^ l.toNat) with
                              | error e => rfl
                              | ok y => exact ih y.1 (n + y.2)
                      exact key kids (db2, true) n

/-- **C101.** The counted `BuildWithUnused` gives the same dictionary, for every Dawg. -/
theorem C101_same_result (d : Dawg) : (do let x ← d.buildWithUnusedN; .ok x.1) = d.buildWithUnused := by
  have h1 : ∀ db, (do let x ← buildRootN d db; .ok x.1) = buildRoot d db := by
    intro db
    unfold buildRootN buildRoot
    by_cases h : d.size > 1
    · rw [if_pos h, if_pos h]; exact indicesN_fst d _ _ _ _
    · rw [if_neg h, if_neg h]; rfl
  have h2 : (do let x ← buildDictionaryN d; .ok x.1) = buildDictionary d := by
    unfold buildDictionaryN buildDictionary
    simp only [bind_assoc]
    congr 1; funext db
    congr 1; funext db
    congr 1; funext db
    congr 1; funext db
    rw [← h1]
    cases buildRootN d db with
    | error e => rfl
    | ok x =>
      obtain ⟨⟨db', ok⟩, n⟩ := x
      cases ok with
      | false => rfl
      | true =>
        simp only [ok_bind, Bool.not_true, Bool.false_eq_true, if_false]
        cases db'.fixAllBlocks <;> rfl
  unfold Dawg.buildWithUnusedN Dawg.buildWithUnused
  rw [← h2]
  cases buildDictionaryN d <;> rfl

/-! ## The bound -/

/-- **C101.** Whatever is inserted, building the dictionary tries at most 4096 places for every byte of the stored keys (and one more per key), also when it gives up. -/
theorem C101_search_cost (size : Nat) (h1 : 1 ≤ size) (h2 : size < 4294967296) (hist : List (Key × Int)) (hadm : Admissible hist) {oks b d}
    (hb : Client.build size hist = .ok (oks, b, d)) :
    ∃ res n, d.buildWithUnusedN = .ok (res, n) ∧ d.buildWithUnused = .ok res ∧ n ≤ 4096 * ((accepted hist).map (fun e => e.1.length + 1)).sum := by
  obtain ⟨d', e1, e2, e3⟩ := build_spec size h1 h2 hist hadm
  rw [hb] at e1
  simp only [Except.ok.injEq, Prod.mk.injEq] at e1
  obtain ⟨_, _, rfl⟩ := e1
  have hv : ∀ e ∈ (accepted hist).map wordE, e.2 < 2147483648 := by
    intro e he
    obtain ⟨x, _, rfl⟩ := List.mem_map.1 he
    exact stored_lt _
  obtain ⟨n, k1, k2, _⟩ := buildDictionaryN_spec e2 e3 hv
  rw [msize_eq] at k2
  have hok : ∃ x, buildDictionary d = .ok x := by
    rcases buildDictionary_spec e2 e3 hv with ⟨db, a, _⟩ | ⟨db, a, _⟩
    · exact ⟨_, a⟩
    · exact ⟨_, a⟩
  obtain ⟨⟨db, ok⟩, hok⟩ := hok
  rw [hok] at k1
  refine ⟨if ok then some (⟨db.units⟩, db.numOfUnusedUnits) else none, n, ?_, ?_, k2⟩
  · unfold Dawg.buildWithUnusedN
    rw [k1]; rfl
  · unfold Dawg.buildWithUnused
    rw [hok]; rfl

/-- **C101.** When a dictionary comes out, building it tried at most 4096 places for every unit that is in use, the root not counted.  States that the Dawg shares are paid for once (or each time they are placed again). -/
theorem C101_search_units {hist d D} (h : Made hist d D) : ∃ num n, d.buildWithUnusedN = .ok (some (D, num), n) ∧ d.buildWithUnused = .ok (some (D, num)) ∧
    num < D.units.length ∧ n ≤ 4096 * (D.units.length - 1 - num) := by
  obtain ⟨hadm, size, oks, b, h1, h2, hb, hD⟩ := h
  obtain ⟨num, hD⟩ := unused_of_build hD
  obtain ⟨d', e1, e2, e3⟩ := build_spec size h1 h2 hist hadm
  rw [hb] at e1
  simp only [Except.ok.injEq, Prod.mk.injEq] at e1
  obtain ⟨_, _, rfl⟩ := e1
  obtain ⟨n, k1, _, k2⟩ := buildDictionaryN_spec e2 e3 (by
    intro e he
    obtain ⟨x, _, rfl⟩ := List.mem_map.1 he
    exact stored_lt _)
  refine ⟨num, n, ?_, hD, ?_⟩
  · unfold Dawg.buildWithUnused at hD
    unfold Dawg.buildWithUnusedN
    rw [k1]
    cases hx : buildDictionary d with
    | error e => rw [hx] at hD; cases hD
    | ok x =>
      rw [hx] at hD
      obtain ⟨db, ok⟩ := x
      simp only [ok_bind, pure_eq_ok, Except.ok.injEq] at hD ⊢
      rw [hD]
  · unfold Dawg.buildWithUnused at hD
    cases hx : buildDictionary d with
    | error e => rw [hx] at hD; cases hD
    | ok x =>
      rw [hx] at hD
      obtain ⟨db, ok⟩ := x
      cases ok with
      | false => cases hD
      | true =>
        cases hD
        have := k2 db hx
        simp only
        omega

/-- The number of places tried when these keys are stored and no state of the Dawg is shared. -/
def tried (hist : List (Key × Int)) : Go Nat := do
  let (_, _, d) ← Client.build 1 hist
  let (_, n) ← buildRootN d (Witness.first 0)
  return n

set_option maxRecDepth 100000 in
/-- Storing "a", "ab" and "b" places four states, each at the first attempt. -/
example : tried keysG = .ok 4 := by decide +kernel

set_option maxRecDepth 100000 in
/-- Storing "", "1" and "2" (bytes 1 and 2) places three states with five attempts. -/
example : tried [([], 1), ([1], 2), ([2], 3)] = .ok 5 := by decide +kernel

/-- For "a", "ab" and "b" the first bound is 4096 · 7. -/
example : ∃ d D num n, Made keysG d D ∧ d.buildWithUnusedN = .ok (some (D, num), n) ∧ n ≤ 28672 ∧ n ≤ 4096 * (D.units.length - 1 - num) := by
  obtain ⟨d, D, h⟩ := madeG
  obtain ⟨num, n, h1, _, _, h2⟩ := C101_search_units h
  have h' := h
  obtain ⟨hadm, size, oks, b, a1, a2, hb, _⟩ := h'
  obtain ⟨res, n', h3, _, h4⟩ := C101_search_cost size a1 a2 keysG hadm hb
  rw [h1] at h3
  cases h3
  exact ⟨d, D, num, n, h, h1, h4, h2⟩

end Dawg.Props
