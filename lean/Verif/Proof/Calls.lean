import Verif.Model.Calls
import Verif.Proof.Guide.Fill
/-! # The counted constructions of guides and indices -/
namespace Dawg.Guided
attribute [-simp] List.length_flatten
open Dawg.Abs Dawg.Spec Dawg.Dict

/-! ## They give the same results -/

/-- The result without the count. -/
def dropN {α : Type} : Go (α × Nat) → Go α
  | .ok p => .ok p.1
  | .error e => .error e

theorem dropN_bind {α β : Type} (x : Go α) (f : α → Go (β × Nat)) : dropN (x >>= f) = (x >>= fun a => dropN (f a)) := by
  cases x <;> rfl

theorem dropN_ok {α : Type} (a : α) (n : Nat) : dropN (.ok (a, n)) = .ok a := rfl

theorem dropN_eq {α : Type} {x : Go (α × Nat)} {r : α} : dropN x = .ok r ↔ ∃ n, x = .ok (r, n) := by
  cases x with
  | error e => simp [dropN]
  | ok p =>
    obtain ⟨a, n⟩ := p
    simp [dropN]

theorem kidsLoopN_fst (d : Dawg) (D : Dictionary) (rec : GuideBuilder → Nat → Nat → Go ((GuideBuilder × Bool) × Nat)) (u : Nat) : ∀ (ks : List Nat) (gb : GuideBuilder),
    dropN (GuideBuilder.kidsLoopN d D rec u ks gb) = GuideBuilder.kidsLoop d D (fun a b c => dropN (rec a b c)) u ks gb
  | [], gb => rfl
  | c :: ks, gb => by
    rw [GuideBuilder.kidsLoopN, GuideBuilder.kidsLoop]
    cases h1 : d.label c with
    | error e => rfl
    | ok l =>
      simp only [ok_bind]
      cases h2 : D.follow l u with
      | error e => rfl
      | ok x =>
        simp only [ok_bind]
        cases x with
        | none => rfl
        | some x =>
          simp only
          cases h3 : rec gb c x with
          | error e => rfl
          | ok p =>
            obtain ⟨⟨gb1, ok⟩, n⟩ := p
            simp only [ok_bind, dropN_ok]
            cases ok with
            | false => rfl
            | true =>
              simp only [Bool.not_true, Bool.false_eq_true, if_false, dropN_bind]
              congr 1; funext s
              congr 1; funext sl
              have tail : ∀ gb2, (do
                  let x ← GuideBuilder.kidsLoopN d D rec u ks gb2
                  dropN (match x with | (r, m) => (pure (r, n + m) : Go ((GuideBuilder × Bool) × Nat)))) =
                  GuideBuilder.kidsLoop d D (fun a b c => dropN (rec a b c)) u ks gb2 := by
                intro gb2
                rw [← kidsLoopN_fst d D rec u ks gb2]
                cases GuideBuilder.kidsLoopN d D rec u ks gb2 <;> rfl
              by_cases hs : s ≠ 0
              · rw [if_pos hs, if_pos hs]
                simp only [dropN_bind, pure_bind, tail]
              · rw [if_neg hs, if_neg hs]
                simp only [dropN_bind, pure_bind, tail]

theorem guideN_fst (d : Dawg) (D : Dictionary) : ∀ (k : Nat) (gb : GuideBuilder) (i u : Nat), dropN (GuideBuilder.buildIndicesN d D k gb i u) = GuideBuilder.buildIndices d D k gb i u
  | 0, _, _, _ => rfl
  | k + 1, gb, i, u => by
    have hrec : (fun a b c => dropN (GuideBuilder.buildIndicesN d D k a b c)) = fun a b c => GuideBuilder.buildIndices d D k a b c := by
      funext a b c
      exact guideN_fst d D k a b c
    rw [GuideBuilder.buildIndicesN, GuideBuilder.buildIndices, dropN_bind]
    congr 1; funext b
    cases b with
    | true => rfl
    | false =>
      simp only [Bool.false_eq_true, if_false, dropN_bind]
      congr 1; funext t
      congr 1; funext c
      congr 1; funext l
      have tail : ∀ c', (dropN (if l = 0 ∧ c' = 0 then pure (({ gb with isFixedTable := t }, true), 1) else do
            let l' ← d.label c'
            let us ← GuideBuilder.setChild gb.units u l'
            let kids ← d.chain (d.size + 1) c'
            let (r, n) ← GuideBuilder.kidsLoopN d D (fun gb i x => GuideBuilder.buildIndicesN d D k gb i x) u kids { units := us, isFixedTable := t }
            pure (r, n + 1))) = (if l = 0 ∧ c' = 0 then pure ({ gb with isFixedTable := t }, true) else do
            let l' ← d.label c'
            let us ← GuideBuilder.setChild gb.units u l'
            let kids ← d.chain (d.size + 1) c'
            GuideBuilder.kidsLoop d D (fun gb i x => GuideBuilder.buildIndices d D k gb i x) u kids { units := us, isFixedTable := t }) := by
        intro c'
        by_cases hc : l = 0 ∧ c' = 0
        · rw [if_pos hc, if_pos hc]; rfl
        · rw [if_neg hc, if_neg hc]
          simp only [dropN_bind]
          congr 1; funext l'
          congr 1; funext us
          congr 1; funext kids
          rw [← hrec, ← kidsLoopN_fst]
          cases GuideBuilder.kidsLoopN d D (fun gb i x => GuideBuilder.buildIndicesN d D k gb i x) u kids { units := us, isFixedTable := t } <;> rfl
      by_cases hl : l = 0
      · rw [if_pos hl, if_pos hl]
        simp only [dropN_bind]
        congr 1; funext c'
        exact tail c'
      · rw [if_neg hl, if_neg hl]
        simp only [pure_bind]
        exact tail c

theorem linksN_fst (d : Dawg) (D : Dictionary) (rec : RankedBuilder → Nat → Nat → Go ((RankedBuilder × Option Int) × Nat)) (u : Nat) : ∀ (ks : List Nat) (rb : RankedBuilder),
    dropN (RankedBuilder.enumerateLinksN d D rec u ks rb) = RankedBuilder.enumerateLinks d D (fun a b c => dropN (rec a b c)) u ks rb
  | [], rb => rfl
  | c :: ks, rb => by
    rw [RankedBuilder.enumerateLinksN, RankedBuilder.enumerateLinks]
    cases h1 : d.label c with
    | error e => rfl
    | ok l =>
      simp only [ok_bind]
      have tail : ∀ (rb1 : RankedBuilder) (v : Int) (n : Nat), dropN (do
            let ((rb, ks'), m) ← RankedBuilder.enumerateLinksN d D rec u ks rb1
            pure ((rb, ks'.map ({ label := l, value := v } :: ·)), n + m)) = (do
            let (rb, ks') ← RankedBuilder.enumerateLinks d D (fun a b c => dropN (rec a b c)) u ks rb1
            pure (rb, ks'.map ({ label := l, value := v } :: ·))) := by
        intro rb1 v n
        rw [← linksN_fst d D rec u ks rb1]
        cases RankedBuilder.enumerateLinksN d D rec u ks rb1 <;> rfl
      by_cases hl : l = 0
      · rw [if_pos hl, if_pos hl]
        cases h2 : D.hasValue u with
        | error e => rfl
        | ok b =>
          simp only [ok_bind]
          cases b with
          | false => rfl
          | true =>
            simp only [Bool.not_true, Bool.false_eq_true, if_false]
            cases h3 : D.value u with
            | error e => rfl
            | ok v =>
              simp only [ok_bind, pure_bind]
              exact tail _ _ _
      · rw [if_neg hl, if_neg hl]
        cases h2 : D.follow l u with
        | error e => rfl
        | ok x =>
          simp only [ok_bind]
          cases x with
          | none => rfl
          | some x =>
            simp only
            cases h3 : rec rb c x with
            | error e => rfl
            | ok p =>
              obtain ⟨⟨rb1, v⟩, n⟩ := p
              simp only [ok_bind, dropN_ok]
              cases v with
              | none => rfl
              | some v => exact tail _ _ _

theorem rankedN_fst (sorter : Sorter) (d : Dawg) (D : Dictionary) (cmp : Int → Int → Bool) : ∀ (k : Nat) (rb : RankedBuilder) (i u : Nat),
    dropN (RankedBuilder.buildIndicesN sorter d D cmp k rb i u) = RankedBuilder.buildIndices sorter d D cmp k rb i u
  | 0, _, _, _ => rfl
  | k + 1, rb, i, u => by
    have hrec : (fun a b c => dropN (RankedBuilder.buildIndicesN sorter d D cmp k a b c)) = fun a b c => RankedBuilder.buildIndices sorter d D cmp k a b c := by
      funext a b c
      exact rankedN_fst sorter d D cmp k a b c
    rw [RankedBuilder.buildIndicesN, RankedBuilder.buildIndices, dropN_bind]
    congr 1; funext b
    cases b with
    | true =>
      simp only [if_true]
      cases RankedBuilder.findMaxValue D rb.units (D.size + 1) u <;> rfl
    | false =>
      simp only [Bool.false_eq_true, if_false, dropN_bind]
      congr 1; funext t
      congr 1; funext kids
      rw [← hrec, ← linksN_fst]
      cases RankedBuilder.enumerateLinksN d D (fun rb i x => RankedBuilder.buildIndicesN sorter d D cmp k rb i x) u kids { units := rb.units, isFixedTable := t } with
      | error e => rfl
      | ok p =>
        obtain ⟨⟨rb1, links⟩, n⟩ := p
        simp only [ok_bind, dropN_ok]
        cases links with
        | none => rfl
        | some links =>
          simp only [dropN_bind]
          rfl

theorem loopN_fst (D : Dictionary) (g : Guide) (rec : List Nat → Nat → Go ((List Nat × Bool) × Nat)) (u : Nat) : ∀ (k : Nat) (us : List Nat) (c : UInt8),
    dropN (IndexBuilder.loopN D g rec u k us c) = IndexBuilder.loop D g (fun a b => dropN (rec a b)) u k us c
  | 0, _, _ => rfl
  | k + 1, us, c => by
    rw [IndexBuilder.loopN, IndexBuilder.loop]
    by_cases hc : c = 0
    · rw [if_pos hc, if_pos hc]; rfl
    rw [if_neg hc, if_neg hc]
    cases h1 : D.follow c u with
    | error e => rfl
    | ok x =>
      simp only [ok_bind]
      cases x with
      | none => rfl
      | some x =>
        simp only
        cases h2 : rd us x with
        | error e => rfl
        | ok y =>
          simp only [ok_bind]
          have tail : ∀ (us1 : List Nat) (n : Nat), dropN (do
              let z ← rd us1 x
              let us2 ← IndexBuilder.addTo us1 u z
              let s ← g.sibling x
              let (r, m) ← IndexBuilder.loopN D g rec u k us2 s
              pure (r, n + m)) = (do
              let z ← rd us1 x
              let us2 ← IndexBuilder.addTo us1 u z
              let s ← g.sibling x
              IndexBuilder.loop D g (fun a b => dropN (rec a b)) u k us2 s) := by
            intro us1 n
            simp only [dropN_bind]
            congr 1; funext z
            congr 1; funext us2
            congr 1; funext s
            rw [← loopN_fst D g rec u k us2 s]
            cases IndexBuilder.loopN D g rec u k us2 s <;> rfl
          by_cases hy : y = 0
          · rw [if_pos hy, if_pos hy]
            cases h3 : rec us x with
            | error e => rfl
            | ok p =>
              obtain ⟨⟨us1, ok⟩, n⟩ := p
              simp only [ok_bind, dropN_ok]
              cases ok with
              | false => rfl
              | true => exact tail us1 n
          · rw [if_neg hy, if_neg hy]
            simp only [pure_bind]
            exact tail us 0

theorem indexN_fst (D : Dictionary) (g : Guide) : ∀ (k : Nat) (us : List Nat) (u : Nat), dropN (IndexBuilder.buildIndicesN D g k us u) = IndexBuilder.buildIndices D g k us u
  | 0, _, _ => rfl
  | k + 1, us, u => by
    have hrec : (fun a b => dropN (IndexBuilder.buildIndicesN D g k a b)) = fun a b => IndexBuilder.buildIndices D g k a b := by
      funext a b
      exact indexN_fst D g k a b
    rw [IndexBuilder.buildIndicesN, IndexBuilder.buildIndices]
    have tail : ∀ us1, dropN (do
        let child ← g.child u
        let (r, n) ← IndexBuilder.loopN D g (fun us i => IndexBuilder.buildIndicesN D g k us i) u 257 us1 child
        pure (r, n + 1)) = (do
        let child ← g.child u
        IndexBuilder.loop D g (fun us i => IndexBuilder.buildIndices D g k us i) u 257 us1 child) := by
      intro us1
      simp only [dropN_bind]
      congr 1; funext c
      rw [← hrec, ← loopN_fst]
      cases IndexBuilder.loopN D g (fun us i => IndexBuilder.buildIndicesN D g k us i) u 257 us1 c <;> rfl
    rw [dropN_bind]
    congr 1; funext b
    cases b with
    | true =>
      simp only [if_true]
      rw [dropN_bind]
      congr 1; funext us1
      exact tail us1
    | false =>
      simp only [Bool.false_eq_true, if_false, pure_bind]
      exact tail us

end Dawg.Guided
