import Verif.Model.Finish
import Verif.Props.Builder
/-! # C111: the object that `Finish` is given -/
namespace Dawg.Props
open Dawg Dawg.Spec Dawg.Client Dawg.Abs

/-- **C111**, as one would like to have it: `Finish` does the same whatever variable it is given. -/
def C111_statement : Prop := ∀ (n : Nat), 1 ≤ n → n < 2 ^ 32 → ∀ (hist : List (Key × Int)), Admissible hist → ∀ (oks : List Bool) (b b' : Builder) (d : Dawg),
  insertAll (Builder.newWithSize n) hist = .ok (b, oks) → b.finish = .ok (b', d) → ∀ v : DawgVar, b.finishInto v = .ok (b', d.var)

theorem finishFill_eq {b b' : Builder} {d : Dawg} (h : b.finish = .ok (b', d)) (v : DawgVar) :
    ∃ c : Builder, b.finishFill v = .ok (c, v.flagPool, d.var) ∧ ∀ p, { c with flagPool := p }.clear = b' := by
  unfold Builder.finish at h
  unfold Builder.finishFill
  by_cases hh : b.hashTable.length = 0
  all_goals
    simp only [hh, if_true, if_false] at h ⊢
    simp only [bind_eq_ok] at h
    obtain ⟨b1, h1, b2, h2, u, h3, bp, h4, lp, h5, h6⟩ := h
    cases h6
    simp only [h1, ok_bind, h2, h3, h4, h5]
    exact ⟨_, rfl, fun p => rfl⟩

/-- **C111**, exactly: for every state of a builder in which `Finish` returns, and every variable: when its flag pool is not nil, the variable is afterwards the Dawg, and nothing is left of what it was before; when it is nil,
`Finish` panics, although the variable already contains the Dawg. -/
theorem C111_exact_partial {b b' : Builder} {d : Dawg} (h : b.finish = .ok (b', d)) (v : DawgVar) :
    (v.flagPool ≠ none → b.finishInto v = .ok (b', d.var)) ∧
    (v.flagPool = none → b.finishInto v = .error .panic ∧ ∃ c, b.finishFill v = .ok (c, none, d.var)) := by
  obtain ⟨c, h1, h2⟩ := finishFill_eq h v
  unfold Builder.finishInto
  rw [h1]
  simp only [ok_bind]
  constructor
  · intro hv
    obtain ⟨p, hp⟩ := Option.ne_none_iff_exists'.1 hv
    rw [hp]
    simp only [h2]
    rfl
  · intro hv
    rw [hv]
    exact ⟨rfl, c, rfl⟩

/-- **C111**, for whole histories: into a Dawg that `NewDawg` gave, that was used before for other keys, or that was cleared, `Finish` puts the same Dawg. -/
theorem C111_used_partial (n : Nat) (h1 : 1 ≤ n) (h2 : n < 2 ^ 32) (hist : List (Key × Int)) (hadm : Admissible hist) :
    ∃ oks b b' d, insertAll (Builder.newWithSize n) hist = .ok (b, oks) ∧ Client.build n hist = .ok (oks, b', d) ∧
      b.finishInto Dawg.new.var = .ok (b', d.var) ∧ (∀ e : Dawg, b.finishInto e.var = .ok (b', d.var) ∧ b.finishInto e.clear.var = .ok (b', d.var)) ∧ b.finishInto {} = .error .panic := by
  obtain ⟨d, hd, _⟩ := build_spec n h1 h2 hist hadm
  have hd' := hd
  unfold Client.build at hd'
  simp only [bind_eq_ok] at hd'
  obtain ⟨⟨b, oks⟩, e1, ⟨b', d'⟩, e2, e3⟩ := hd'
  cases e3
  exact ⟨_, b, _, _, e1, hd, (C111_exact_partial e2 Dawg.new.var).1 (by simp [Dawg.var]),
    fun e => ⟨(C111_exact_partial e2 e.var).1 (by simp [Dawg.var]), (C111_exact_partial e2 e.clear.var).1 (by simp [Dawg.var])⟩, ((C111_exact_partial e2 {}).2 rfl).1⟩

/-- The statement is false: `var d dawg.Dawg; builder.Finish(&d)` panics. -/
theorem C111_false : ¬ C111_statement := by
  intro h
  obtain ⟨oks, b, b', d, e1, e2, _, _, e3⟩ := C111_used_partial 256 (by decide) (by decide) [([97], 5)] ⟨by decide, by decide⟩
  have e2' := e2
  unfold Client.build at e2'
  simp only [bind_eq_ok] at e2'
  obtain ⟨⟨c, oks'⟩, f1, ⟨c', d'⟩, f2, f3⟩ := e2'
  rw [e1] at f1
  cases f1
  cases f3
  have := h 256 (by decide) (by decide) _ ⟨by decide, by decide⟩ _ _ _ _ e1 f2 {}
  rw [e3] at this
  cases this

/-- The key "a", and then, into the same variable, "a" and "b": the second Dawg is as if the variable were new; with `Dawg{}` the call panics. -/
example : (do
    let (b, _) ← insertAll (Builder.newWithSize 4) [([97], 5)]
    let (_, v) ← b.finishInto Dawg.new.var
    let (c, _) ← insertAll (Builder.newWithSize 4) [([97], 5), ([98], 7)]
    let (_, w) ← c.finishInto v
    let (_, w') ← c.finishInto Dawg.new.var
    return (v.basePool.length, w.basePool.length, decide (w = w'), (c.finishInto {}).toBool) : Go (Nat × Nat × Bool × Bool)) = .ok (3, 5, true, false) := by
  decide +kernel

end Dawg.Props
