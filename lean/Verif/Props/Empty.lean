import Verif.Props.Ranked
/-! # C34: the dictionary without keys -/
namespace Dawg.Props
open Dawg Dawg.Spec Dawg.Client Dawg.Abs Dawg.Dict Dawg.Guided

/-- The full claim C34 for the dictionary of an empty history. -/
def C34_statement : Prop := ∀ d D, Made [] d D →
  (∀ q : Key, (0 : UInt8) ∉ q → D.containsString q = .ok false ∧ D.findString q = .ok (-1)) ∧
  (∀ q : Key, (0 : UInt8) ∉ q → q ≠ [] → ∃ i k, D.followString q D.root = .ok (false, i, k)) ∧
  ∃ gd, buildGuide d D = .ok (some gd) ∧ (∀ c c0 u P, Completer.startString gd c u P = .ok c0 → ∃ c', Completer.next D gd c0 = .ok (c', false)) ∧
    ∃ idx, buildIndex D gd = .ok (some idx) ∧ idx.totalCount = .ok 0

theorem madeNone : ∃ d, Made [] d Witness.dictE := by
  obtain ⟨d, h, _⟩ := Witness.made_of_run ⟨by simp, by decide⟩ Witness.runE
  exact ⟨d, h⟩

/-- **C34 is false**: `FollowString("a")` succeeds in the empty dictionary. -/
theorem C34_follow_false : ∃ d D i, Made [] d D ∧ D.followString [97] D.root = .ok (true, i, 1) := by
  obtain ⟨d, h⟩ := madeNone
  exact ⟨d, _, 96, h, by decide +kernel⟩

/-- **C34 is false** also because `BuildIndex` panics on the empty dictionary, whichever way it was built. -/
theorem C34_index_false {d D} (h : Made [] d D) : buildGuide d D = .ok (some Guide.new) ∧ buildIndex D Guide.new = .error .panic := C30_empty_panics h rfl

theorem C34_empty_false : ¬ C34_statement := by
  intro hs
  obtain ⟨d, D, i, h, h1⟩ := C34_follow_false
  obtain ⟨_, h2, _⟩ := hs d D h
  obtain ⟨i', k, h3⟩ := h2 [97] (by decide) (by decide)
  rw [h1] at h3
  cases h3

/-- **C34**, what holds: `Build` succeeds; every look-up misses, for queries with arbitrary bytes; whatever can be followed has no value; guides are empty,
and completers over them, started anywhere, list nothing. -/
theorem C34_empty_partial :
    (∃ d D, Made [] d D) ∧ ∀ d D, Made [] d D →
      (∀ q, D.containsString q = .ok false ∧ D.findString q = .ok (-1) ∧ ∀ out, D.findStringValue q out = .ok (false, out)) ∧
      (∀ q, ∃ ok i k, D.followString q D.root = .ok (ok, i, k) ∧ D.hasValue i = .ok false) ∧
      (∃ gd, buildGuide d D = .ok (some gd) ∧ gd.size = 0 ∧ ∀ c u P, ∃ c0, Completer.startString gd c u P = .ok c0 ∧ Completer.next D gd c0 = .ok (c0, false)) ∧
      ∀ sorter cmp, ∃ gd, buildRankedGuideCmp sorter d D cmp = .ok (some gd) ∧ gd.size = 0 ∧
        ∀ rc u P, ∃ rc0, RankedCompleter.startString D gd rc u P = .ok rc0 ∧ RankedCompleter.next D gd rc0 = .ok (rc0, false) := by
  constructor
  · obtain ⟨d, h⟩ := madeNone
    exact ⟨d, _, h⟩
  · intro d D h
    have he : accepted [] = [] := rfl
    refine ⟨?_, fun q => follow_empty h he q, ?_, ?_⟩
    · intro q
      obtain ⟨ok, i, k, h1, h2⟩ := follow_empty h he q
      unfold Dictionary.containsString Dictionary.findString Dictionary.findStringValue
      rw [h1]
      cases ok <;> simp [ok_bind, h2, pure_eq_ok]
    · refine ⟨Guide.new, (C30_empty_panics h he).1, rfl, ?_⟩
      intro c u P
      refine ⟨⟨P ++ [0], [], c.lastIndex⟩, ?_, next_ended rfl⟩
      have := startStringLen_nonneg (gd := Guide.new) (c := c) (u := u) (P := P) (len := P.length) (by omega) (by omega)
      unfold Completer.startString
      rw [this, if_neg (by simp [Guide.new, Guide.size])]
      simp
    · intro sorter cmp
      refine ⟨Guide.new, ?_, rfl, ?_⟩
      · unfold buildRankedGuideCmp RankedBuilder.build
        simp only
        rw [if_pos (by rw [Made.empty_size h he]; omega)]
        rfl
      · intro rc u P
        refine ⟨⟨P, P.length, -1, [], [], []⟩, ?_, rfl⟩
        unfold RankedCompleter.startString RankedCompleter.startStringLen Completer.takeLen
        rw [if_neg (by omega)]
        simp [ok_bind, pure_eq_ok, Guide.new, Guide.size]

example : ∃ d D, Made [] d D ∧ D.findString [1, 2, 3] = .ok (-1) := by
  obtain ⟨⟨d, D, h⟩, h2⟩ := C34_empty_partial
  exact ⟨d, D, h, ((h2 d D h).1 _).2.1⟩

end Dawg.Props
