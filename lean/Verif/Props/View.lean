import Verif.Props.Dictionary
import Verif.Proof.Guide.Completer
/-! # Auxiliary facts for the guide, index and ranking properties -/
namespace Dawg.Props
open Dawg Dawg.Spec Dawg.Client Dawg.Abs Dawg.Dict Dawg.Guided
attribute [-simp] List.length_flatten

theorem accepted_length_lt {hist : List (Key × Int)} (hadm : Admissible hist) : (accepted hist).length < 1073741824 := by
  have h1 := accepted_total hist
  have h2 := hadm.small
  have h3 : ∀ l : List (Key × Int), l.length ≤ (l.map (fun e => e.1.length + 1)).sum := by
    intro l
    induction l with
    | nil => simp
    | cons a l ih => simp only [List.map_cons, List.sum_cons, List.length_cons]; omega
  have := h3 (accepted hist)
  omega

theorem words_eq (acc : List (Key × Int)) : words acc = acc.map wordE := rfl

/-- The bytes a look-up may meet without clashing with a value unit. -/
def CleanByte (hist : List (Key × Int)) (b : UInt8) : Prop := ∀ e ∈ words (accepted hist), e.2 % 256 ≠ b.toNat

/-- A built dictionary and its Dawg, seen as automata. -/
theorem Made.view {hist d D} (h : Made hist d D) (hne : accepted hist ≠ []) :
    ∃ At kid DAt, View D At kid (CleanByte hist) ∧ At 0 (words (accepted hist)) ∧ DView d DAt ∧ DAt 0 (words (accepted hist)) := by
  obtain ⟨c, r, B, G, num, e1, e2, e3⟩ := Made.sem h hne
  have hne' : (accepted hist).map wordE ≠ [] := by simpa using hne
  refine ⟨AtN c G D, kidOf D, DAtN d c, Guided.view e3 (by rw [words_eq, List.length_map]; exact accepted_length_lt h.1) hne', root_at e3 hne', dview e1 e3.core, ?_⟩
  obtain ⟨o, g, hr⟩ := e3.root hne'
  exact ⟨r, g, e1.child_root e3.core, hr.start, hr.den⟩

/-- The index of a prefix. -/
theorem Made.index {hist d D} (_h : Made hist d D) {At kid} (V : View D At kid (CleanByte hist)) (h0 : At 0 (words (accepted hist))) {p : Key}
    (hp : ∃ e ∈ accepted hist, p <+: e.1) {u n : Nat} (hf : D.followString p D.root = .ok (true, u, n)) :
    Reach kid (words (accepted hist)) u (residual (words (accepted hist)) p) := by
  obtain ⟨v, h1, h2⟩ := (V.reach h0).followString p .root (residual_wordE_ne.2 hp)
  have : D.root = 0 := rfl
  rw [this, h1] at hf
  cases hf
  exact h2

theorem mem_words {acc : List (Key × Int)} {k : Key} : (∃ v, (k, v) ∈ words acc) ↔ ∃ e ∈ acc, e.1 = k := by
  rw [words_eq]
  constructor
  · rintro ⟨v, h⟩
    obtain ⟨e, he, hk⟩ := List.mem_map.1 h
    exact ⟨e, he, congrArg Prod.fst hk⟩
  · rintro ⟨e, he, rfl⟩
    exact ⟨_, List.mem_map.2 ⟨e, he, rfl⟩⟩

/-- The empty dictionary has an empty Dawg. -/
theorem Made.empty_size {hist d D} (h : Made hist d D) (he : accepted hist = []) : d.size = 1 := by
  obtain ⟨n, oks, b, num, h1, h2, hadm, h3, h4⟩ := Made.unfold' h
  obtain ⟨c, r, e1, e2, _⟩ := dict_built h1 h2 hadm h3 h4
  rw [he] at e2
  rcases e2.den with ⟨_, _, h0⟩ | ⟨g, h5, h6⟩
  · rw [e1.size_eq, h0]; rfl
  · exact absurd rfl (h6.ne_nil e2.cinv.ne (e2.cinv.ne _ h5.mem))

end Dawg.Props
