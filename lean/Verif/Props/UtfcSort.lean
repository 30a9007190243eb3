import Verif.Props.Lexicon
/-! # C42: what `dawgtool -b -s -u` accepts -/
namespace Dawg.Props
open Dawg Dawg.Spec Dawg.Client Dawg.Abs Dawg.Dict Dawg.Guided Dawg.Tool
attribute [-simp] List.length_flatten

/-- What a stable sort by a number does to pairs of elements. -/
theorem stable_pairwise {α : Type} {sorter : (α → α → Bool) → List α → List α} (hs : StableSort sorter) (f : α → Nat) (P : α → α → Prop) (keep : α → Bool) (l : List α) :
    ((sorter (fun a b => decide (f a < f b)) l).filter keep).Pairwise P ↔
      (∀ a ∈ l.filter keep, ∀ b ∈ l.filter keep, f a < f b → P a b) ∧ (l.filter keep).Pairwise (fun a b => f a = f b → P a b) := by
  have hp := hs.perm (fun a b => decide (f a < f b)) l
  have hso := hs.sorted _ l (weak_of_nat f)
  have hst := hs.stable _ l (weak_of_nat f)
  generalize sorter (fun a b => decide (f a < f b)) l = m at *
  have hst' : ∀ a : α, (m.filter keep).filter (fun b => decide (f b = f a)) = (l.filter keep).filter (fun b => decide (f b = f a)) := by
    intro a
    have := congrArg (List.filter keep) (hst a)
    rw [List.filter_filter, List.filter_filter] at this
    rw [List.filter_filter, List.filter_filter]
    have e : (fun b => decide (f b = f a) && keep b) = fun b => keep b && ((!decide (f a < f b)) && !decide (f b < f a)) := by
      funext b
      have : decide (f b = f a) = ((!decide (f a < f b)) && !decide (f b < f a)) := by
        by_cases h1 : f a < f b
        · simp [h1]; omega
        · by_cases h2 : f b < f a
          · simp [h1, h2]; omega
          · simp [h1, h2]; omega
      rw [this, Bool.and_comm]
    rw [e]
    exact this
  have hp' := hp.filter keep
  have hso' : (m.filter keep).Pairwise (fun a b => decide (f b < f a) = false) := hso.filter _
  generalize m.filter keep = m', l.filter keep = l' at *
  clear hp hso hst
  have heq : ∀ {L : List α}, L.Pairwise (fun a b => f a = f b → P a b) ↔ ∀ a ∈ L, (L.filter (fun b => decide (f b = f a))).Pairwise P := by
    intro L
    constructor
    · intro h a _
      refine (List.Pairwise.and_mem.1 (h.filter _)).imp ?_
      rintro x y ⟨hx, hy, h⟩
      simp only [List.mem_filter, decide_eq_true_eq] at hx hy
      exact h (hx.2.trans hy.2.symm)
    · intro h
      rw [List.pairwise_iff_forall_sublist]
      intro a b hab hf
      have ha : a ∈ L := hab.subset (by simp)
      have := h a ha
      have hs : [a, b].Sublist (L.filter (fun b => decide (f b = f a))) := by
        have := hab.filter (fun b => decide (f b = f a))
        simpa [hf] using this
      exact List.pairwise_iff_forall_sublist.1 this hs
  constructor
  · intro h
    refine ⟨fun a ha b hb hab => ?_, ?_⟩
    · have ha' := hp'.mem_iff.2 ha
      have hb' := hp'.mem_iff.2 hb
      obtain ⟨i, hi, e1⟩ := List.mem_iff_getElem.1 ha'
      obtain ⟨j, hj, e2⟩ := List.mem_iff_getElem.1 hb'
      rcases Nat.lt_trichotomy i j with hij | hij | hij
      · have := List.pairwise_iff_getElem.1 h i j hi hj hij
        rwa [e1, e2] at this
      · subst hij
        rw [e1] at e2
        subst e2
        omega
      · have := List.pairwise_iff_getElem.1 hso' j i hj hi hij
        rw [e1, e2, decide_eq_false_iff_not] at this
        omega
    · refine heq.2 fun a ha => ?_
      rw [← hst' a]
      exact h.filter _
  · rintro ⟨h1, h2⟩
    have h3 : m'.Pairwise (fun a b => f a = f b → P a b) := by
      refine heq.2 fun a ha => ?_
      rw [hst' a]
      exact heq.1 h2 a (hp'.mem_iff.1 ha)
    refine (List.Pairwise.and_mem.1 (h3.and hso')).imp ?_
    rintro a b ⟨ha, hb, h4, h5⟩
    rw [decide_eq_false_iff_not] at h5
    rcases Nat.lt_or_ge (f a) (f b) with h6 | h6
    · exact h1 a (hp'.mem_iff.1 ha) b (hp'.mem_iff.1 hb) h6
    · exact h4 (by omega)

/-- **C42** with `-u`, exactly: a lexicon is accepted iff shorter encodings never come after longer ones in byte order and the lines whose encodings have equal
lengths are in order already; any other lexicon ends the program with an error. -/
theorem C42_utfc_partial {sorter : LineSorter} (hs : StableSort sorter) (grow : Nat → Nat) {lines : List (List UInt8)} (hnul : ∀ l ∈ lines, (0 : UInt8) ∉ keyBytes true l)
    (hsz : (lines.map (fun l => (keyBytes true l).length + 1)).sum < 1073741824) :
    ((∃ d, buildDawg sorter grow { sort := true, utfc := true } lines = .ok d) ↔
      (∀ a ∈ lines, ∀ b ∈ lines, a ≠ [] → b ≠ [] → (keyBytes true a).length < (keyBytes true b).length → ¬ keyBytes true b < keyBytes true a) ∧
      (lines.filter (fun l => l.length ≠ 0)).Pairwise (fun a b => (keyBytes true a).length = (keyBytes true b).length → ¬ keyBytes true b < keyBytes true a)) ∧
    ((¬ ∃ d, buildDawg sorter grow { sort := true, utfc := true } lines = .ok d) → buildDawg sorter grow { sort := true, utfc := true } lines = .error .fatal) := by
  have hent : ∀ l, entry { utfc := true } l = (keyBytes true l, 0) := fun l => rfl
  have hp : (sorter (fun a b => decide ((Utfc.encode (runes a)).length < (Utfc.encode (runes b)).length)) lines).Perm lines := hs.perm _ _
  have hpre : buildDawg sorter grow { sort := true, utfc := true } lines =
      buildDawg sorter grow { utfc := true } (sorter (fun a b => decide ((Utfc.encode (runes a)).length < (Utfc.encode (runes b)).length)) lines) := by
    unfold buildDawg
    rw [utfc_order, processLines_congr (o := { sort := true, utfc := true }) (o' := { utfc := true }) rfl rfl]
    rfl
  have hpw := stable_pairwise hs (fun l => (Utfc.encode (runes l)).length) (fun a b => ¬ keyBytes true b < keyBytes true a) (fun l => decide (l.length ≠ 0)) lines
  generalize sorter (fun a b => decide ((Utfc.encode (runes a)).length < (Utfc.encode (runes b)).length)) lines = m at *
  obtain ⟨h1, h2⟩ := C47_unsorted (o := { utfc := true }) sorter grow (lines := m) rfl (fun l _ _ => ⟨_, rfl⟩) (fun l hl _ => hnul l (hp.mem_iff.1 hl))
    ((hp.map (fun l => (entry { utfc := true } l).1.length + 1)).sum_nat ▸ hsz)
  have hcond : ((∀ a ∈ lines, ∀ b ∈ lines, a ≠ [] → b ≠ [] → (keyBytes true a).length < (keyBytes true b).length → ¬ keyBytes true b < keyBytes true a) ∧
      (lines.filter (fun l => l.length ≠ 0)).Pairwise (fun a b => (keyBytes true a).length = (keyBytes true b).length → ¬ keyBytes true b < keyBytes true a)) ↔
      (m.filter (fun l => l.length ≠ 0)).Pairwise (fun a b => ¬ (entry { utfc := true } b).1 < (entry { utfc := true } a).1) := by
    refine Iff.trans ?_ hpw.symm
    refine and_congr ?_ Iff.rfl
    constructor
    · intro h a ha b hb
      rw [List.mem_filter] at ha hb
      exact h a ha.1 b hb.1 (by rintro rfl; simp at ha) (by rintro rfl; simp at hb)
    · intro h a ha b hb hna hnb
      exact h a (List.mem_filter.2 ⟨ha, by simpa using hna⟩) b (List.mem_filter.2 ⟨hb, by simpa using hnb⟩)
  rw [hcond, hpre]
  by_cases hc : (m.filter (fun l => l.length ≠ 0)).Pairwise (fun a b => ¬ (entry { utfc := true } b).1 < (entry { utfc := true } a).1)
  · obtain ⟨d, _, _, h3, _⟩ := h1 hc
    exact ⟨⟨fun _ => hc, fun _ => ⟨d, h3⟩⟩, fun h => absurd ⟨d, h3⟩ h⟩
  · have h3 := h2 hc
    refine ⟨⟨fun ⟨d, h⟩ => ?_, fun h => absurd h hc⟩, fun _ => h3⟩
    rw [h3] at h
    cases h

/-- "b", "a", "bé" (accepted? no: "b" and "a" have equal lengths and are not in order), and "a", "b", "bé". -/
example : (∃ d, buildDawg (fun less l => l.mergeSort (fun a b => !less b a)) (fun n => n) { sort := true, utfc := true } [[98, 0xC3, 0xA9], [97], [98]] = .ok d) ∧
    buildDawg (fun less l => l.mergeSort (fun a b => !less b a)) (fun n => n) { sort := true, utfc := true } [[98], [97], [98, 0xC3, 0xA9]] = .error .fatal := by
  have h1 := C42_utfc_partial (exists_stableSort _) (fun n => n) (lines := [[98, 0xC3, 0xA9], [97], [98]]) (by decide +kernel) (by decide +kernel)
  have h2 := C42_utfc_partial (exists_stableSort _) (fun n => n) (lines := [[98], [97], [98, 0xC3, 0xA9]]) (by decide +kernel) (by decide +kernel)
  exact ⟨h1.1.2 (by decide +kernel), h2.2 (fun h => absurd (h2.1.1 h) (by decide +kernel))⟩

end Dawg.Props
