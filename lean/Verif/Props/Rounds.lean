import Verif.Props.Depth
/-! # C105, C104: how many rounds `findMaxValue` makes while a ranked guide is built -/
namespace Dawg.Props
open Dawg Dawg.Spec Dawg.Client Dawg.Abs Dawg.Dict Dawg.Guided
attribute [-simp] List.length_flatten

/-- ranked_guide_builder.go:51-78 `buildIndices`, where every loop of `findMaxValue` may make at most `r` rounds; one more is the fault `hang`. -/
def rankedIndicesWithin (r : Nat) (sorter : Sorter) (dawg : Dawg) (dict : Dictionary) (valuesCmp : Int → Int → Bool) :
    Nat → RankedBuilder → Nat → Nat → Go (RankedBuilder × Option Int)
  | 0, _, _, _ => .error .hang
  | fuel + 1, rb, dawgIndex, dictIndex => do
    if ← GuideBuilder.isFixed rb.isFixedTable dictIndex then
      return (rb, ← RankedBuilder.findMaxValue dict rb.units r dictIndex)
    let t ← GuideBuilder.setIsFixed rb.isFixedTable dictIndex
    let rb := { rb with isFixedTable := t }
    let kids ← DictBuilder.dawgKids dawg dawgIndex
    let (rb, links) ← RankedBuilder.enumerateLinks dawg dict
      (fun rb i x => rankedIndicesWithin r sorter dawg dict valuesCmp fuel rb i x) dictIndex kids rb
    match links with
    | none => return (rb, none)
    | some links =>
      let links := sorter (linkCmp valuesCmp) links
      let us ← RankedBuilder.turnLinksToUnits dict dictIndex links rb.units
      let rb := { rb with units := us }
      let first ← rd links 0
      return (rb, some first.value)

/-- ranked_guide_builder.go:32-48 `Build` with at most `k` nested calls of `buildIndices` and at most `r` rounds in every loop of `findMaxValue`. -/
def buildRankedRounds (k r : Nat) (sorter : Sorter) (dawg : Dawg) (dict : Dictionary) (valuesCmp : Int → Int → Bool) : Go (Option Guide) := do
  let rb : RankedBuilder := { units := List.replicate dict.size ⟨0, 0⟩, isFixedTable := List.replicate (dict.size / 8) 0 }
  if dawg.size ≤ 1 then return some Guide.new
  let (rb, ok) ← rankedIndicesWithin r sorter dawg dict valuesCmp k rb dawg.root dict.root
  return if ok.isSome then some { units := rb.units } else none

section
variable {D : Dictionary} {At : Nat → Lang → Prop} {kid : Nat → UInt8 → Nat} {clean : UInt8 → Prop} {d : Dawg} {DAt : Nat → Lang → Prop}
  {sorter : Sorter} {cmp : Int → Int → Bool}

/-- Nothing is done at first. -/
theorem fresh_unfixed (n u : Nat) : ¬ Fixed (List.replicate n 0) u := by
  intro hf
  unfold Fixed GuideBuilder.isFixed rd at hf
  rw [List.getElem?_replicate] at hf
  by_cases hi : u / 8 < n
  · rw [if_pos hi] at hf
    simp [ok_bind, pure_eq_ok] at hf
  · rw [if_neg hi] at hf
    cases hf

/-- A call for a unit that is not done yet. -/
theorem rounds_step (hp : ∀ less l, (sorter less l).Perm l) (V : View D At kid clean) (W : DView d DAt) {r fuel : Nat}
    (IH : RCall D At kid DAt sorter cmp (rankedIndicesWithin r sorter d D cmp fuel) fuel) {us t S u L i} (w : Walk D At kid (rord D sorter cmp) us t S) (h : At u L)
    (hi : DAt i L) (hS : ∀ x ∈ S, Above At L x) (hfu : ∀ e ∈ L, e.1.length < fuel + 1) (hf : ¬ Fixed t u) :
    ∃ us' t', rankedIndicesWithin r sorter d D cmp (fuel + 1) ⟨us, t⟩ i u = .ok (⟨us', t'⟩, some (rbest D sorter cmp L)) ∧
      Walk D At kid (rord D sorter cmp) us' t' S ∧ Writes At kid (rord D sorter cmp) us us' ∧
      (∀ i, i < D.size → Fixed t i → Fixed t' i) ∧ Fixed t' u := by
  have huS : u ∉ S := fun hu => (hS u hu).ne V h rfl
  have hdiv := w.div_lt V (V.lt h)
  obtain ⟨t1, e1, w1, m1, f1⟩ := w.enter V h hf
  obtain ⟨ks, k1, k2, k3⟩ := W.kids hi
  have hks : ks ≠ [] := by
    rintro rfl
    have := arcs_ne V h
    generalize arcs L = A at k2 this
    cases k2
    exact this rfl
  have hkids : DictBuilder.dawgKids d i = .ok ks := by
    unfold DictBuilder.dawgKids
    rw [k1]
    simp only [ok_bind]
    have hne : ks.headD 0 ≠ 0 := by
      generalize arcs L = A at k2
      cases k2 with
      | nil => exact absurd rfl hks
      | cons hk0 _ _ _ _ => exact hk0
    rw [if_neg hne]
    exact k2.chain hks (by omega)
  obtain ⟨us2, t2, a1, a2, a3, a4, a5⟩ := enumerateLinks_spec V IH h hS hfu k2 (fun _ h => h) w1
  obtain ⟨us3, b1, b2, b3⟩ := turnLinks_spec hp V h a2
  refine ⟨us3, t2, ?_, ?_, a3.trans b2, fun i hi hf => a4 i hi (m1 i hf hi), a4 u (V.lt h) f1⟩
  · rw [rankedIndicesWithin]
    simp only [not_fixed hdiv hf, ok_bind, Bool.false_eq_true, if_false, e1, hkids, a1, ← rlinks_eq V h, b1]
    obtain ⟨l, ls, _, c2, _, ks', c3⟩ := rlinks_cons (cmp := cmp) hp V h
    rw [c2, c3]
    rfl
  · refine (a2.write V (ordOk_rord hp V) b2).leave V h huS b3 (fun l hl => ⟨a5 l (heads_arcs hl) (V.heads_ne_zero h hl), fun hc => ?_⟩)
    exact (hS _ hc).down.ne V (V.step h hl) rfl

/-- With `r` rounds for words shorter than `r`, and as many nested calls. -/
theorem rounds_call (hp : ∀ less l, (sorter less l).Perm l) (V : View D At kid clean) (W : DView d DAt) {r : Nat} : ∀ fuel, fuel ≤ r →
    RCall D At kid DAt sorter cmp (rankedIndicesWithin r sorter d D cmp fuel) fuel := by
  intro fuel
  induction fuel with
  | zero =>
    intro _ us t S u L i _ h _ _ hfu
    obtain ⟨e, he⟩ := List.exists_mem_of_ne_nil _ (V.ne h)
    exact absurd (hfu e he) (by omega)
  | succ fuel IH =>
    intro hr us t S u L i w h hi hS hfu
    have huS : u ∉ S := fun hu => (hS u hu).ne V h rfl
    by_cases hf : Fixed t u
    · refine ⟨us, t, ?_, w, Writes.refl _, fun _ _ h => h, hf⟩
      have := findMaxValue_spec hp V w r h hf huS (fun e he => by have := hfu e he; omega)
      unfold Fixed at hf
      rw [rankedIndicesWithin]
      simp only [hf, ok_bind, if_true, this, pure_eq_ok]
    · exact rounds_step hp V W (IH (by omega)) w h hi hS hfu hf

theorem rounds_findMax {us : List GuideUnit} : ∀ {r m : Nat} {u : Nat} {x}, r ≤ m → RankedBuilder.findMaxValue D us r u = .ok x → RankedBuilder.findMaxValue D us m u = .ok x
  | 0, _, _, _, _, e => by cases e
  | r + 1, m, u, x, hr, e => by
    obtain ⟨m, rfl⟩ : ∃ n, m = n + 1 := ⟨m - 1, by omega⟩
    rw [RankedBuilder.findMaxValue, bind_eq_ok] at e
    obtain ⟨g, e1, e⟩ := e
    rw [RankedBuilder.findMaxValue, e1, ok_bind]
    by_cases hg : g.child ≠ 0
    · rw [if_pos hg, bind_eq_ok] at e
      obtain ⟨y, e2, e⟩ := e
      rw [if_pos hg, e2, ok_bind]
      cases y with
      | none => exact e
      | some y => exact rounds_findMax (by omega) e
    · rw [if_neg hg] at e ⊢
      exact e

/-- A result that is reached does not depend on the limits. -/
theorem rounds_mono {r s : Nat} (hr : r ≤ s) : ∀ {k m : Nat} {rb : RankedBuilder} {i u : Nat} {x}, k ≤ m →
    rankedIndicesWithin r sorter d D cmp k rb i u = .ok x → rankedIndicesWithin s sorter d D cmp m rb i u = .ok x
  | 0, _, _, _, _, _, _, e => by cases e
  | k + 1, m, rb, i, u, x, hk, e => by
    obtain ⟨m, rfl⟩ : ∃ n, m = n + 1 := ⟨m - 1, by omega⟩
    rw [rankedIndicesWithin, bind_eq_ok] at e
    obtain ⟨b, e1, e⟩ := e
    rw [rankedIndicesWithin, e1, ok_bind]
    by_cases hb : b = true
    · rw [if_pos hb, bind_eq_ok] at e
      obtain ⟨y, e2, e⟩ := e
      rw [if_pos hb, rounds_findMax hr e2, ok_bind]
      exact e
    rw [if_neg hb] at e ⊢
    simp only [bind_eq_ok] at e ⊢
    obtain ⟨t, e2, kids, e3, ⟨rb1, links⟩, e4, e⟩ := e
    exact ⟨t, e2, kids, e3, ⟨rb1, links⟩, links_mono (fun a b c x h => rounds_mono hr (by omega) h) e4, e⟩

/-- The limit of the model itself. -/
theorem rounds_model : ∀ k : Nat, rankedIndicesWithin (D.size + 1) sorter d D cmp k = RankedBuilder.buildIndices sorter d D cmp k
  | 0 => rfl
  | k + 1 => by
    funext rb i u
    rw [rankedIndicesWithin, RankedBuilder.buildIndices, rounds_model k]
    rfl
end

/-- **C105**, the rounds of `findMaxValue`: while a ranked guide is built, no loop of `findMaxValue` makes more rounds than the longest key has bytes — with every
comparator and every sorting routine that permutes.  (A round more than `r`, or a nested call more than `k`, would make the left side the fault `hang`.) -/
theorem C105_rounds {hist d D} {sorter : Sorter} {cmp : Int → Int → Bool} (h : Made hist d D) (hp : ∀ less l, (sorter less l).Perm l) {k r : Nat}
    (hk : ∀ e ∈ accepted hist, e.1.length < k) (hr : ∀ e ∈ accepted hist, e.1.length ≤ r) :
    buildRankedRounds k r sorter d D cmp = buildRankedGuideCmp sorter d D cmp := by
  unfold buildRankedRounds buildRankedGuideCmp RankedBuilder.build
  simp only
  by_cases hsz : d.size ≤ 1
  · rw [if_pos hsz, if_pos hsz]
  rw [if_neg hsz, if_neg hsz]
  have hne : accepted hist ≠ [] := fun he => hsz (by rw [Made.empty_size h he]; omega)
  obtain ⟨At, kid, DAt, V, h0, W, hd0⟩ := Made.view h hne
  have hdep := W.depth hd0
  have hdep' := V.depth h0
  have hk' := words_short hk
  have hr' := words_short (k := r + 1) (fun e he => by have := hr e he; omega)
  obtain ⟨e0, he0⟩ := List.exists_mem_of_ne_nil _ hne
  have hk0 := hk e0 he0
  have w := Walk.start (ord := rord D sorter cmp) V
  obtain ⟨us, t, e, _⟩ := rounds_step (r := min (min (k - 1) r) (min d.size D.size)) hp V W (rounds_call hp V W _ (Nat.le_refl _)) w h0 hd0 (by simp)
    (fun e he => by have := hdep e he; have := hdep' e he; have := hk' e he; have := hr' e he; omega) (fresh_unfixed _ _)
  have e1 := rounds_mono (s := r) (m := k) (by omega) (by omega) e
  have e2 := rounds_mono (s := D.size + 1) (m := d.size + 1) (by omega) (by omega) e
  rw [rounds_model] at e2
  rw [show d.root = 0 from rfl, show D.root = 0 from rfl, e1, e2]

/-- The keys "ax" and "bx" with equal values share a state, whose best value `findMaxValue` looks up again; two rounds are enough. -/
example : ∃ d D g, Made [([97, 120], 1), ([98, 120], 1)] d D ∧ buildRankedGuideCmp (fun _ l => l) d D (fun a b => decide (b < a)) = .ok (some g) ∧
    buildRankedRounds 3 2 (fun _ l => l) d D (fun a b => decide (b < a)) = .ok (some g) := by
  obtain ⟨d, D, h, _⟩ := C14_small_builds 1 (by omega) (by omega) [([97, 120], 1), ([98, 120], 1)] (by decide) (by decide)
  obtain ⟨g, h1, _⟩ := C27_ranked_guide h (sorter := fun _ l => l) (fun _ _ => List.Perm.refl _) (fun a b => decide (b < a))
  exact ⟨d, D, g, h, h1, by rw [C105_rounds h (fun _ _ => List.Perm.refl _) (by decide) (by decide), h1]⟩

end Dawg.Props
