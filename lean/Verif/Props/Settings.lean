import Verif.Props.Main
/-! # C72, also for options that are switched off again -/
namespace Dawg.Props
open Dawg Dawg.Spec Dawg.Client Dawg.Abs Dawg.Dict Dawg.Guided Dawg.Tool

variable (ratio : Nat → Nat → List UInt8) (sorter : LineSorter) (linkSorter : Sorter) (grow : Nat → Nat) (creatable : List UInt8 → Bool) (fuel : Nat)

/-- The spellings of the values of a boolean option. -/
def valuesOf : Bool → List (List UInt8)
  | true => [[], ascii "=1", ascii "=t", ascii "=T", ascii "=true", ascii "=TRUE", ascii "=True"]
  | false => [ascii "=0", ascii "=f", ascii "=F", ascii "=false", ascii "=FALSE", ascii "=False"]

/-- The argument `a` sets the option `c` to `v`. -/
def Sets (c : UInt8) (v : Bool) (a : List UInt8) : Prop :=
  ∃ dash, (dash = ascii "-" ∨ dash = ascii "--") ∧ ∃ value ∈ valuesOf v, a = dash ++ c :: value

/-- The arguments set the options. -/
inductive SetsAll : List (UInt8 × Bool) → List (List UInt8) → Prop
  | nil : SetsAll [] []
  | cons {c : UInt8} {v : Bool} {a : List UInt8} {cs : List (UInt8 × Bool)} {as : List (List UInt8)} (h : Sets c v a) (t : SetsAll cs as) : SetsAll ((c, v) :: cs) (a :: as)

/-- What an option is set to at last; `d` when it is not set at all. -/
def lastSet (d : Bool) (c : UInt8) (cs : List (UInt8 × Bool)) : Bool := ((cs.filter (fun x => x.1 = c)).getLast?.map (·.2)).getD d

theorem lastSet_cons (d : Bool) (c : UInt8) (x : UInt8 × Bool) (cs : List (UInt8 × Bool)) : lastSet d c (x :: cs) = lastSet (if x.1 = c then x.2 else d) c cs := by
  unfold lastSet
  rw [List.filter_cons]
  by_cases h : x.1 = c
  · simp only [h, decide_true, if_true]
    rw [List.getLast?_cons]
    cases (cs.filter (fun x => decide (x.1 = c))).getLast? <;> simp
  · simp [h]

/-- The flags after the options `cs`. -/
def withSettings (f : Flags) (cs : List (UInt8 × Bool)) : Flags :=
  { f with build := lastSet f.build 98 cs, opts := ⟨lastSet f.opts.tab 116 cs, lastSet f.opts.sort 115 cs, lastSet f.opts.utfc 117 cs,
      lastSet f.opts.guide 103 cs, lastSet f.opts.ranked 114 cs, lastSet f.opts.index 105 cs⟩ }

theorem withSettings_set {f : Flags} {c : UInt8} (hc : c ∈ letters) (v : Bool) : setBool f [c] v = some (withSettings f [(c, v)]) := by
  obtain ⟨b, ⟨o1, o2, o3, o4, o5, o6⟩, l, d⟩ := f
  have : c = 98 ∨ c = 116 ∨ c = 103 ∨ c = 114 ∨ c = 105 ∨ c = 115 ∨ c = 117 := by
    revert hc
    rw [show letters = [98, 116, 103, 114, 105, 115, 117] by decide]
    simp
  rcases this with rfl | rfl | rfl | rfl | rfl | rfl | rfl <;> simp [withSettings, setBool, ascii, lastSet]

theorem withSettings_cons (f : Flags) (x : UInt8 × Bool) (cs : List (UInt8 × Bool)) : withSettings (withSettings f [x]) cs = withSettings f (x :: cs) := by
  unfold withSettings
  simp only [lastSet_cons]
  simp [lastSet]

theorem parse_setting {f : Flags} {c : UInt8} {v : Bool} (hc : c ∈ letters) {a : List UInt8} (ha : Sets c v a) (rest : List (List UInt8)) :
    parseArgs f (a :: rest) = parseArgs (withSettings f [(c, v)]) rest := by
  have hset := fun v => withSettings_set (f := f) hc v
  have hc1 : c ≠ 45 ∧ c ≠ 61 := by
    have : ∀ c ∈ letters, c ≠ 45 ∧ c ≠ 61 := by decide
    exact this c hc
  obtain ⟨dash, hd, value, hv, rfl⟩ := ha
  have e1 : isPlain (dash ++ c :: value) = false := by
    rcases hd with rfl | rfl <;> simp [isPlain, ascii]
  have e2 : dash ++ c :: value ≠ ascii "--" := by
    rcases hd with rfl | rfl
    · intro h
      have := congrArg (fun l => l[1]?) h
      simp [ascii] at this
      exact hc1.1 this
    · intro h
      have := congrArg List.length h
      simp [ascii] at this
  have e3 : (if (dash ++ c :: value)[1]? = some 45 then (dash ++ c :: value).drop 2 else (dash ++ c :: value).drop 1) = c :: value := by
    rcases hd with rfl | rfl
    · simp [ascii, hc1.1]
    · simp [ascii]
  have e4 : ¬ ((c :: value).head? = some 45 ∨ (c :: value).head? = some 61) := by simp [hc1]
  rw [parseArgs.eq_def]
  simp only [e1, e2, e3, e4, Bool.false_eq_true, if_false]
  have e5 : cutEq (c :: value) = ([c], (cutEq value).2) ∧ (∀ x, (cutEq value).2 = some x → parseBool x = some v) ∧ ((cutEq value).2 = none → v = true) := by
    rw [cutEq, if_neg hc1.2]
    have key : ∀ v, ∀ value ∈ valuesOf v, (cutEq value).1 = [] ∧ (∀ x, (cutEq value).2 = some x → parseBool x = some v) ∧ ((cutEq value).2 = none → v = true) := by
      intro v value hv
      cases v
      · have : value = ascii "=0" ∨ value = ascii "=f" ∨ value = ascii "=F" ∨ value = ascii "=false" ∨ value = ascii "=FALSE" ∨ value = ascii "=False" := by
          simpa [valuesOf] using hv
        rcases this with rfl | rfl | rfl | rfl | rfl | rfl <;> exact ⟨by rfl, by decide, by decide⟩
      · have : value = [] ∨ value = ascii "=1" ∨ value = ascii "=t" ∨ value = ascii "=T" ∨ value = ascii "=true" ∨ value = ascii "=TRUE" ∨ value = ascii "=True" := by
          simpa [valuesOf] using hv
        rcases this with rfl | rfl | rfl | rfl | rfl | rfl | rfl <;> exact ⟨by rfl, by decide, by decide⟩
    obtain ⟨k1, k2⟩ := key v value hv
    exact ⟨by rw [k1], k2⟩
  rw [e5.1]
  simp only [hset]
  cases hcv : (cutEq value).2 with
  | none => rw [e5.2.2 hcv]
  | some v =>
    simp only [e5.2.1 v hcv, Option.getD_some]

theorem parse_settings : ∀ {cs : List (UInt8 × Bool)} {as : List (List UInt8)}, (∀ x ∈ cs, x.1 ∈ letters) → SetsAll cs as → ∀ (f : Flags) (rest : List (List UInt8)),
    parseArgs f (as ++ rest) = parseArgs (withSettings f cs) rest
  | [], _, _, h, f, rest => by
    cases h
    obtain ⟨b, ⟨o1, o2, o3, o4, o5, o6⟩, l, d⟩ := f
    simp [withSettings, lastSet]
  | (c, v) :: cs, _, hc, h, f, rest => by
    cases h with
    | cons h1 h2 =>
      rw [List.cons_append, parse_setting (hc _ List.mem_cons_self) h1, parse_settings (fun c hc' => hc c (List.mem_cons_of_mem _ hc')) h2, withSettings_cons]

/-- **C72**, with options that are switched off: only the last setting of each option counts, however it is spelled; an option that is not set is off. -/
theorem C72_settings {cs cs' : List (UInt8 × Bool)} {as as' : List (List UInt8)} (hc : ∀ x ∈ cs, x.1 ∈ letters) (hc' : ∀ x ∈ cs', x.1 ∈ letters) (hs : SetsAll cs as) (hs' : SetsAll cs' as')
    (hset : ∀ c ∈ letters, lastSet false c cs = lastSet false c cs') (rest : List (List UInt8)) (files : Files) :
    program ratio sorter linkSorter grow creatable fuel (as ++ rest) files = program ratio sorter linkSorter grow creatable fuel (as' ++ rest) files := by
  have h1 := parse_settings hc hs {} rest
  have h2 := parse_settings hc' hs' {} rest
  have h3 : withSettings {} cs = withSettings {} cs' := by
    unfold withSettings
    simp only
    rw [hset 98 (by decide), hset 116 (by decide), hset 115 (by decide), hset 117 (by decide), hset 103 (by decide), hset 114 (by decide), hset 105 (by decide)]
  unfold program
  rw [h1, h2, h3]

/-- **C72.** What the options mean: each option is what it is set to at last, before the first argument that is no flag. -/
theorem C72_meaning {cs : List (UInt8 × Bool)} {as : List (List UInt8)} (hc : ∀ x ∈ cs, x.1 ∈ letters) (hs : SetsAll cs as) {x : List UInt8} (hx : isPlain x = true) (rest : List (List UInt8)) :
    ∃ f, parseArgs {} (as ++ x :: rest) = .ok (f, x :: rest) ∧ f.build = lastSet false 98 cs ∧ f.opts.tab = lastSet false 116 cs ∧ f.opts.sort = lastSet false 115 cs ∧
      f.opts.utfc = lastSet false 117 cs ∧ f.opts.guide = lastSet false 103 cs ∧ f.opts.ranked = lastSet false 114 cs ∧ f.opts.index = lastSet false 105 cs ∧
      f.lexicon = ascii "-" ∧ f.dictionary = ascii "-" := by
  refine ⟨withSettings {} cs, ?_, rfl, rfl, rfl, rfl, rfl, rfl, rfl, rfl, rfl⟩
  rw [parse_settings hc hs, parse_plain _ hx]

/-- "-b -s --b=false -g" is "-s -g": a query. -/
example (files : Files) : program ratio sorter linkSorter grow creatable fuel [ascii "-b", ascii "-s", ascii "--b=false", ascii "-g", ascii "x", ascii "y"] files =
    program ratio sorter linkSorter grow creatable fuel [ascii "-g", ascii "-s=T", ascii "x", ascii "y"] files :=
  C72_settings ratio sorter linkSorter grow creatable fuel (cs := [(98, true), (115, true), (98, false), (103, true)]) (cs' := [(103, true), (115, true)])
    (as := [ascii "-b", ascii "-s", ascii "--b=false", ascii "-g"]) (as' := [ascii "-g", ascii "-s=T"]) (by decide) (by decide)
    (.cons ⟨_, .inl rfl, [], by decide, by rfl⟩ (.cons ⟨_, .inl rfl, [], by decide, by rfl⟩ (.cons ⟨_, .inr rfl, ascii "=false", by decide, by rfl⟩ (.cons ⟨_, .inl rfl, [], by decide, by rfl⟩ .nil))))
    (.cons ⟨_, .inl rfl, [], by decide, by rfl⟩ (.cons ⟨_, .inl rfl, ascii "=T", by decide, by rfl⟩ .nil))
    (by decide) [ascii "x", ascii "y"] files

example : lastSet false 98 [(98, true), (115, true), (98, false), (103, true)] = false ∧ isPlain (ascii "x") = true := by decide

end Dawg.Props
