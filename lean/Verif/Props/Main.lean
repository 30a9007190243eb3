import Verif.Model.Main
import Verif.Props.Output
/-! # C70–C74: the command line and the files of dawgtool -/
namespace Dawg.Props
open Dawg Dawg.Spec Dawg.Client Dawg.Abs Dawg.Dict Dawg.Guided Dawg.Tool
attribute [-simp] List.length_flatten

/-! ## C70: which files change -/

theorem cutEq_eq : ∀ s : List UInt8, s = (cutEq s).1 ++ (match (cutEq s).2 with | none => [] | some v => 61 :: v)
  | [] => rfl
  | c :: cs => by
    unfold cutEq
    split
    · next h => subst h; rfl
    · have := cutEq_eq cs
      simp only [List.cons_append, List.cons.injEq, true_and]
      exact this

theorem setBool_spec {f f' : Flags} {name : List UInt8} {v : Bool} (h : setBool f name v = some f') :
    f'.lexicon = f.lexicon ∧ f'.dictionary = f.dictionary ∧ (f'.build = f.build ∨ name = ascii "b") := by
  unfold setBool at h
  repeat' split at h
  all_goals first | cases h; simp_all | cases h

theorem setString_spec {f f' : Flags} {name v : List UInt8} (h : setString f name v = some f') :
    f'.build = f.build ∧ f'.opts = f.opts ∧ (f'.dictionary = f.dictionary ∨ name = ascii "d" ∧ f'.dictionary = v) := by
  unfold setString at h
  repeat' split at h
  all_goals first | cases h; simp_all | cases h

/-- An argument that begins with the flag `c`. -/
def FlagArg (c : String) (a : List UInt8) : Prop := ascii "-" ++ ascii c <+: a ∨ ascii "--" ++ ascii c <+: a

instance (c : String) (a : List UInt8) : Decidable (FlagArg c a) := inferInstanceAs (Decidable (_ ∨ _))

/-- An argument that gives a value to the flag `c`. -/
def FlagValue (c : String) (v a : List UInt8) : Prop := a = ascii "-" ++ ascii c ++ ascii "=" ++ v ∨ a = ascii "--" ++ ascii c ++ ascii "=" ++ v

theorem dashes {s : List UInt8} (h : isPlain s = false) : s = ascii "-" ++ (if s[1]? = some 45 then s.drop 2 else s.drop 1) ∨ s = ascii "--" ++ (if s[1]? = some 45 then s.drop 2 else s.drop 1) := by
  unfold isPlain at h
  match s, h with
  | [], h => simp at h
  | [a], h => simp at h
  | a :: b :: s, h =>
    simp at h
    subst h
    simp only [List.getElem?_cons_succ, List.getElem?_cons_zero, Option.some.injEq, List.drop_succ_cons, List.drop_zero]
    split
    · next hb => subst hb; exact .inr rfl
    · exact .inl rfl

/-- What an argument with a flag looks like. -/
theorem flag_spelled {s : List UInt8} (h : ¬ isPlain s = true) : ∃ dash, (dash = ascii "-" ∨ dash = ascii "--") ∧
    s = dash ++ ((cutEq (if s[1]? = some 45 then s.drop 2 else s.drop 1)).1 ++
      (match (cutEq (if s[1]? = some 45 then s.drop 2 else s.drop 1)).2 with | none => [] | some v => 61 :: v)) := by
  rcases dashes (by simpa using h) with h1 | h1
  · exact ⟨_, .inl rfl, h1.trans (congrArg (ascii "-" ++ ·) (cutEq_eq _))⟩
  · exact ⟨_, .inr rfl, h1.trans (congrArg (ascii "--" ++ ·) (cutEq_eq _))⟩

/-- What the arguments `args` make of the flags. -/
def Origin (args : List (List UInt8)) (f f' : Flags) : Prop :=
  (f'.dictionary = f.dictionary ∨ f'.dictionary ∈ args ∨ ∃ a ∈ args, FlagValue "d" f'.dictionary a) ∧ (f'.build = f.build ∨ ∃ a ∈ args, FlagArg "b" a)

theorem Origin.trans {args args' : List (List UInt8)} {f f' f'' : Flags} (h : Origin args f f') (h' : Origin args' f' f'') : Origin (args ++ args') f f'' := by
  obtain ⟨h1, h2⟩ := h
  obtain ⟨h3, h4⟩ := h'
  constructor
  · rcases h3 with h3 | h3 | ⟨a, h3, h3'⟩
    · rw [h3]
      rcases h1 with h1 | h1 | ⟨a, h1, h1'⟩
      · exact .inl h1
      · exact .inr (.inl (List.mem_append_left _ h1))
      · exact .inr (.inr ⟨a, List.mem_append_left _ h1, h1'⟩)
    · exact .inr (.inl (List.mem_append_right _ h3))
    · exact .inr (.inr ⟨a, List.mem_append_right _ h3, h3'⟩)
  · rcases h4 with h4 | ⟨a, h4, h4'⟩
    · rw [h4]
      rcases h2 with h2 | ⟨a, h2, h2'⟩
      · exact .inl h2
      · exact .inr ⟨a, List.mem_append_left _ h2, h2'⟩
    · exact .inr ⟨a, List.mem_append_right _ h4, h4'⟩

theorem setBool_origin {f f' : Flags} {s : List UInt8} (hs : ¬ isPlain s = true) {v : Bool} (h : setBool f (cutEq (if s[1]? = some 45 then s.drop 2 else s.drop 1)).1 v = some f') :
    Origin [s] f f' := by
  obtain ⟨_, h1, h2⟩ := setBool_spec h
  refine ⟨.inl h1, ?_⟩
  rcases h2 with h2 | h2
  · exact .inl h2
  · refine .inr ⟨s, by simp, ?_⟩
    obtain ⟨dash, hd, e⟩ := flag_spelled hs
    rw [h2] at e
    unfold FlagArg
    rw [e]
    rcases hd with rfl | rfl
    · exact .inl (by rw [← List.append_assoc]; exact List.prefix_append _ _)
    · exact .inr (by rw [← List.append_assoc]; exact List.prefix_append _ _)

theorem setBool_all {f : Flags} {name : List UInt8} {v w : Bool} {f' : Flags} (h : setBool f name v = some f') : ∃ f'', setBool f name w = some f'' := by
  unfold setBool at h ⊢
  repeat' split at h
  all_goals first | exact ⟨_, by simp_all; rfl⟩ | cases h

/-- Where the results of `flag.Parse` come from. -/
theorem parseArgs_origin {f f' : Flags} {args rest : List (List UInt8)} (h : parseArgs f args = .ok (f', rest)) : rest <:+ args ∧ Origin args f f' := by
  fun_induction parseArgs f args
  case case1 => cases h; exact ⟨List.suffix_refl _, .inl rfl, .inl rfl⟩
  case case2 => cases h; exact ⟨List.suffix_refl _, .inl rfl, .inl rfl⟩
  case case3 => cases h; exact ⟨List.suffix_cons _ _, .inl rfl, .inl rfl⟩
  case case5 h1 _ _ _ _ _ h2 _ ih =>
    obtain ⟨i1, i2⟩ := ih h
    exact ⟨i1.trans (List.suffix_cons _ _), (setBool_origin h1 h2).trans i2⟩
  case case7 h1 _ _ _ _ _ h2 _ _ v _ ih =>
    obtain ⟨i1, i2⟩ := ih h
    obtain ⟨f1, h3⟩ := setBool_all (w := v) h2
    rw [h3] at i2
    exact ⟨i1.trans (List.suffix_cons _ _), (setBool_origin h1 h3).trans i2⟩
  case case8 s h1 _ _ _ _ _ v _ h2 _ h3 ih =>
    obtain ⟨i1, i2⟩ := ih h
    refine ⟨i1.trans (List.suffix_cons _ _), Origin.trans (args := [s]) ?_ i2⟩
    obtain ⟨k1, _, k2⟩ := setString_spec h3
    refine ⟨?_, .inl k1⟩
    rcases k2 with k2 | ⟨k2, k3⟩
    · exact .inl k2
    · refine .inr (.inr ⟨s, by simp, ?_⟩)
      obtain ⟨dash, hd, e⟩ := flag_spelled h1
      change (cutEq (if s[1]? = some 45 then s.drop 2 else s.drop 1)).1 = _ at k2
      change (cutEq (if s[1]? = some 45 then s.drop 2 else s.drop 1)).2 = _ at h2
      rw [k2, h2] at e
      unfold FlagValue
      rw [e, k3]
      rcases hd with rfl | rfl
      · exact .inl (by simp only [List.append_assoc]; rfl)
      · exact .inr (by simp only [List.append_assoc]; rfl)
  case case11 s h1 _ _ _ _ _ v _ h2 _ h3 ih =>
    obtain ⟨i1, i2⟩ := ih h
    refine ⟨(i1.trans (List.suffix_cons _ _)).trans (List.suffix_cons _ _), Origin.trans (args := [s, v]) ?_ i2⟩
    obtain ⟨k1, _, k2⟩ := setString_spec h3
    refine ⟨?_, .inl k1⟩
    rcases k2 with k2 | ⟨k2, k3⟩
    · exact .inl k2
    · exact .inr (.inl (by simp [k3]))
  all_goals cases h

variable (ratio : Nat → Nat → List UInt8) (sorter : LineSorter) (linkSorter : Sorter) (grow : Nat → Nat) (creatable : List UInt8 → Bool) (fuel : Nat)

theorem program_files (args : List (List UInt8)) (files : Files) (n : List UInt8) (h : (program ratio sorter linkSorter grow creatable fuel args files).files n ≠ files n) :
    ∃ f rest, parseArgs {} args = .ok (f, rest) ∧ f.build = true ∧ n = dictionaryName f rest := by
  revert h
  unfold program
  cases hp : parseArgs {} args with
  | error u => exact fun h => absurd rfl h
  | ok r =>
    obtain ⟨f, rest⟩ := r
    simp only
    cases files (lexiconName f rest) with
    | none => exact fun h => absurd rfl h
    | some lexicon =>
      simp only
      split
      · next hb =>
        split
        · intro h
          refine ⟨f, rest, rfl, hb, ?_⟩
          refine Classical.byContradiction fun hn => h ?_
          exact if_neg hn
        · exact fun h => absurd rfl h
      · cases files (dictionaryName f rest) with
        | none => exact fun h => absurd rfl h
        | some d => exact fun h => absurd rfl h

/-- **C70.** Whatever the arguments: a run changes at most one file.  Its name is one of the arguments, the value of `-d`, or "-", and `-b` is among the arguments. -/
theorem C70_only_dictionary (args : List (List UInt8)) (files : Files) (n : List UInt8) (h : (program ratio sorter linkSorter grow creatable fuel args files).files n ≠ files n) :
    (n ∈ args ∨ n = ascii "-" ∨ ∃ a ∈ args, FlagValue "d" n a) ∧ (∃ a ∈ args, FlagArg "b" a) ∧
    ∀ n', (program ratio sorter linkSorter grow creatable fuel args files).files n' ≠ files n' → n' = n := by
  obtain ⟨f, rest, h1, h2, h3⟩ := program_files ratio sorter linkSorter grow creatable fuel args files n h
  obtain ⟨i1, i2, i3⟩ := parseArgs_origin h1
  refine ⟨?_, ?_, ?_⟩
  · subst h3
    unfold dictionaryName
    split
    · next hd =>
      cases hr : rest[1]? with
      | none => exact .inr (.inl hd)
      | some a => exact .inl (i1.subset (List.mem_of_getElem? hr))
    · next hd =>
      rcases i2 with i2 | i2 | i2
      · exact absurd i2 hd
      · exact .inl i2
      · exact .inr (.inr i2)
  · rcases i3 with i3 | i3
    · rw [h2] at i3; cases i3
    · exact i3
  · intro n' h'
    obtain ⟨f', rest', k1, k2, k3⟩ := program_files ratio sorter linkSorter grow creatable fuel args files n' h'
    rw [h1] at k1
    cases k1
    rw [h3, k3]

/-- `dawgtool -s words dict` changes no file (whatever they contain). -/
example (files : Files) : (program ratio sorter linkSorter grow creatable fuel [ascii "-s", ascii "words", ascii "dict"] files).files = files := by
  funext n
  refine Classical.byContradiction fun h => ?_
  obtain ⟨_, ⟨a, h1, h2⟩, _⟩ := C70_only_dictionary ratio sorter linkSorter grow creatable fuel _ files n h
  simp only [List.mem_cons, List.not_mem_nil, or_false] at h1
  rcases h1 with rfl | rfl | rfl <;> exact absurd h2 (by decide)

/-! ## C71: the lexicon is kept -/

/-- The full claim C71: a build does not change its lexicon. -/
def C71_statement : Prop := ∀ (ratio : Nat → Nat → List UInt8) (sorter : LineSorter) (linkSorter : Sorter) (grow : Nat → Nat) (creatable : List UInt8 → Bool) (fuel : Nat),
  StableSort sorter → StableSort linkSorter → ∀ (x y : List UInt8) (files : Files), isPlain x = true →
    (program ratio sorter linkSorter grow creatable fuel [ascii "-b", x, y] files).files x = files x

theorem parse_build (x y : List UInt8) (hx : isPlain x = true) : parseArgs {} [ascii "-b", x, y] = .ok ({ build := true }, [x, y]) := by
  rw [parseArgs]
  simp only [show isPlain (ascii "-b") = false by decide, show ascii "-b" ≠ ascii "--" by decide, show (ascii "-b")[1]? = some 98 by decide, Bool.false_eq_true, if_false,
    show ¬ ((some 98 : Option UInt8) = some 45) by decide, show (ascii "-b").drop 1 = [98] by decide, show ¬ (([98] : List UInt8).head? = some 45 ∨ ([98] : List UInt8).head? = some 61) by decide,
    show cutEq [98] = ([98], none) by decide, show setBool {} [98] true = some { build := true } by rfl]
  rw [parseArgs, if_pos hx]

/-- **C71 is false**: `dawgtool -b words words` replaces the lexicon by the dictionary of no keys. -/
theorem C71_lexicon_lost_false : ¬ C71_statement := by
  intro hs
  have h := fun c : List UInt8 => hs (fun _ _ => []) (fun less l => l.mergeSort (fun a b => !less b a)) insertionSort (fun n => n) (fun _ => true) 0 (exists_stableSort _)
    insertionSort_stableSort (ascii "words") (ascii "words") (fun _ => some c) (by decide)
  have e : ∀ c : List UInt8, (program (fun _ _ => []) (fun less l => l.mergeSort (fun a b => !less b a)) insertionSort (fun n => n) (fun _ => true) 0 [ascii "-b", ascii "words", ascii "words"]
      (fun _ => some c)).files (ascii "words") =
      some (buildRun (fun _ _ => []) (fun less l => l.mergeSort (fun a b => !less b a)) insertionSort (fun n => n) {} []).file := by
    intro c
    unfold program
    rw [parse_build _ _ (by decide)]
    rfl
  have h1 := h []
  have h2 := h [10]
  rw [e] at h1 h2
  rw [h1] at h2
  cases h2

/-- **C71**, when the two names differ, for all arguments: only then a file other than the dictionary is kept.  (When they are equal, the lexicon counts as empty, and its
file contains afterwards what a build without keys writes.) -/
theorem C71_lexicon_partial (args : List (List UInt8)) (files : Files) {f : Flags} {rest : List (List UInt8)} (h : parseArgs {} args = .ok (f, rest)) :
    (lexiconName f rest ≠ dictionaryName f rest → (program ratio sorter linkSorter grow creatable fuel args files).files (lexiconName f rest) = files (lexiconName f rest)) ∧
    (lexiconName f rest = dictionaryName f rest → f.build = true → creatable (dictionaryName f rest) = true → files (lexiconName f rest) ≠ none →
      (program ratio sorter linkSorter grow creatable fuel args files).files (lexiconName f rest) = some (buildRun ratio sorter linkSorter grow f.opts []).file) := by
  constructor
  · intro hn
    refine Classical.byContradiction fun hc => ?_
    obtain ⟨f', rest', h1, _, h2⟩ := program_files ratio sorter linkSorter grow creatable fuel args files _ hc
    rw [h] at h1
    cases h1
    exact hn h2
  · intro hn hb hc hf
    obtain ⟨c, hc'⟩ := Option.ne_none_iff_exists'.1 hf
    unfold program
    rw [h]
    simp only
    rw [hc']
    simp only [hb, hc, hn, if_true, Files.set]

/-- `dawgtool -b words dict` keeps "words". -/
example (files : Files) : (program ratio sorter linkSorter grow creatable fuel [ascii "-b", ascii "words", ascii "dict"] files).files (ascii "words") = files (ascii "words") :=
  (C71_lexicon_partial ratio sorter linkSorter grow creatable fuel _ files (parse_build _ _ (by decide))).1 (by decide)

/-! ## C72: the order of the options -/

/-- The spellings of a boolean option. -/
def Spelled (c : UInt8) (a : List UInt8) : Prop :=
  ∃ dash, (dash = ascii "-" ∨ dash = ascii "--") ∧ ∃ value, (value = [] ∨ value = ascii "=1" ∨ value = ascii "=t" ∨ value = ascii "=T" ∨ value = ascii "=true" ∨ value = ascii "=TRUE" ∨ value = ascii "=True") ∧
    a = dash ++ c :: value

/-- The arguments spell the options. -/
inductive Spell : List UInt8 → List (List UInt8) → Prop
  | nil : Spell [] []
  | cons {c : UInt8} {a : List UInt8} {cs : List UInt8} {as : List (List UInt8)} (h : Spelled c a) (t : Spell cs as) : Spell (c :: cs) (a :: as)

/-- The boolean options. -/
def letters : List UInt8 := ascii "btgrisu"

/-- The flags after the options `cs`. -/
def withOptions (f : Flags) (cs : List UInt8) : Flags :=
  { f with build := f.build || decide (98 ∈ cs), opts := ⟨f.opts.tab || decide (116 ∈ cs), f.opts.sort || decide (115 ∈ cs), f.opts.utfc || decide (117 ∈ cs),
      f.opts.guide || decide (103 ∈ cs), f.opts.ranked || decide (114 ∈ cs), f.opts.index || decide (105 ∈ cs)⟩ }

theorem withOptions_nil (f : Flags) : withOptions f [] = f := by
  obtain ⟨b, ⟨o1, o2, o3, o4, o5, o6⟩, l, d⟩ := f
  simp [withOptions]

theorem withOptions_set {f : Flags} {c : UInt8} (hc : c ∈ letters) : setBool f [c] true = some (withOptions f [c]) := by
  obtain ⟨b, ⟨o1, o2, o3, o4, o5, o6⟩, l, d⟩ := f
  have : c = 98 ∨ c = 116 ∨ c = 103 ∨ c = 114 ∨ c = 105 ∨ c = 115 ∨ c = 117 := by
    revert hc
    rw [show letters = [98, 116, 103, 114, 105, 115, 117] by decide]
    simp
  rcases this with rfl | rfl | rfl | rfl | rfl | rfl | rfl <;> simp [withOptions, setBool, ascii]

theorem withOptions_cons (f : Flags) (c : UInt8) (cs : List UInt8) : withOptions (withOptions f [c]) cs = withOptions f (c :: cs) := by
  obtain ⟨b, ⟨o1, o2, o3, o4, o5, o6⟩, l, d⟩ := f
  simp [withOptions, Bool.or_assoc, List.mem_cons]

theorem parse_option {f : Flags} {c : UInt8} (hc : c ∈ letters) {a : List UInt8} (ha : Spelled c a) (rest : List (List UInt8)) :
    parseArgs f (a :: rest) = parseArgs (withOptions f [c]) rest := by
  have hset := withOptions_set (f := f) hc
  have hc1 : c ≠ 45 ∧ c ≠ 61 := by
    have : ∀ c ∈ letters, c ≠ 45 ∧ c ≠ 61 := by decide
    exact this c hc
  obtain ⟨dash, hd, value, hv, rfl⟩ := ha
  have e1 : isPlain (dash ++ c :: value) = false := by
    rcases hd with rfl | rfl <;> simp [isPlain, ascii]
  have e2 : dash ++ c :: value ≠ ascii "--" := by
    rcases hd with rfl | rfl
    · intro h
      have := congrArg (fun l => l[1]?) h
      simp [ascii] at this
      exact hc1.1 this
    · intro h
      have := congrArg List.length h
      simp [ascii] at this
  have e3 : (if (dash ++ c :: value)[1]? = some 45 then (dash ++ c :: value).drop 2 else (dash ++ c :: value).drop 1) = c :: value := by
    rcases hd with rfl | rfl
    · simp [ascii, hc1.1]
    · simp [ascii]
  have e4 : ¬ ((c :: value).head? = some 45 ∨ (c :: value).head? = some 61) := by simp [hc1]
  rw [parseArgs.eq_def]
  simp only [e1, e2, e3, e4, Bool.false_eq_true, if_false]
  have e5 : cutEq (c :: value) = ([c], (cutEq value).2) ∧ (∀ v, (cutEq value).2 = some v → parseBool v = some true) := by
    rw [cutEq, if_neg hc1.2]
    rcases hv with rfl | rfl | rfl | rfl | rfl | rfl | rfl <;> exact ⟨by rfl, by decide⟩
  rw [e5.1]
  simp only [hset]
  cases hcv : (cutEq value).2 with
  | none => rfl
  | some v =>
    simp only [e5.2 v hcv, hset, Option.getD_some]

theorem parse_options : ∀ {cs : List UInt8} {as : List (List UInt8)}, (∀ c ∈ cs, c ∈ letters) → Spell cs as → ∀ (f : Flags) (rest : List (List UInt8)),
    parseArgs f (as ++ rest) = parseArgs (withOptions f cs) rest
  | [], _, _, h, f, rest => by
    cases h
    rw [withOptions_nil]
    rfl
  | c :: cs, _, hc, h, f, rest => by
    cases h with
    | cons h1 h2 =>
      rw [List.cons_append, parse_option (hc c List.mem_cons_self) h1, parse_options (fun c hc' => hc c (List.mem_cons_of_mem _ hc')) h2, withOptions_cons]

/-- **C72.** The boolean options before the other arguments can be given in any order, repeated, and spelled with one or two dashes, with or without "=true" (and the like): only
the set of the options counts. -/
theorem C72_options {cs cs' : List UInt8} {as as' : List (List UInt8)} (hc : ∀ c ∈ cs, c ∈ letters) (hs : Spell cs as) (hs' : Spell cs' as')
    (hset : ∀ c, c ∈ cs ↔ c ∈ cs') (rest : List (List UInt8)) (files : Files) :
    program ratio sorter linkSorter grow creatable fuel (as ++ rest) files = program ratio sorter linkSorter grow creatable fuel (as' ++ rest) files := by
  have h1 := parse_options hc hs {} rest
  have h2 := parse_options (fun c h => hc c ((hset c).2 h)) hs' {} rest
  have h3 : withOptions {} cs = withOptions {} cs' := by
    unfold withOptions
    simp only [hset]
  unfold program
  rw [h1, h2, h3]

/-- "-b -s" and "--s=true -b -s". -/
example (files : Files) : program ratio sorter linkSorter grow creatable fuel [ascii "-b", ascii "-s", ascii "x", ascii "y"] files =
    program ratio sorter linkSorter grow creatable fuel [ascii "--s=true", ascii "-b", ascii "-s", ascii "x", ascii "y"] files :=
  C72_options ratio sorter linkSorter grow creatable fuel (cs := ascii "bs") (cs' := ascii "sbs") (as := [ascii "-b", ascii "-s"]) (as' := [ascii "--s=true", ascii "-b", ascii "-s"]) (by decide)
    (.cons ⟨_, .inl rfl, _, .inl rfl, by rfl⟩ (.cons ⟨_, .inl rfl, _, .inl rfl, by rfl⟩ .nil))
    (.cons ⟨_, .inr rfl, _, .inr (.inr (.inr (.inr (.inl rfl)))), by rfl⟩ (.cons ⟨_, .inl rfl, _, .inl rfl, by rfl⟩ (.cons ⟨_, .inl rfl, _, .inl rfl, by rfl⟩ .nil)))
    (by intro c; simp [ascii]; grind) [ascii "x", ascii "y"] files

/-! ## C73: the names of the files -/

/-- The full claim C73: the arguments after the flags name those files that no flag has named. -/
def C73_statement : Prop := ∀ (ratio : Nat → Nat → List UInt8) (sorter : LineSorter) (linkSorter : Sorter) (grow : Nat → Nat) (creatable : List UInt8 → Bool) (fuel : Nat),
  StableSort sorter → StableSort linkSorter → ∀ (x y : List UInt8) (files : Files), isPlain x = true → isPlain y = true → x ≠ ascii "-" → y ≠ ascii "-" →
    program ratio sorter linkSorter grow creatable fuel [ascii "-l", x, y] files = program ratio sorter linkSorter grow creatable fuel [x, y] files ∧
    program ratio sorter linkSorter grow creatable fuel [ascii "-d", y, x] files = program ratio sorter linkSorter grow creatable fuel [x, y] files

theorem parse_plain (f : Flags) {x : List UInt8} (hx : isPlain x = true) (rest : List (List UInt8)) : parseArgs f (x :: rest) = .ok (f, x :: rest) := by
  rw [parseArgs.eq_def]
  simp only [hx, if_true]

theorem parse_l (f : Flags) (x : List UInt8) (rest : List (List UInt8)) : parseArgs f (ascii "-l" :: x :: rest) = parseArgs { f with lexicon := x } rest := by
  rw [parseArgs.eq_def]
  simp only [show isPlain (ascii "-l") = false by decide, show ascii "-l" ≠ ascii "--" by decide, show (ascii "-l")[1]? = some 108 by decide, Bool.false_eq_true, if_false,
    show ¬ ((some 108 : Option UInt8) = some 45) by decide, show (ascii "-l").drop 1 = [108] by decide, show ¬ (([108] : List UInt8).head? = some 45 ∨ ([108] : List UInt8).head? = some 61) by decide,
    show cutEq [108] = ([108], none) by decide, show setBool f [108] true = none by rfl, show setString f [108] x = some { f with lexicon := x } by rfl]

theorem parse_d (f : Flags) (x : List UInt8) (rest : List (List UInt8)) : parseArgs f (ascii "-d" :: x :: rest) = parseArgs { f with dictionary := x } rest := by
  rw [parseArgs.eq_def]
  simp only [show isPlain (ascii "-d") = false by decide, show ascii "-d" ≠ ascii "--" by decide, show (ascii "-d")[1]? = some 100 by decide, Bool.false_eq_true, if_false,
    show ¬ ((some 100 : Option UInt8) = some 45) by decide, show (ascii "-d").drop 1 = [100] by decide, show ¬ (([100] : List UInt8).head? = some 45 ∨ ([100] : List UInt8).head? = some 61) by decide,
    show cutEq [100] = ([100], none) by decide, show setBool f [100] true = none by rfl, show setString f [100] x = some { f with dictionary := x } by rfl]

/-- What a run does depends on the flags and the two names only. -/
theorem program_congr {args args' : List (List UInt8)} {f f' : Flags} {rest rest' : List (List UInt8)} (h : parseArgs {} args = .ok (f, rest)) (h' : parseArgs {} args' = .ok (f', rest'))
    (h1 : f.build = f'.build) (h2 : f.opts = f'.opts) (h3 : lexiconName f rest = lexiconName f' rest') (h4 : dictionaryName f rest = dictionaryName f' rest') (files : Files) :
    program ratio sorter linkSorter grow creatable fuel args files = program ratio sorter linkSorter grow creatable fuel args' files := by
  unfold program
  rw [h, h']
  simp only [h1, h2, h3, h4]

/-- **C73**: after `-d`, the first other argument names the lexicon; `-l` and `-d` name both; after `-l`, however, the dictionary must come second: `dawgtool -l x y` takes
the dictionary from the file "-", like `dawgtool x -`. -/
theorem C73_names_partial (x y : List UInt8) (files : Files) (hx : isPlain x = true) :
    program ratio sorter linkSorter grow creatable fuel [ascii "-d", y, x] files = program ratio sorter linkSorter grow creatable fuel [x, y] files ∧
    program ratio sorter linkSorter grow creatable fuel [ascii "-l", x, ascii "-d", y] files = program ratio sorter linkSorter grow creatable fuel [x, y] files ∧
    program ratio sorter linkSorter grow creatable fuel [ascii "-d", y, ascii "-l", x] files = program ratio sorter linkSorter grow creatable fuel [x, y] files ∧
    (isPlain y = true → x ≠ ascii "-" → program ratio sorter linkSorter grow creatable fuel [ascii "-l", x, y] files = program ratio sorter linkSorter grow creatable fuel [x, ascii "-"] files) := by
  have hdash : ascii "-" = ([45] : List UInt8) := by decide
  have names : ∀ z : List UInt8, lexiconName {} [x, z] = x ∧ dictionaryName {} [x, z] = z := by
    intro z
    simp [lexiconName, dictionaryName]
  have p0 : ∀ z : List UInt8, parseArgs {} [x, z] = .ok ({}, [x, z]) := fun z => parse_plain _ hx _
  have p1 : parseArgs {} [ascii "-d", y, x] = .ok ({ dictionary := y }, [x]) := (parse_d _ _ _).trans (parse_plain _ hx _)
  have p2 : parseArgs {} [ascii "-l", x, ascii "-d", y] = .ok ({ lexicon := x, dictionary := y }, []) := (parse_l _ _ _).trans (parse_d _ _ _)
  have p3 : parseArgs {} [ascii "-d", y, ascii "-l", x] = .ok ({ lexicon := x, dictionary := y }, []) := (parse_d _ _ _).trans (parse_l _ _ _)
  have n2 : lexiconName { lexicon := x, dictionary := y } [] = x ∧ dictionaryName { lexicon := x, dictionary := y } [] = y := by
    simp [lexiconName, dictionaryName]
  refine ⟨?_, ?_, ?_, ?_⟩
  · refine program_congr _ _ _ _ _ _ p1 (p0 y) rfl rfl ?_ ?_ files
    · rw [(names y).1]; simp [lexiconName]
    · rw [(names y).2]; simp [dictionaryName]
  · exact program_congr _ _ _ _ _ _ p2 (p0 y) rfl rfl (n2.1.trans (names y).1.symm) (n2.2.trans (names y).2.symm) files
  · exact program_congr _ _ _ _ _ _ p3 (p0 y) rfl rfl (n2.1.trans (names y).1.symm) (n2.2.trans (names y).2.symm) files
  · intro hy hne
    have p4 : parseArgs {} [ascii "-l", x, y] = .ok ({ lexicon := x }, [y]) := (parse_l _ _ _).trans (parse_plain _ hy _)
    refine program_congr _ _ _ _ _ _ p4 (p0 _) rfl rfl ?_ ?_ files
    · rw [(names _).1]; simp [lexiconName, hne]
    · rw [(names _).2]; simp [dictionaryName]

/-- **C73 is false**: with the files "x" and "y" (a dictionary), `dawgtool -l x y` stops with an error. -/
theorem C73_names_false : ¬ C73_statement := by
  intro hs
  have h := (hs (fun _ _ => []) (fun less l => l.mergeSort (fun a b => !less b a)) insertionSort (fun n => n) (fun _ => true) 0 (exists_stableSort _)
    insertionSort_stableSort (ascii "x") (ascii "y") (fun n => if n = ascii "-" then none else some [1, 0, 0, 0, 0, 0, 0, 0]) (by decide) (by decide) (by decide) (by decide)).1
  rw [(C73_names_partial _ _ _ _ _ _ _ _ _ (by decide)).2.2.2 (by decide) (by decide)] at h
  have h1 := congrArg Session.ending h
  unfold program at h1
  rw [parse_plain _ (by decide), parse_plain _ (by decide)] at h1
  exact absurd h1 (by decide +kernel)

example (files : Files) : program ratio sorter linkSorter grow creatable fuel [ascii "-d", ascii "dict", ascii "words"] files =
    program ratio sorter linkSorter grow creatable fuel [ascii "words", ascii "dict"] files :=
  (C73_names_partial ratio sorter linkSorter grow creatable fuel (ascii "words") (ascii "dict") files (by decide)).1

/-! ## C74: from command lines to answers -/

/-- The text with which the tool answers a query, when it finds the given keys with their values. -/
def replyText (q : Key) (hits : List (List UInt8 × Int)) : List UInt8 := q ++ ascii ":" ++ hits.flatMap (fun e => hitText e.1 e.2) ++ [10]

theorem answerText_none (q : Key) (hits : List (List UInt8 × Int)) : answerText ⟨q, none, hits⟩ = replyText q hits := by
  unfold answerText replyText rankPart
  simp

theorem buildRun_file {o : Opts} {lexicon file : List UInt8} (h : mainBuild sorter linkSorter grow o lexicon = .ok file) :
    (buildRun ratio sorter linkSorter grow o lexicon).file = file ∧ (buildRun ratio sorter linkSorter grow o lexicon).res = .ok () := by
  obtain ⟨d, _, _, _, _, h5⟩ := buildRun_ok h ratio
  rw [h5]
  exact ⟨rfl, rfl⟩

theorem program_build {args : List (List UInt8)} {f : Flags} {x y : List UInt8} (hp : parseArgs {} args = .ok (f, [x, y])) (hf : f.lexicon = ascii "-") (hf' : f.dictionary = ascii "-") (hb : f.build = true)
    (hxy : x ≠ y) (hc : creatable y = true) {files : Files} {lexicon file : List UInt8} (hl : files x = some lexicon) (hm : mainBuild sorter linkSorter grow f.opts lexicon = .ok file) :
    (program ratio sorter linkSorter grow creatable fuel args files).ending = .done ∧ (program ratio sorter linkSorter grow creatable fuel args files).files = files.set y (some file) := by
  obtain ⟨h1, h2⟩ := buildRun_file ratio sorter linkSorter grow hm
  have e1 : lexiconName f [x, y] = x := by simp [lexiconName, hf]
  have e2 : dictionaryName f [x, y] = y := by simp [dictionaryName, hf']
  unfold program
  rw [hp]
  simp only [e1, e2, hl, hb, hc, if_true, if_neg (Ne.symm hxy), h1, h2, ended, and_self]

theorem program_query {args : List (List UInt8)} {f : Flags} {x y : List UInt8} (hp : parseArgs {} args = .ok (f, [x, y])) (hf : f.lexicon = ascii "-") (hf' : f.dictionary = ascii "-") (hb : f.build = false)
    {files : Files} {queries file : List UInt8} (hl : files x = some queries) (hd : files y = some file) {as : List Answer} (hm : mainQuery f.opts fuel file queries = .ok (as, none)) :
    program ratio sorter linkSorter grow creatable fuel args files = ⟨as.flatMap answerText, files, .done⟩ := by
  have h1 := (queryRun_spec f.opts fuel file queries).1 as none hm
  have e1 : lexiconName f [x, y] = x := by simp [lexiconName, hf]
  have e2 : dictionaryName f [x, y] = y := by simp [dictionaryName, hf']
  unfold program
  rw [hp]
  simp only [e1, e2, hl, hd, hb, Bool.false_eq_true, if_false, h1, ended, totalsText, List.append_nil]

/-- A build and then queries: what a session of two runs does, given the results of the two parts. -/
theorem session {b : Flags} {opts : List (List UInt8)} (hb : ∀ rest, parseArgs {} (opts ++ rest) = parseArgs b rest) (hb1 : b.lexicon = ascii "-") (hb2 : b.dictionary = ascii "-") (hb3 : b.build = true)
    {g : Flags} {opts' : List (List UInt8)} (hg : ∀ rest, parseArgs {} (opts' ++ rest) = parseArgs g rest) (hg1 : g.lexicon = ascii "-") (hg2 : g.dictionary = ascii "-") (hg3 : g.build = false)
    {words dict queries : List UInt8} (hw : isPlain words = true) (hq : isPlain queries = true) (hwd : words ≠ dict) (hqd : queries ≠ dict) (hc : creatable dict = true)
    {files : Files} {lexicon qfile file : List UInt8} (f1 : files words = some lexicon) (f2 : files queries = some qfile) (h1 : mainBuild sorter linkSorter grow b.opts lexicon = .ok file)
    {as : List Answer} (h2 : mainQuery g.opts fuel file qfile = .ok (as, none)) :
    (program ratio sorter linkSorter grow creatable fuel (opts ++ [words, dict]) files).ending = .done ∧
    program ratio sorter linkSorter grow creatable fuel (opts' ++ [queries, dict]) (program ratio sorter linkSorter grow creatable fuel (opts ++ [words, dict]) files).files =
      ⟨as.flatMap answerText, files.set dict (some file), .done⟩ := by
  obtain ⟨k1, k2⟩ := program_build ratio sorter linkSorter grow creatable fuel ((hb _).trans (parse_plain _ hw _)) hb1 hb2 hb3 hwd hc f1 h1
  refine ⟨k1, ?_⟩
  rw [k2]
  exact program_query ratio sorter linkSorter grow creatable fuel ((hg _).trans (parse_plain _ hq _)) hg1 hg2 hg3 (by simp [Files.set, hqd, f2]) (by simp [Files.set]) h2

theorem spelled_short (c : UInt8) : Spelled c (ascii "-" ++ [c]) := ⟨_, .inl rfl, [], .inl rfl, rfl⟩

/-- **C74**, without a guide: `dawgtool -b -s words dict` and then `dawgtool queries dict`. -/
theorem C74_prefix_session {sorter : LineSorter} (hs : StableSort sorter) {linkSorter : Sorter} (hls : StableSort linkSorter) {lines : List (List UInt8)}
    (hnul : ∀ l ∈ lines, (0 : UInt8) ∉ l) (hline : ∀ l ∈ lines, IsLine l ∧ l.length < 65536) (hsz : (fileOf lines).length < 2097152)
    {qs : List Key} (hqs : ∀ q ∈ qs, (0 : UInt8) ∉ q ∧ IsLine q ∧ q.length < 65536)
    {words dict queries : List UInt8} (hw : isPlain words = true) (hq : isPlain queries = true) (hwd : words ≠ dict) (hqd : queries ≠ dict) (hc : creatable dict = true)
    {files : Files} (f1 : files words = some (fileOf lines)) (f2 : files queries = some (fileOf qs)) :
    let s1 := program ratio sorter linkSorter grow creatable fuel [ascii "-b", ascii "-s", words, dict] files
    let s2 := program ratio sorter linkSorter grow creatable fuel [queries, dict] s1.files
    s1.ending = .done ∧ s2.ending = .done ∧ (∀ n, n ≠ dict → s2.files n = files n) ∧
    s2.out = qs.flatMap (fun q => replyText q (((List.range q.length).filter (fun i => decide (q.take (i + 1) ∈ lines))).map (fun i => (q.take (i + 1), 0)))) := by
  intro s1 s2
  obtain ⟨file, h1, h2⟩ := C53_file_answers hs grow hls hnul hline hsz
  obtain ⟨k1, k2⟩ := session ratio sorter linkSorter grow creatable fuel (b := withOptions {} (ascii "bs")) (opts := [ascii "-b", ascii "-s"])
    (parse_options (by decide) (.cons (spelled_short 98) (.cons (spelled_short 115) .nil)) {}) rfl rfl rfl (g := {}) (opts' := []) (fun _ => rfl) rfl rfl rfl hw hq hwd hqd hc f1 f2 h1 (h2 qs hqs fuel)
  have k3 : s2 = _ := k2
  rw [k3]
  exact ⟨k1, rfl, fun n hn => if_neg hn, by simp only [List.flatMap_map, answerText_none]⟩

/-- **C74**, with `-g`: `dawgtool -b -s -g words dict` and then `dawgtool -g queries dict`. -/
theorem C74_completion_session {sorter : LineSorter} (hs : StableSort sorter) {linkSorter : Sorter} (hls : StableSort linkSorter) {lines : List (List UInt8)}
    (hnul : ∀ l ∈ lines, (0 : UInt8) ∉ l) (hline : ∀ l ∈ lines, IsLine l ∧ l.length < 65536) (hsz : (fileOf lines).length < 2097152)
    {qs : List Key} (hqs : ∀ q ∈ qs, (0 : UInt8) ∉ q ∧ IsLine q ∧ q.length < 65536) (hfuel : lines.length < fuel)
    {words dict queries : List UInt8} (hw : isPlain words = true) (hq : isPlain queries = true) (hwd : words ≠ dict) (hqd : queries ≠ dict) (hc : creatable dict = true)
    {files : Files} (f1 : files words = some (fileOf lines)) (f2 : files queries = some (fileOf qs)) :
    let s1 := program ratio sorter linkSorter grow creatable fuel [ascii "-b", ascii "-s", ascii "-g", words, dict] files
    let s2 := program ratio sorter linkSorter grow creatable fuel [ascii "-g", queries, dict] s1.files
    s1.ending = .done ∧ s2.ending = .done ∧ (∀ n, n ≠ dict → s2.files n = files n) ∧
    ∃ ks, KeysOf lines ks ∧ s2.out = qs.flatMap (fun q => replyText q ((ks.filter (fun k => q.isPrefixOf k)).map (fun k => (k ++ [0], 0)))) := by
  intro s1 s2
  obtain ⟨d, file, ks, h1, h2, h3, h4⟩ := C53_completion_answers hs grow linkSorter hls hnul (fileOf_length lines ▸ hsz)
  have hks : ks.length ≤ lines.length := by
    have hnd : ks.Nodup := by
      rw [List.nodup_iff_pairwise_ne]
      exact h3.1.imp (fun h e => absurd (e ▸ h) (List.lt_irrefl _))
    exact hnd.length_le_of_subset (fun k hk => ((h3.2 k).1 hk).1)
  have hm : mainBuild sorter linkSorter grow { sort := true, guide := true } (fileOf lines) = .ok file := by
    unfold mainBuild
    rw [(C56_lines_partial hline).1, h1]
    exact h2
  have hqu : mainQuery { guide := true } fuel file (fileOf qs) = .ok (qs.map (fun q => ⟨q, none, (ks.filter (fun k => q.isPrefixOf k)).map (fun k => (k ++ [0], 0))⟩), none) := by
    unfold mainQuery
    rw [(C56_lines_partial (fun q hq => (hqs q hq).2)).1]
    exact h4 qs (fun q hq => (hqs q hq).1) fuel (by omega)
  obtain ⟨k1, k2⟩ := session ratio sorter linkSorter grow creatable fuel (b := withOptions {} (ascii "bsg")) (opts := [ascii "-b", ascii "-s", ascii "-g"])
    (parse_options (by decide) (.cons (spelled_short 98) (.cons (spelled_short 115) (.cons (spelled_short 103) .nil))) {}) rfl rfl rfl (g := withOptions {} (ascii "g")) (opts' := [ascii "-g"])
    (parse_options (by decide) (.cons (spelled_short 103) .nil) {}) rfl rfl rfl hw hq hwd hqd hc f1 f2 hm hqu
  have k3 : s2 = _ := k2
  rw [k3]
  exact ⟨k1, rfl, fun n hn => if_neg hn, ks, h3, by simp only [List.flatMap_map, answerText_none]⟩

instance (l : List UInt8) : Decidable (IsLine l) := inferInstanceAs (Decidable (_ ∧ _))

/-- The words "ab", "a" (in this order) and the query "abc". -/
example (files : Files) (h1 : files (ascii "words") = some (ascii "ab\na\n")) (h2 : files (ascii "queries") = some (ascii "abc\n"))
    {sorter : LineSorter} (hs : StableSort sorter) {linkSorter : Sorter} (hls : StableSort linkSorter) :
    (program ratio sorter linkSorter grow (fun _ => true) fuel [ascii "queries", ascii "dict"]
      (program ratio sorter linkSorter grow (fun _ => true) fuel [ascii "-b", ascii "-s", ascii "words", ascii "dict"] files).files).out = ascii "abc: a = 0; ab = 0;\n" := by
  have := (C74_prefix_session ratio grow (fun _ => true) fuel hs hls (lines := [[97, 98], [97]]) (by decide) (by decide) (by decide) (qs := [[97, 98, 99]]) (by decide)
    (words := ascii "words") (dict := ascii "dict") (queries := ascii "queries") (by decide) (by decide) (by decide) (by decide) rfl (files := files)
    (h1.trans (by decide)) (h2.trans (by decide))).2.2.2
  rw [this]
  decide +kernel

/-- **C74**, with values and without a guide: `dawgtool -b -s -t words dict` and then `dawgtool queries dict`. -/
theorem C74_values_session {ps : List (Key × Int)} (hps : Lexicon ps) {sorter : LineSorter} (hs : StableSort sorter) {linkSorter : Sorter} (hls : StableSort linkSorter)
    {qs : List Key} (hqs : ∀ q ∈ qs, (IsLine q ∧ q.length < 65536) ∧ Harmless ps q)
    {words dict queries : List UInt8} (hw : isPlain words = true) (hq : isPlain queries = true) (hwd : words ≠ dict) (hqd : queries ≠ dict) (hc : creatable dict = true)
    {files : Files} (f1 : files words = some (fileOf (ps.map lineOf))) (f2 : files queries = some (fileOf qs)) :
    let s1 := program ratio sorter linkSorter grow creatable fuel [ascii "-b", ascii "-s", ascii "-t", words, dict] files
    let s2 := program ratio sorter linkSorter grow creatable fuel [queries, dict] s1.files
    s1.ending = .done ∧ s2.ending = .done ∧ (∀ n, n ≠ dict → s2.files n = files n) ∧
    s2.out = qs.flatMap (fun q => replyText q
      ((List.range q.length).filterMap (fun i => (ps.find? (fun e => e.1 == q.take (i + 1))).map (fun e => (q.take (i + 1), limited e.2))))) := by
  intro s1 s2
  obtain ⟨file, h1, h2⟩ := C57_prefix_answers hps hs hls grow
  obtain ⟨k1, k2⟩ := session ratio sorter linkSorter grow creatable fuel (b := withOptions {} (ascii "bst")) (opts := [ascii "-b", ascii "-s", ascii "-t"])
    (parse_options (by decide) (.cons (spelled_short 98) (.cons (spelled_short 115) (.cons (spelled_short 116) .nil))) {}) rfl rfl rfl (g := {}) (opts' := []) (fun _ => rfl) rfl rfl rfl
    hw hq hwd hqd hc f1 f2 h1 (h2 qs hqs fuel)
  have k3 : s2 = _ := k2
  rw [k3]
  exact ⟨k1, rfl, fun n hn => if_neg hn, by simp only [List.flatMap_map, answerText_none]⟩

/-- The lines "ba<tab>-5", "b<tab>300" and the query "bac". -/
example (files : Files) (h1 : files (ascii "words") = some (ascii "ba\t-5\nb\t300\n")) (h2 : files (ascii "queries") = some (ascii "bac\n"))
    {sorter : LineSorter} (hs : StableSort sorter) {linkSorter : Sorter} (hls : StableSort linkSorter) :
    (program ratio sorter linkSorter grow (fun _ => true) fuel [ascii "queries", ascii "dict"]
      (program ratio sorter linkSorter grow (fun _ => true) fuel [ascii "-b", ascii "-s", ascii "-t", ascii "words", ascii "dict"] files).files).out = ascii "bac: b = 300; ba = 0;\n" := by
  have := (C74_values_session ratio grow (fun _ => true) fuel lexicon_ex hs hls (qs := [[98, 97, 99]])
    (fun q hq => by
      simp only [List.mem_cons, List.not_mem_nil, or_false] at hq
      subst hq
      exact ⟨⟨⟨by decide, by decide⟩, by decide⟩, harmless_ex _ (by decide)⟩)
    (words := ascii "words") (dict := ascii "dict") (queries := ascii "queries") (by decide) (by decide) (by decide) (by decide) rfl (files := files)
    (h1.trans (by decide +kernel)) (h2.trans (by decide))).2.2.2
  rw [this]
  decide +kernel

/-- Answers with the trailing NUL bytes taken away. -/
theorem strip_answers {qs : List Key} {P : Key → List (Key × Int) → Prop} {as : List Answer} (hq : as.map (·.query) = qs) (h : ∀ a ∈ as, a.rank = none ∧ ∃ xs, P a.query xs ∧ a.hits = withNul xs) :
    ∃ rs : List (Key × List (Key × Int)), rs.map (·.1) = qs ∧ (∀ r ∈ rs, P r.1 r.2) ∧ as.flatMap answerText = rs.flatMap (fun r => replyText r.1 (withNul r.2)) := by
  induction as generalizing qs with
  | nil => exact ⟨[], hq, by simp, rfl⟩
  | cons a as ih =>
    cases qs with
    | nil => cases hq
    | cons q qs =>
      simp only [List.map_cons, List.cons.injEq] at hq
      obtain ⟨rs, r1, r2, r3⟩ := ih hq.2 (fun b hb => h b (List.mem_cons_of_mem _ hb))
      obtain ⟨k1, xs, k2, k3⟩ := h a List.mem_cons_self
      refine ⟨(q, xs) :: rs, by simp [r1], ?_, ?_⟩
      · intro r hr
        rcases List.mem_cons.1 hr with rfl | hr
        · exact hq.1 ▸ k2
        · exact r2 r hr
      · rw [List.flatMap_cons, List.flatMap_cons, r3]
        congr 1
        rw [← answerText_none, ← k3, ← hq.1, ← k1]

/-- **C74**, with values and a guide: `dawgtool -b -s -t -g words dict` and then `dawgtool -g queries dict`.  Every query is answered with the keys that start with it in increasing
order (each followed by a NUL byte). -/
theorem C74_values_completion_session {ps : List (Key × Int)} (hps : Lexicon ps) {sorter : LineSorter} (hs : StableSort sorter) {linkSorter : Sorter} (hls : StableSort linkSorter)
    {qs : List Key} (hqs : ∀ q ∈ qs, (IsLine q ∧ q.length < 65536) ∧ Harmless ps q) (hne : ¬ ([] ∈ qs ∧ [] ∈ ps.map (·.1))) (hfuel : ps.length < fuel)
    {words dict queries : List UInt8} (hw : isPlain words = true) (hq : isPlain queries = true) (hwd : words ≠ dict) (hqd : queries ≠ dict) (hc : creatable dict = true)
    {files : Files} (f1 : files words = some (fileOf (ps.map lineOf))) (f2 : files queries = some (fileOf qs)) :
    let s1 := program ratio sorter linkSorter grow creatable fuel [ascii "-b", ascii "-s", ascii "-t", ascii "-g", words, dict] files
    let s2 := program ratio sorter linkSorter grow creatable fuel [ascii "-g", queries, dict] s1.files
    s1.ending = .done ∧ s2.ending = .done ∧ (∀ n, n ≠ dict → s2.files n = files n) ∧
    ∃ rs : List (Key × List (Key × Int)), rs.map (·.1) = qs ∧ s2.out = rs.flatMap (fun r => replyText r.1 (withNul r.2)) ∧
      ∀ r ∈ rs, r.2.Perm ((ps.filter (fun e => r.1.isPrefixOf e.1)).map (fun e => (e.1, limited e.2))) ∧ r.2.Pairwise (fun a b => a.1 < b.1) := by
  intro s1 s2
  obtain ⟨file, h1, h2⟩ := C57_completion_answers hps hs hls grow
  obtain ⟨as, h3, h4, h5⟩ := h2 qs hqs hne fuel hfuel
  obtain ⟨rs, r1, r2, r3⟩ := strip_answers (P := fun q xs => xs.Perm ((ps.filter (fun e => q.isPrefixOf e.1)).map (fun e => (e.1, limited e.2))) ∧ xs.Pairwise (fun a b => a.1 < b.1)) h4
    (fun a ha => by
      obtain ⟨e1, xs, e2, e3, e4⟩ := h5 a ha
      exact ⟨e1, xs, ⟨e2, e3⟩, e4⟩)
  obtain ⟨k1, k2⟩ := session ratio sorter linkSorter grow creatable fuel (b := withOptions {} (ascii "bstg")) (opts := [ascii "-b", ascii "-s", ascii "-t", ascii "-g"])
    (parse_options (by decide) (.cons (spelled_short 98) (.cons (spelled_short 115) (.cons (spelled_short 116) (.cons (spelled_short 103) .nil)))) {}) rfl rfl rfl (g := withOptions {} (ascii "g")) (opts' := [ascii "-g"])
    (parse_options (by decide) (.cons (spelled_short 103) .nil) {}) rfl rfl rfl hw hq hwd hqd hc f1 f2 h1 h3
  have k3 : s2 = _ := k2
  rw [k3]
  exact ⟨k1, rfl, fun n hn => if_neg hn, rs, r1, r3, r2⟩

/-- **C74**, with values and a ranked guide: `dawgtool -b -s -t -r words dict` and then `dawgtool -r queries dict`.  Every query is answered with the keys that start with it, the
values never increasing. -/
theorem C74_ranked_session {ps : List (Key × Int)} (hps : Lexicon ps) {sorter : LineSorter} (hs : StableSort sorter) {linkSorter : Sorter} (hls : StableSort linkSorter)
    {qs : List Key} (hqs : ∀ q ∈ qs, (IsLine q ∧ q.length < 65536) ∧ Harmless ps q) (hfuel : ps.length < fuel)
    {words dict queries : List UInt8} (hw : isPlain words = true) (hq : isPlain queries = true) (hwd : words ≠ dict) (hqd : queries ≠ dict) (hc : creatable dict = true)
    {files : Files} (f1 : files words = some (fileOf (ps.map lineOf))) (f2 : files queries = some (fileOf qs)) :
    let s1 := program ratio sorter linkSorter grow creatable fuel [ascii "-b", ascii "-s", ascii "-t", ascii "-r", words, dict] files
    let s2 := program ratio sorter linkSorter grow creatable fuel [ascii "-r", queries, dict] s1.files
    s1.ending = .done ∧ s2.ending = .done ∧ (∀ n, n ≠ dict → s2.files n = files n) ∧
    ∃ rs : List (Key × List (Key × Int)), rs.map (·.1) = qs ∧ s2.out = rs.flatMap (fun r => replyText r.1 (withNul r.2)) ∧
      ∀ r ∈ rs, r.2.Perm ((ps.filter (fun e => r.1.isPrefixOf e.1)).map (fun e => (e.1, limited e.2))) ∧ r.2.Pairwise (fun a b => a.2 ≥ b.2) := by
  intro s1 s2
  obtain ⟨file, h1, h2⟩ := C57_ranked_answers hps hs hls grow
  obtain ⟨as, h3, h4, h5⟩ := h2 qs hqs fuel hfuel
  obtain ⟨rs, r1, r2, r3⟩ := strip_answers (P := fun q xs => xs.Perm ((ps.filter (fun e => q.isPrefixOf e.1)).map (fun e => (e.1, limited e.2))) ∧ xs.Pairwise (fun a b => a.2 ≥ b.2)) h4
    (fun a ha => by
      obtain ⟨e1, xs, e2, e3, e4⟩ := h5 a ha
      exact ⟨e1, xs, ⟨e2, e3⟩, e4⟩)
  obtain ⟨k1, k2⟩ := session ratio sorter linkSorter grow creatable fuel (b := withOptions {} (ascii "bstr")) (opts := [ascii "-b", ascii "-s", ascii "-t", ascii "-r"])
    (parse_options (by decide) (.cons (spelled_short 98) (.cons (spelled_short 115) (.cons (spelled_short 116) (.cons (spelled_short 114) .nil)))) {}) rfl rfl rfl (g := withOptions {} (ascii "r")) (opts' := [ascii "-r"])
    (parse_options (by decide) (.cons (spelled_short 114) .nil) {}) rfl rfl rfl hw hq hwd hqd hc f1 f2 h1 h3
  have k3 : s2 = _ := k2
  rw [k3]
  exact ⟨k1, rfl, fun n hn => if_neg hn, rs, r1, r3, r2⟩

end Dawg.Props
