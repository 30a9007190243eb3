import Verif.Model.Output
/-! # The runs of dawgtool with and without effects -/
namespace Dawg.Tool
open Dawg

/-- Forgets the result. -/
def done {α ε : Type} : Except ε α → Except ε Unit
  | .ok _ => .ok ()
  | .error e => .error e

theorem res_bind {α β : Type} (x : Run α) (f : α → Run β) : (x >>= f).res = x.res >>= fun a => (f a).res := by
  show (Run.bind x f).res = _
  unfold Run.bind
  cases x.res <;> rfl

theorem out_bind {α β : Type} {x : Run α} {a : α} (h : x.res = .ok a) (f : α → Run β) : (x >>= f).out = x.out ++ (f a).out := by
  show (Run.bind x f).out = _
  unfold Run.bind
  simp only [h]

theorem file_bind {α β : Type} {x : Run α} {a : α} (h : x.res = .ok a) (f : α → Run β) : (x >>= f).file = x.file ++ (f a).file := by
  show (Run.bind x f).file = _
  unfold Run.bind
  simp only [h]

theorem file_bind_error {α β : Type} {x : Run α} {e : Stop} (h : x.res = .error e) (f : α → Run β) : (x >>= f).file = x.file := by
  show (Run.bind x f).file = _
  unfold Run.bind
  simp only [h]

theorem out_bind_error {α β : Type} {x : Run α} {e : Stop} (h : x.res = .error e) (f : α → Run β) : (x >>= f).out = x.out := by
  show (Run.bind x f).out = _
  unfold Run.bind
  simp only [h]

theorem file_bind_nil {α β : Type} {x : Run α} {f : α → Run β} (h : x.file = []) (hf : ∀ a, (f a).file = []) : (x >>= f).file = [] := by
  cases hr : x.res with
  | error e => rw [file_bind_error hr, h]
  | ok a => rw [file_bind hr, h, hf a]; rfl

theorem pure_res {α : Type} (a : α) : (Pure.pure a : Run α).res = .ok a := rfl
theorem pure_out {α : Type} (a : α) : (Pure.pure a : Run α).out = [] := rfl
theorem pure_file {α : Type} (a : α) : (Pure.pure a : Run α).file = [] := rfl
theorem perform_res {α : Type} (x : Except Stop α) : (perform x).res = x := rfl
theorem perform_out {α : Type} (x : Except Stop α) : (perform x).out = [] := rfl
theorem perform_file {α : Type} (x : Except Stop α) : (perform x).file = [] := rfl
theorem print_res (s : List UInt8) : (print s).res = .ok () := rfl
theorem stat_res (s : String) (v : Int) : (stat s v).res = .ok () := rfl
theorem save_res (s : List UInt8) : (save s).res = .ok () := rfl
theorem print_file (s : List UInt8) : (print s).file = [] := rfl
theorem stat_file (s : String) (v : Int) : (stat s v).file = [] := rfl
theorem map_res {α β : Type} (f : α → β) (x : Run α) : (f <$> x).res = f <$> x.res := by
  show (x >>= fun a => Pure.pure (f a)).res = _
  rw [res_bind]
  cases x.res <;> rfl
theorem map_file {α β : Type} (f : α → β) (x : Run α) : (f <$> x).file = x.file := by
  show (x >>= fun a => Pure.pure (f a)).file = _
  cases h : x.res with
  | error e => rw [file_bind_error h]
  | ok a => rw [file_bind h, pure_file, List.append_nil]

theorem ok_bind' {ε α β : Type} (a : α) (f : α → Except ε β) : ((Except.ok a : Except ε α) >>= f) = f a := rfl
theorem error_bind' {ε α β : Type} (e : ε) (f : α → Except ε β) : ((Except.error e : Except ε α) >>= f) = .error e := rfl

/-! ## Building -/

theorem parseLineRun_res (tab : Bool) (line : List UInt8) : (parseLineRun tab line).res = parseLine tab line := by
  unfold parseLineRun parseLine clamp
  cases tab with
  | false => rfl
  | true =>
    simp only [Bool.not_true, Bool.false_eq_true, if_false]
    match splitTab line with
    | [] => rfl
    | [_] => rfl
    | k :: v :: _ =>
      simp only
      cases atoi v with
      | none => rfl
      | some v =>
        simp only
        split
        · rfl
        · split <;> rfl

theorem parseLineRun_file (tab : Bool) (line : List UInt8) : (parseLineRun tab line).file = [] := by
  unfold parseLineRun
  split
  · rfl
  · split
    · split
      · rfl
      · split
        · rfl
        · split <;> rfl
    · rfl

theorem processLineRun_res (o : Opts) (b : Builder) (line : List UInt8) : (processLineRun o b line).res = processLine o b line := by
  unfold processLineRun processLine
  split
  · rfl
  · simp only [res_bind, parseLineRun_res, perform_res]
    congr 1
    funext kv
    congr 1
    funext bo
    split <;> rfl

theorem processLineRun_file (o : Opts) (b : Builder) (line : List UInt8) : (processLineRun o b line).file = [] := by
  unfold processLineRun
  split
  · rfl
  · refine file_bind_nil (parseLineRun_file _ _) (fun kv => file_bind_nil rfl (fun bo => ?_))
    obtain ⟨b, ok⟩ := bo
    cases ok <;> rfl

/-- The number of lines that are not empty. -/
def lineCount (ls : List (List UInt8)) : Nat := ls.countP (fun l => l ≠ [])

theorem processLine_flag {o : Opts} {b b' : Builder} {line : List UInt8} {ok : Bool} (h : processLine o b line = .ok (b', ok)) : ok = decide (line ≠ []) := by
  unfold processLine at h
  split at h
  · next hl =>
    cases h
    simp [List.length_eq_zero_iff.1 hl]
  · next hl =>
    have hne : line ≠ [] := fun h' => hl (by rw [h']; rfl)
    simp only [decide_eq_true hne]
    cases hp : parseLine o.tab line with
    | error e => rw [hp] at h; cases h
    | ok kv =>
      rw [hp, ok_bind'] at h
      simp only at h
      cases hi : lift (b.insertKeyValue (keyBytes o.utfc kv.1) (keyBytes o.utfc kv.1).length kv.2) with
      | error e => rw [hi] at h; cases h
      | ok r =>
        rw [hi, ok_bind'] at h
        split at h
        · cases h
        · cases h; rfl

theorem processLinesRun_res (o : Opts) : ∀ (ls : List (List UInt8)) (b : Builder) (n : Nat),
    (processLinesRun o ls b n).res = (fun b' => (b', n + lineCount ls)) <$> processLines o ls b
  | [], b, n => rfl
  | l :: ls, b, n => by
    unfold processLinesRun processLines
    simp only [res_bind, processLineRun_res]
    cases hp : processLine o b l with
    | error e => rfl
    | ok r =>
      obtain ⟨b', ok⟩ := r
      have hf := processLine_flag hp
      simp only [ok_bind']
      subst hf
      by_cases hl : l = []
      · simp only [hl, ne_eq, not_true, decide_false, Bool.false_eq_true, if_false]
        rw [processLinesRun_res o ls b' n]
        simp [lineCount]
      · simp only [hl, ne_eq, not_false_eq_true, decide_true, if_true]
        have : (n + lineCount (l :: ls)) = n + 1 + lineCount ls := by simp [lineCount, hl]; omega
        rw [this, ← processLinesRun_res o ls b' (n + 1)]
        split
        · rw [res_bind, stat_res]; rfl
        · rfl

theorem processLinesRun_file (o : Opts) : ∀ (ls : List (List UInt8)) (b : Builder) (n : Nat), (processLinesRun o ls b n).file = []
  | [], b, n => rfl
  | l :: ls, b, n => by
    unfold processLinesRun
    refine file_bind_nil (processLineRun_file _ _ _) (fun r => ?_)
    simp only
    split
    · split
      · exact file_bind_nil rfl (fun _ => processLinesRun_file o ls _ _)
      · exact processLinesRun_file o ls _ _
    · exact processLinesRun_file o ls _ _

theorem perform_ok_bind {α β : Type} (a : α) (f : α → Run β) : (perform (.ok a) >>= f) = f a := rfl
theorem perform_error_bind {α β : Type} (e : Stop) (f : α → Run β) : (perform (.error e) >>= f) = perform (.error e) := rfl
theorem pure_bind' {α β : Type} (a : α) (f : α → Run β) : ((Pure.pure a : Run α) >>= f) = f a := rfl
theorem map_perform {α β : Type} (f : α → β) (x : Except Stop α) : f <$> perform x = perform (f <$> x) := by
  cases x <;> rfl
theorem print_bind {β : Type} (s : List UInt8) (f : Unit → Run β) : (print s >>= f) = ⟨s ++ (f ()).out, (f ()).file, (f ()).res⟩ := rfl
theorem save_bind {β : Type} (s : List UInt8) (f : Unit → Run β) : (save s >>= f) = ⟨(f ()).out, s ++ (f ()).file, (f ()).res⟩ := rfl

/-- One line of statistics. -/
def statText (title : String) (v : Int) : List UInt8 := ascii title ++ ascii ": " ++ number v ++ [10]

theorem stat_bind {β : Type} (t : String) (v : Int) (f : Unit → Run β) : (stat t v >>= f) = ⟨statText t v ++ (f ()).out, (f ()).file, (f ()).res⟩ := rfl

/-- The guide that `buildFile` makes. -/
def guideFor (linkSorter : Sorter) (o : Opts) (d : Dawg) (dict : Dictionary) : Except Stop (Option (Option Guide)) :=
  if o.ranked then some <$> lift (buildRankedGuide linkSorter d dict)
  else if o.guide then some <$> lift (buildGuide d dict)
  else .ok none

/-- The lines about the dictionary. -/
def dictText (ratio : Nat → Nat → List UInt8) (dict : Dictionary) (unused : Nat) : List UInt8 :=
  statText "no. elements" dict.size ++
    ((ascii "no. unused elements: " ++ number unused ++ ascii " (" ++ ratio unused dict.size ++ ascii "%)" ++ [10]) ++ statText "dictionary size" dict.totalSize)

/-- The lines about the guide. -/
def guideText (g : Guide) : List UInt8 := statText "no. units" g.size ++ statText "guide size" g.totalSize

/-- The lines about the index. -/
def indexText (x : Index) : List UInt8 := statText "no. index units" x.size ++ statText "index size" x.totalSize

theorem buildFile_guideFor (linkSorter : Sorter) (o : Opts) (d : Dawg) : buildFile linkSorter o d = (do
    match ← lift d.buildWithUnused with
    | none => .error .fatal
    | some (dict, _) =>
      match ← guideFor linkSorter o d dict with
      | none => return dict.write
      | some none => .error (.fault .panic)
      | some (some g) =>
        if o.index then
          match ← lift (buildIndex dict g) with
          | none => .error .fatal
          | some x => return dict.write ++ g.write ++ x.write
        else return dict.write ++ g.write) := by
  unfold buildFile guideFor
  cases lift d.buildWithUnused with
  | error e => rfl
  | ok r =>
    cases r with
    | none => rfl
    | some r =>
      simp only [ok_bind']
      cases o.ranked
      · cases o.guide
        · rfl
        · rfl
      · rfl

/-- What a run of `buildFileRun` does. -/
theorem buildFileRun_cases (ratio : Nat → Nat → List UInt8) (linkSorter : Sorter) (o : Opts) (d : Dawg) :
    (∃ e, lift d.buildWithUnused = .error e ∧ buildFileRun ratio linkSorter o d = perform (.error e) ∧ buildFile linkSorter o d = .error e) ∨
    (lift d.buildWithUnused = .ok none ∧ buildFileRun ratio linkSorter o d = perform (.error .fatal) ∧ buildFile linkSorter o d = .error .fatal) ∨
    ∃ dict unused, lift d.buildWithUnused = .ok (some (dict, unused)) ∧
      ((∃ e, (guideFor linkSorter o d dict = .error e ∨ guideFor linkSorter o d dict = .ok (some none) ∧ e = .fault .panic) ∧
          buildFileRun ratio linkSorter o d = ⟨dictText ratio dict unused, dict.write, .error e⟩ ∧ buildFile linkSorter o d = .error e) ∨
       (guideFor linkSorter o d dict = .ok none ∧ buildFileRun ratio linkSorter o d = ⟨dictText ratio dict unused, dict.write, .ok ()⟩ ∧
          buildFile linkSorter o d = .ok dict.write) ∨
       ∃ g, guideFor linkSorter o d dict = .ok (some (some g)) ∧
        ((o.index = false ∧ buildFileRun ratio linkSorter o d = ⟨dictText ratio dict unused ++ guideText g, dict.write ++ g.write, .ok ()⟩ ∧
            buildFile linkSorter o d = .ok (dict.write ++ g.write)) ∨
         (o.index = true ∧ ∃ e, (lift (buildIndex dict g) = .error e ∨ lift (buildIndex dict g) = .ok none ∧ e = .fatal) ∧
            buildFileRun ratio linkSorter o d = ⟨dictText ratio dict unused ++ guideText g, dict.write ++ g.write, .error e⟩ ∧ buildFile linkSorter o d = .error e) ∨
         (o.index = true ∧ ∃ x, lift (buildIndex dict g) = .ok (some x) ∧
            buildFileRun ratio linkSorter o d = ⟨dictText ratio dict unused ++ guideText g ++ indexText x, dict.write ++ g.write ++ x.write, .ok ()⟩ ∧
            buildFile linkSorter o d = .ok (dict.write ++ g.write ++ x.write)))) := by
  have hg : ∀ dict (k : Option (Option Guide) → Run Unit),
      (if o.ranked = true then (some <$> perform (lift (buildRankedGuide linkSorter d dict))) >>= k
        else if o.guide = true then (some <$> perform (lift (buildGuide d dict))) >>= k
        else (pure none : Run _) >>= k) = perform (guideFor linkSorter o d dict) >>= k := by
    intro dict k
    unfold guideFor
    split
    · rw [map_perform]
    · split
      · rw [map_perform]
      · rfl
  rw [buildFile_guideFor]
  unfold buildFileRun
  cases h1 : lift d.buildWithUnused with
  | error e => exact .inl ⟨e, rfl, rfl, rfl⟩
  | ok r =>
    cases r with
    | none => exact .inr (.inl ⟨rfl, rfl, rfl⟩)
    | some r =>
      obtain ⟨dict, unused⟩ := r
      refine .inr (.inr ⟨dict, unused, rfl, ?_⟩)
      simp only [perform_ok_bind, ok_bind', stat_bind, print_bind, save_bind, hg]
      cases h2 : guideFor linkSorter o d dict with
      | error e => exact .inl ⟨e, .inl rfl, (by simp only [perform_error_bind]; simp [perform, dictText]), rfl⟩
      | ok gg =>
        cases gg with
        | none => exact .inr (.inl ⟨rfl, (by simp only [perform_ok_bind]; simp [pure_out, pure_file, pure_res, dictText]), rfl⟩)
        | some gg =>
          cases gg with
          | none => exact .inl ⟨_, .inr ⟨rfl, rfl⟩, (by simp only [perform_ok_bind]; simp [perform, dictText]), rfl⟩
          | some g =>
            refine .inr (.inr ⟨g, rfl, ?_⟩)
            simp only [perform_ok_bind, ok_bind']
            cases h3 : o.index with
            | false => exact .inl ⟨rfl, by simp [pure_out, pure_file, pure_res, dictText, guideText], rfl⟩
            | true =>
              cases h4 : lift (buildIndex dict g) with
              | error e => exact .inr (.inl ⟨rfl, e, .inl rfl, (by simp only [if_true, perform_error_bind]; simp [perform, dictText, guideText]), rfl⟩)
              | ok xx =>
                cases xx with
                | none => exact .inr (.inl ⟨rfl, _, .inr ⟨rfl, rfl⟩, (by simp only [if_true, perform_ok_bind]; simp [perform, dictText, guideText]), rfl⟩)
                | some x =>
                  refine .inr (.inr ⟨rfl, x, rfl, ?_, rfl⟩)
                  simp only [if_true, perform_ok_bind]
                  simp [dictText, guideText, indexText, save]

/-! ### The text of a build -/

/-- The warning about the value of a line. -/
def warnText (tab : Bool) (line : List UInt8) : List UInt8 :=
  if !tab then [] else match splitTab line with
    | _ :: v :: _ =>
      match atoi v with
      | none => []
      | some v =>
        if v < 0 then ascii "warning: negative value is replaced by 0: " ++ number v ++ [10]
        else if v > 2147483647 then ascii "warning: too large value is replaced by " ++ number 2147483647 ++ [10]
        else []
    | _ => []

/-- What is printed while the lines are read: the warnings, and a progress line for every 10000 keys. -/
def linesText (tab : Bool) : List (List UInt8) → Nat → List UInt8
  | [], _ => []
  | l :: ls, n =>
    if l = [] then linesText tab ls n
    else warnText tab l ++ ((if (n + 1) % 10000 = 0 then statText "no. keys" (n + 1) else []) ++ linesText tab ls (n + 1))

theorem parseLineRun_out (tab : Bool) (line : List UInt8) : (parseLineRun tab line).out = warnText tab line := by
  unfold parseLineRun warnText
  cases tab with
  | false => rfl
  | true =>
    simp only [Bool.not_true, Bool.false_eq_true, if_false]
    match splitTab line with
    | [] => rfl
    | [_] => rfl
    | k :: v :: _ =>
      simp only
      cases atoi v with
      | none => rfl
      | some v =>
        simp only
        split
        · simp [print_bind, pure_out]
        · split
          · simp [print_bind, pure_out]
          · rfl

theorem processLineRun_out {o : Opts} {b : Builder} {line : List UInt8} {r} (h : processLine o b line = .ok r) :
    (processLineRun o b line).out = if line = [] then [] else warnText o.tab line := by
  unfold processLine at h
  unfold processLineRun
  split at h
  · next hl => simp [List.length_eq_zero_iff.1 hl, pure_out]
  · next hl =>
    have hne : line ≠ [] := fun h' => hl (by rw [h']; rfl)
    simp only [hl, if_false, hne]
    cases hp : parseLine o.tab line with
    | error e => rw [hp] at h; cases h
    | ok kv =>
      rw [out_bind (by rw [parseLineRun_res, hp]), parseLineRun_out]
      rw [hp, ok_bind'] at h
      simp only at h ⊢
      cases hi : lift (b.insertKeyValue (keyBytes o.utfc kv.1) (keyBytes o.utfc kv.1).length kv.2) with
      | error e => rw [hi] at h; cases h
      | ok r =>
        rw [hi, ok_bind'] at h
        rw [perform_ok_bind]
        split at h
        · cases h
        · next hr => simp [hr, pure_out]

theorem processLinesRun_out {o : Opts} : ∀ {ls : List (List UInt8)} {b b' : Builder} {n : Nat}, processLines o ls b = .ok b' →
    (processLinesRun o ls b n).out = linesText o.tab ls n
  | [], b, b', n, h => rfl
  | l :: ls, b, b', n, h => by
    unfold processLines at h
    unfold processLinesRun linesText
    cases hp : processLine o b l with
    | error e => rw [hp] at h; cases h
    | ok r =>
      obtain ⟨b1, ok⟩ := r
      have hf := processLine_flag hp
      rw [hp, ok_bind'] at h
      rw [out_bind (by rw [processLineRun_res, hp]), processLineRun_out hp]
      simp only at h ⊢
      subst hf
      by_cases hl : l = []
      · simp only [hl, ne_eq, not_true, decide_false, Bool.false_eq_true, if_false, if_true, List.nil_append]
        exact processLinesRun_out h
      · simp only [hl, ne_eq, not_false_eq_true, decide_true, if_true, if_false]
        congr 1
        split
        · rw [stat_bind]
          simp only
          rw [processLinesRun_out h]
        · rw [processLinesRun_out h]; rfl

/-- The lines about the Dawg. -/
def dawgText (count : Nat) (d : Dawg) : List UInt8 :=
  statText "no. keys" count ++ statText "no. states" d.numOfStates ++ statText "no. transitions" d.numOfTransitions ++
    statText "no. merged states" d.numOfMergedStates ++ statText "no. merging states" d.numOfMergingStates ++
    statText "no. merged transitions" d.numOfMergedTransitions

theorem dawgStats_bind {β : Type} (count : Nat) (d : Dawg) (f : Unit → Run β) :
    (dawgStats count d >>= f) = ⟨dawgText count d ++ (f ()).out, (f ()).file, (f ()).res⟩ := by
  have : dawgStats count d = ⟨dawgText count d, [], .ok ()⟩ := by
    unfold dawgStats
    simp only [stat_bind]
    simp [dawgText, stat, statText, print]
  rw [this]
  rfl

/-- What a run of `buildRun` does. -/
theorem buildRun_cases (ratio : Nat → Nat → List UInt8) (sorter : LineSorter) (linkSorter : Sorter) (grow : Nat → Nat) (o : Opts) (lexicon : List UInt8) :
    (∃ e, buildDawg sorter grow o (scanLines lexicon) = .error e ∧ (buildRun ratio sorter linkSorter grow o lexicon).res = .error e ∧
      (buildRun ratio sorter linkSorter grow o lexicon).file = [] ∧ mainBuild sorter linkSorter grow o lexicon = .error e) ∨
    ∃ d, buildDawg sorter grow o (scanLines lexicon) = .ok d ∧ mainBuild sorter linkSorter grow o lexicon = buildFile linkSorter o d ∧
      buildRun ratio sorter linkSorter grow o lexicon =
        ⟨linesText o.tab (orderLines sorter grow o (scanLines lexicon)) 0 ++
          (dawgText (lineCount (orderLines sorter grow o (scanLines lexicon))) d ++ (buildFileRun ratio linkSorter o d).out),
         (buildFileRun ratio linkSorter o d).file, (buildFileRun ratio linkSorter o d).res⟩ := by
  unfold mainBuild buildDawg buildRun
  generalize orderLines sorter grow o (scanLines lexicon) = ls
  have hr := processLinesRun_res o ls Builder.new 0
  have hf := processLinesRun_file o ls Builder.new 0
  cases hp : processLines o ls Builder.new with
  | error e =>
    rw [hp] at hr
    refine .inl ⟨e, rfl, ?_, ?_, rfl⟩
    · rw [res_bind, hr]; rfl
    · rw [file_bind_error hr, hf]
  | ok b =>
    rw [hp] at hr
    have ho := processLinesRun_out (n := 0) hp
    cases hfin : lift b.finish with
    | error e =>
      refine .inl ⟨e, by simp only [ok_bind', hfin]; rfl, ?_, ?_, by simp only [ok_bind', hfin]; rfl⟩
      · rw [res_bind, hr]
        simp only [Functor.map, Except.map, ok_bind', hfin]; rfl
      · rw [file_bind hr, hf]
        simp only [hfin]; rfl
    | ok r =>
      obtain ⟨b', d⟩ := r
      refine .inr ⟨d, by simp only [ok_bind', hfin]; rfl, by simp only [ok_bind', hfin]; rfl, ?_⟩
      have he : processLinesRun o ls Builder.new 0 = ⟨linesText o.tab ls 0, [], .ok (b, 0 + lineCount ls)⟩ := by
        cases hx : processLinesRun o ls Builder.new 0 with
        | mk a b' c =>
          rw [hx] at hr hf ho
          simp only at hr hf ho
          rw [hr, hf, ho]; rfl
      rw [he]
      show Run.bind _ _ = _
      unfold Run.bind
      simp only [hfin, perform_ok_bind, dawgStats_bind, Nat.zero_add, List.nil_append]

/-! ## Queries -/

/-- The text of the number of a query. -/
def rankPart : Option Nat → List UInt8
  | some r => rankText r
  | none => []

/-- The text of an answer. -/
def answerText (a : Answer) : List UInt8 :=
  a.query ++ ascii ":" ++ rankPart a.rank ++ a.hits.flatMap (fun e => hitText e.1 e.2) ++ [10]

/-- The lines of the keys, numbered from `i` on. -/
def listText : Nat → List (List UInt8) → List UInt8
  | _, [] => []
  | i, k :: ks => number i ++ ascii ": " ++ k ++ [10] ++ listText (i + 1) ks

/-- With `-i`, the lines after the answers. -/
def totalsText : Option (List (List UInt8)) → List UInt8
  | none => []
  | some ks => statText "Total words" ks.length ++ listText 0 ks

theorem rd_panic {α : Type} {l : List α} {i : Nat} {e : Fault} (h : rd l i = .error e) : e = .panic := by
  unfold rd at h
  split at h <;> cases h
  rfl

theorem follow_panic {d : Dictionary} {c : UInt8} {i : Nat} {e : Fault} (h : d.follow c i = .error e) : e = .panic := by
  unfold Dictionary.follow at h
  cases h1 : rd d.units i with
  | error e' =>
    rw [h1] at h
    cases h
    exact rd_panic h1
  | ok u =>
    rw [h1, ok_bind'] at h
    simp only at h
    cases h2 : rd d.units (i ^^^ dictOffset u ^^^ c.toNat) with
    | error e' =>
      rw [h2] at h
      cases h
      exact rd_panic h2
    | ok u => rw [h2] at h; cases h

theorem hasValue_panic {d : Dictionary} {i : Nat} {e : Fault} (h : d.hasValue i = .error e) : e = .panic := by
  unfold Dictionary.hasValue at h
  cases h1 : rd d.units i with
  | error e' =>
    rw [h1] at h
    cases h
    exact rd_panic h1
  | ok u => rw [h1] at h; cases h

theorem value_panic {d : Dictionary} {i : Nat} {e : Fault} (h : d.value i = .error e) : e = .panic := by
  unfold Dictionary.value at h
  cases h1 : rd d.units i with
  | error e' =>
    rw [h1] at h
    cases h
    exact rd_panic h1
  | ok u =>
    rw [h1, ok_bind'] at h
    cases h2 : rd d.units (i ^^^ dictOffset u) with
    | error e' =>
      rw [h2] at h
      cases h
      exact rd_panic h2
    | ok u => rw [h2] at h; cases h

theorem prefixLoop_panic {d : Dictionary} {key : List UInt8} : ∀ {cs : List UInt8} {pos i : Nat} {e : Fault}, prefixLoop d key cs pos i = .error e → e = .panic
  | [], _, _, _, h => by cases h
  | c :: cs, pos, i, e, h => by
    unfold prefixLoop at h
    cases h1 : d.follow c i with
    | error e' => rw [h1] at h; cases h; exact follow_panic h1
    | ok r =>
      cases r with
      | none => rw [h1] at h; cases h
      | some j =>
        rw [h1, ok_bind'] at h
        simp only at h
        cases h2 : prefixLoop d key cs (pos + 1) j with
        | error e' => rw [h2] at h; cases h; exact prefixLoop_panic h2
        | ok rest =>
          rw [h2, ok_bind'] at h
          cases h3 : d.hasValue j with
          | error e' => rw [h3] at h; cases h; exact hasValue_panic h3
          | ok v =>
            rw [h3, ok_bind'] at h
            cases v with
            | false => cases h
            | true =>
              simp only [if_true] at h
              cases h4 : d.value j with
              | error e' => rw [h4] at h; cases h; exact value_panic h4
              | ok v => rw [h4] at h; cases h

/-- The run of the loop over the prefixes. -/
theorem prefixLoopRun_spec (d : Dictionary) (key : List UInt8) : ∀ (cs : List UInt8) (pos i : Nat),
    (∀ hits, prefixLoop d key cs pos i = .ok hits → prefixLoopRun d key cs pos i = ⟨hits.flatMap (fun e => hitText e.1 (Int.ofNat e.2)), [], .ok ()⟩) ∧
    (∀ e, prefixLoop d key cs pos i = .error e → (prefixLoopRun d key cs pos i).res = .error (.fault e) ∧ (prefixLoopRun d key cs pos i).file = [])
  | [], pos, i => ⟨fun hits h => by cases h; rfl, fun e h => by cases h⟩
  | c :: cs, pos, i => by
    unfold prefixLoop prefixLoopRun
    cases h1 : d.follow c i with
    | error e' => exact ⟨fun hits h => (by cases h), fun e h => (by cases h; exact ⟨rfl, rfl⟩)⟩
    | ok r =>
      cases r with
      | none => exact ⟨fun hits h => (by cases h; rfl), fun e h => (by cases h)⟩
      | some j =>
        have ih := prefixLoopRun_spec d key cs (pos + 1) j
        simp only [ok_bind', lift, perform_ok_bind]
        cases h3 : d.hasValue j with
        | error e' =>
          have := hasValue_panic h3
          subst this
          refine ⟨fun hits h => ?_, fun e h => ?_⟩
          · cases h2 : prefixLoop d key cs (pos + 1) j with
            | error _ => rw [h2] at h; cases h
            | ok _ => rw [h2] at h; cases h
          · cases h2 : prefixLoop d key cs (pos + 1) j with
            | error _ =>
              have := prefixLoop_panic h2
              subst this
              rw [h2] at h; cases h; exact ⟨rfl, rfl⟩
            | ok _ => rw [h2] at h; cases h; exact ⟨rfl, rfl⟩
        | ok v =>
          cases v with
          | false =>
            simp only [ok_bind', perform_ok_bind, Bool.false_eq_true, if_false]
            cases h2 : prefixLoop d key cs (pos + 1) j with
            | error e' =>
              refine ⟨fun hits h => (by cases h), fun e h => ?_⟩
              cases h
              exact ih.2 _ h2
            | ok rest =>
              refine ⟨fun hits h => ?_, fun e h => (by cases h)⟩
              cases h
              exact ih.1 _ h2
          | true =>
            simp only [ok_bind', perform_ok_bind, if_true]
            cases h4 : d.value j with
            | error e' =>
              have := value_panic h4
              subst this
              refine ⟨fun hits h => ?_, fun e h => ?_⟩
              · cases h2 : prefixLoop d key cs (pos + 1) j with
                | error _ => rw [h2] at h; cases h
                | ok _ => rw [h2] at h; cases h
              · cases h2 : prefixLoop d key cs (pos + 1) j with
                | error _ =>
                  have := prefixLoop_panic h2
                  subst this
                  rw [h2] at h; cases h; exact ⟨rfl, rfl⟩
                | ok _ => rw [h2] at h; cases h; exact ⟨rfl, rfl⟩
            | ok w =>
              simp only [perform_ok_bind, print_bind]
              cases h2 : prefixLoop d key cs (pos + 1) j with
              | error e' =>
                refine ⟨fun hits h => (by cases h), fun e h => ?_⟩
                cases h
                exact ih.2 _ h2
              | ok rest =>
                refine ⟨fun hits h => ?_, fun e h => (by cases h)⟩
                cases h
                rw [ih.1 _ h2]
                rfl

theorem completeLoopRun_spec (d : Dictionary) (g : Guide) (key : List UInt8) : ∀ (fuel : Nat) (c : Completer),
    (∀ hits c', completeLoop d g key fuel c = .ok (hits, c') → completeLoopRun d g key fuel c = ⟨hits.flatMap (fun e => hitText e.1 e.2), [], .ok c'⟩) ∧
    (∀ e, completeLoop d g key fuel c = .error e → (completeLoopRun d g key fuel c).res = .error (.fault e) ∧ (completeLoopRun d g key fuel c).file = [])
  | 0, c => ⟨fun hits c' h => (by cases h), fun e h => (by cases h; exact ⟨rfl, rfl⟩)⟩
  | fuel + 1, c => by
    unfold completeLoop completeLoopRun
    cases h1 : c.next d g with
    | error e' => exact ⟨fun hits c' h => (by cases h), fun e h => (by cases h; exact ⟨rfl, rfl⟩)⟩
    | ok r =>
      obtain ⟨c1, ok⟩ := r
      cases ok with
      | false => exact ⟨fun hits c' h => (by cases h; rfl), fun e h => (by cases h)⟩
      | true =>
        have ih := completeLoopRun_spec d g key fuel c1
        simp only [ok_bind', lift, perform_ok_bind, Bool.not_true, Bool.false_eq_true, if_false]
        cases h2 : c1.value d with
        | error e' => exact ⟨fun hits c' h => (by cases h), fun e h => (by cases h; exact ⟨rfl, rfl⟩)⟩
        | ok v =>
          simp only [ok_bind', perform_ok_bind, print_bind]
          cases h3 : completeLoop d g key fuel c1 with
          | error e' =>
            refine ⟨fun hits c' h => (by cases h), fun e h => ?_⟩
            cases h
            exact ih.2 _ h3
          | ok r =>
            obtain ⟨rest, c2⟩ := r
            refine ⟨fun hits c' h => ?_, fun e h => (by cases h)⟩
            cases h
            rw [ih.1 _ _ h3]
            rfl

theorem rankedLoopRun_spec (d : Dictionary) (g : Guide) (key : List UInt8) : ∀ (fuel : Nat) (c : RankedCompleter),
    (∀ hits c', rankedLoop d g key fuel c = .ok (hits, c') → rankedLoopRun d g key fuel c = ⟨hits.flatMap (fun e => hitText e.1 e.2), [], .ok c'⟩) ∧
    (∀ e, rankedLoop d g key fuel c = .error e → (rankedLoopRun d g key fuel c).res = .error (.fault e) ∧ (rankedLoopRun d g key fuel c).file = [])
  | 0, c => ⟨fun hits c' h => (by cases h), fun e h => (by cases h; exact ⟨rfl, rfl⟩)⟩
  | fuel + 1, c => by
    unfold rankedLoop rankedLoopRun
    cases h1 : c.next d g with
    | error e' => exact ⟨fun hits c' h => (by cases h), fun e h => (by cases h; exact ⟨rfl, rfl⟩)⟩
    | ok r =>
      obtain ⟨c1, ok⟩ := r
      cases ok with
      | false => exact ⟨fun hits c' h => (by cases h; rfl), fun e h => (by cases h)⟩
      | true =>
        have ih := rankedLoopRun_spec d g key fuel c1
        simp only [ok_bind', lift, perform_ok_bind, Bool.not_true, Bool.false_eq_true, if_false, print_bind]
        cases h3 : rankedLoop d g key fuel c1 with
        | error e' =>
          refine ⟨fun hits c' h => (by cases h), fun e h => ?_⟩
          cases h
          exact ih.2 _ h3
        | ok r =>
          obtain ⟨rest, c2⟩ := r
          refine ⟨fun hits c' h => ?_, fun e h => (by cases h)⟩
          cases h
          rw [ih.1 _ _ h3]
          rfl

/-- The completions of a query. -/
def completions (o : Opts) (l : Loaded) (g : Guide) (fuel : Nat) (c : Completers) (key : List UInt8) : Go (List (List UInt8 × Int) × Completers) := do
  let (ok, index, _) ← l.dict.followString key l.dict.root
  if !ok then return ([], c)
  if o.ranked then
    let rc ← RankedCompleter.start l.dict g c.ranked index
    let (hits, rc) ← rankedLoop l.dict g key fuel rc
    return (hits, { c with ranked := rc })
  else
    let pc ← Completer.start g c.plain index
    let (hits, pc) ← completeLoop l.dict g key fuel pc
    return (hits, { c with plain := pc })

/-- `x` is the run that computes `y`, printing the text `f` of its result. -/
def Prints {α β : Type} (x : Run β) (y : Go α) (f : α → List UInt8) (p : α → β) : Prop :=
  (∀ a, y = .ok a → x = ⟨f a, [], .ok (p a)⟩) ∧ ∀ e, y = .error e → x.res = .error (.fault e) ∧ x.file = []

theorem completionsRun_spec (o : Opts) (l : Loaded) (g : Guide) (fuel : Nat) (c : Completers) (key : List UInt8) :
    Prints (completionsRun o l g fuel c key) (completions o l g fuel c key) (fun r => r.1.flatMap (fun e => hitText e.1 e.2)) (·.2) := by
  unfold completionsRun completions Prints
  cases h1 : l.dict.followString key l.dict.root with
  | error e' => exact ⟨fun a h => (by cases h), fun e h => (by cases h; exact ⟨rfl, rfl⟩)⟩
  | ok r =>
    obtain ⟨ok, index, n⟩ := r
    cases ok with
    | false => exact ⟨fun a h => (by cases h; rfl), fun e h => (by cases h)⟩
    | true =>
      simp only [ok_bind', lift, perform_ok_bind, Bool.not_true, Bool.false_eq_true, if_false]
      cases o.ranked with
      | true =>
        simp only [if_true]
        cases h2 : RankedCompleter.start l.dict g c.ranked index with
        | error e' => exact ⟨fun a h => (by cases h), fun e h => (by cases h; exact ⟨rfl, rfl⟩)⟩
        | ok rc =>
          have hs := rankedLoopRun_spec l.dict g key fuel rc
          simp only [ok_bind', perform_ok_bind]
          cases h3 : rankedLoop l.dict g key fuel rc with
          | error e' =>
            have := hs.2 _ h3
            refine ⟨fun a h => (by cases h), fun e h => ?_⟩
            cases h
            exact ⟨by rw [res_bind, this.1]; rfl, by rw [file_bind_error this.1, this.2]⟩
          | ok r =>
            refine ⟨fun a h => ?_, fun e h => (by cases h)⟩
            cases h
            rw [hs.1 _ _ h3]
            simp [Bind.bind, Run.bind, Pure.pure, Run.pure]
      | false =>
        simp only [Bool.false_eq_true, if_false]
        cases h2 : Completer.start g c.plain index with
        | error e' => exact ⟨fun a h => (by cases h), fun e h => (by cases h; exact ⟨rfl, rfl⟩)⟩
        | ok rc =>
          have hs := completeLoopRun_spec l.dict g key fuel rc
          simp only [ok_bind', perform_ok_bind]
          cases h3 : completeLoop l.dict g key fuel rc with
          | error e' =>
            have := hs.2 _ h3
            refine ⟨fun a h => (by cases h), fun e h => ?_⟩
            cases h
            exact ⟨by rw [res_bind, this.1]; rfl, by rw [file_bind_error this.1, this.2]⟩
          | ok r =>
            refine ⟨fun a h => ?_, fun e h => (by cases h)⟩
            cases h
            rw [hs.1 _ _ h3]
            simp [Bind.bind, Run.bind, Pure.pure, Run.pure]

theorem answer_completions (o : Opts) (l : Loaded) (fuel : Nat) (c : Completers) (key : List UInt8) : answer o l fuel c key =
    match l.guide with
    | none => do
      let hits ← queryPrefixes l.dict key
      return ({ query := key, rank := none, hits := hits.map (fun e => (e.1, Int.ofNat e.2)) }, c)
    | some g => do
      let rank ← queryRank l g key
      let r ← completions o l g fuel c key
      return ({ query := key, rank := rank, hits := r.1 }, r.2) := by
  unfold answer completions
  cases l.guide with
  | none => rfl
  | some g =>
    simp only
    congr 1
    funext rank
    cases l.dict.followString key l.dict.root with
    | error e => rfl
    | ok r =>
      obtain ⟨ok, index, n⟩ := r
      cases ok with
      | false => rfl
      | true =>
        simp only [ok_bind', Bool.not_true, Bool.false_eq_true, if_false]
        cases o.ranked with
        | true =>
          simp only [if_true]
          cases RankedCompleter.start l.dict g c.ranked index with
          | error e => rfl
          | ok rc =>
            simp only [ok_bind']
            cases rankedLoop l.dict g key fuel rc <;> rfl
        | false =>
          simp only [Bool.false_eq_true, if_false]
          cases Completer.start g c.plain index with
          | error e => rfl
          | ok rc =>
            simp only [ok_bind']
            cases completeLoop l.dict g key fuel rc <;> rfl

/-- What follows the query in an answer. -/
def hitsText (a : Answer) : List UInt8 :=
  rankPart a.rank ++ a.hits.flatMap (fun e => hitText e.1 e.2)

theorem hitsRun_spec (o : Opts) (l : Loaded) (fuel : Nat) (c : Completers) (key : List UInt8) :
    Prints (hitsRun o l fuel c key) (answer o l fuel c key) (fun r => hitsText r.1) (·.2) := by
  rw [answer_completions]
  unfold hitsRun queryPrefixes Prints
  cases l.guide with
  | none =>
    have hs := prefixLoopRun_spec l.dict key key 0 l.dict.root
    simp only
    cases h1 : prefixLoop l.dict key key 0 l.dict.root with
    | error e' =>
      have := hs.2 _ h1
      refine ⟨fun a h => (by cases h), fun e h => ?_⟩
      cases h
      exact ⟨by rw [res_bind, this.1]; rfl, by rw [file_bind_error this.1, this.2]⟩
    | ok hits =>
      refine ⟨fun a h => ?_, fun e h => (by cases h)⟩
      cases h
      rw [hs.1 _ h1]
      simp [Bind.bind, Run.bind, Pure.pure, Run.pure, hitsText, rankPart, List.flatMap_map]
  | some g =>
    simp only
    cases h1 : queryRank l g key with
    | error e' => exact ⟨fun a h => (by cases h), fun e h => (by cases h; exact ⟨rfl, rfl⟩)⟩
    | ok rank =>
      have hs := completionsRun_spec o l g fuel c key
      have hp : printRank rank = ⟨rankPart rank, [], .ok ()⟩ := by cases rank <;> rfl
      simp only [ok_bind', lift, perform_ok_bind, hp]
      cases h2 : completions o l g fuel c key with
      | error e' =>
        have := hs.2 _ h2
        refine ⟨fun a h => (by cases h), fun e h => ?_⟩
        cases h
        exact ⟨by rw [res_bind]; exact this.1, by rw [file_bind rfl, this.2]; rfl⟩
      | ok r =>
        refine ⟨fun a h => ?_, fun e h => (by cases h)⟩
        cases h
        rw [hs.1 _ h2]
        simp [Bind.bind, Run.bind, hitsText]

/-- The run of one query. -/
theorem answerRun_spec (o : Opts) (l : Loaded) (fuel : Nat) (c : Completers) (key : List UInt8) :
    Prints (answerRun o l fuel c key) (answer o l fuel c key) (fun r => answerText r.1) (·.2) := by
  have hs := hitsRun_spec o l fuel c key
  have hq : ∀ a c', answer o l fuel c key = .ok (a, c') → a.query = key := by
    intro a c' h
    rw [answer_completions] at h
    revert h
    cases l.guide with
    | none =>
      simp only
      cases queryPrefixes l.dict key with
      | error e => intro h; cases h
      | ok r => intro h; cases h; rfl
    | some g =>
      simp only
      cases queryRank l g key with
      | error e => intro h; cases h
      | ok r =>
        simp only [ok_bind']
        cases completions o l g fuel c key with
        | error e => intro h; cases h
        | ok r => intro h; cases h; rfl
  unfold answerRun
  simp only [print_bind]
  refine ⟨fun a h => ?_, fun e h => ?_⟩
  · obtain ⟨a, c'⟩ := a
    rw [hs.1 _ h]
    simp [Bind.bind, Run.bind, Pure.pure, Run.pure, answerText, hitsText, hq _ _ h]
  · have := hs.2 _ h
    exact ⟨by rw [res_bind, this.1]; rfl, by simp only; rw [file_bind_error this.1, this.2]⟩

theorem answersRun_spec (o : Opts) (l : Loaded) (fuel : Nat) : ∀ (c : Completers) (qs : List (List UInt8)),
    Prints (answersRun o l fuel c qs) (answers o l fuel c qs) (fun as => as.flatMap answerText) (fun _ => ())
  | c, [] => ⟨fun a h => by cases h; rfl, fun e h => by cases h⟩
  | c, q :: qs => by
    have hs := answerRun_spec o l fuel c q
    unfold answersRun answers Prints
    cases h1 : answer o l fuel c q with
    | error e' =>
      have := hs.2 _ h1
      refine ⟨fun a h => (by cases h), fun e h => ?_⟩
      cases h
      exact ⟨by rw [res_bind, this.1]; rfl, by rw [file_bind_error this.1, this.2]⟩
    | ok r =>
      obtain ⟨a, c'⟩ := r
      have ih := answersRun_spec o l fuel c' qs
      have hx := hs.1 _ h1
      simp only [ok_bind']
      cases h2 : answers o l fuel c' qs with
      | error e' =>
        have := ih.2 _ h2
        refine ⟨fun a h => (by cases h), fun e h => ?_⟩
        cases h
        exact ⟨by rw [hx, res_bind]; exact this.1, by rw [file_bind (by rw [hx]), hx]; exact this.2⟩
      | ok r =>
        refine ⟨fun a h => ?_, fun e h => (by cases h)⟩
        cases h
        rw [hx]
        simp only [Bind.bind, Run.bind]
        rw [ih.1 _ h2]
        rfl

theorem listRun_spec (l : Loaded) (g : Guide) (x : Index) : ∀ (n i : Nat),
    Prints (listRun l g x (List.range' i n)) ((List.range' i n).mapM (fun i => Indexer.indexToString l.dict g x (u32 i))) (listText i) (fun _ => ())
  | 0, i => ⟨fun a h => by cases h; rfl, fun e h => by cases h⟩
  | n + 1, i => by
    have ih := listRun_spec l g x n (i + 1)
    rw [List.range'_succ]
    simp only [List.mapM_cons, listRun]
    cases h1 : Indexer.indexToString l.dict g x (u32 i) with
    | error e' => exact ⟨fun a h => (by cases h), fun e h => (by cases h; exact ⟨rfl, rfl⟩)⟩
    | ok k =>
      simp only [ok_bind', lift, perform_ok_bind, print_bind]
      cases h2 : (List.range' (i + 1) n).mapM (fun i => Indexer.indexToString l.dict g x (u32 i)) with
      | error e' =>
        refine ⟨fun a h => (by cases h), fun e h => ?_⟩
        cases h
        exact ih.2 _ h2
      | ok ks =>
        refine ⟨fun a h => ?_, fun e h => (by cases h)⟩
        cases h
        rw [ih.1 _ h2]
        simp [listText]

theorem mapM_length {α β : Type} {f : α → Go β} : ∀ {l : List α} {r : List β}, l.mapM f = .ok r → r.length = l.length
  | [], r, h => by cases h; rfl
  | a :: l, r, h => by
    rw [List.mapM_cons] at h
    cases h1 : f a with
    | error e => rw [h1] at h; cases h
    | ok b =>
      cases h2 : l.mapM f with
      | error e => rw [h1, ok_bind', h2] at h; cases h
      | ok bs =>
        rw [h1, ok_bind', h2] at h
        cases h
        simp [mapM_length h2]

theorem totalsRun_spec (o : Opts) (l : Loaded) : Prints (totalsRun o l) (totals o l) totalsText (fun _ => ()) := by
  unfold totalsRun totals
  cases o.index with
  | false => exact ⟨fun a h => by cases h; rfl, fun e h => by cases h⟩
  | true =>
    simp only [if_true]
    cases l.guide with
    | none => exact ⟨fun a h => (by cases h), fun e h => (by cases h; exact ⟨rfl, rfl⟩)⟩
    | some g =>
      cases l.index with
      | none => exact ⟨fun a h => (by cases h), fun e h => (by cases h; exact ⟨rfl, rfl⟩)⟩
      | some x =>
        simp only
        cases h1 : Indexer.totalCount x with
        | error e' => exact ⟨fun a h => (by cases h), fun e h => (by cases h; exact ⟨rfl, rfl⟩)⟩
        | ok n =>
          have ih := listRun_spec l g x n 0
          simp only [ok_bind', lift, perform_ok_bind, stat_bind, List.range_eq_range']
          cases h2 : (List.range' 0 n).mapM (fun i => Indexer.indexToString l.dict g x (u32 i)) with
          | error e' =>
            refine ⟨fun a h => (by cases h), fun e h => ?_⟩
            cases h
            exact ih.2 _ h2
          | ok ks =>
            refine ⟨fun a h => ?_, fun e h => (by cases h)⟩
            cases h
            rw [ih.1 _ h2]
            have := mapM_length h2
            rw [List.length_range'] at this
            subst this
            rfl

/-- The run of a query: what is printed and how it ends. -/
theorem queryRun_spec (o : Opts) (fuel : Nat) (dictionary lexicon : List UInt8) :
    (∀ as t, mainQuery o fuel dictionary lexicon = .ok (as, t) →
      queryRun o fuel dictionary lexicon = ⟨as.flatMap answerText ++ totalsText t, [], .ok ()⟩) ∧
    ∀ e, mainQuery o fuel dictionary lexicon = .error e → (queryRun o fuel dictionary lexicon).res = .error e ∧ (queryRun o fuel dictionary lexicon).file = [] := by
  unfold queryRun mainQuery handleLoad
  cases h1 : load o dictionary with
  | error e' => exact ⟨fun as t h => (by cases h), fun e h => (by cases h; exact ⟨rfl, rfl⟩)⟩
  | ok l =>
    have ha := answersRun_spec o l fuel Completers.new (scanLines lexicon)
    have ht := totalsRun_spec o l
    simp only [ok_bind', perform_ok_bind]
    cases h2 : answers o l fuel Completers.new (scanLines lexicon) with
    | error e' =>
      have := ha.2 _ h2
      refine ⟨fun as t h => (by cases h), fun e h => ?_⟩
      cases h
      exact ⟨by rw [res_bind, this.1]; rfl, by rw [file_bind_error this.1, this.2]⟩
    | ok as =>
      rw [ha.1 _ h2]
      cases h3 : totals o l with
      | error e' =>
        have := ht.2 _ h3
        refine ⟨fun as t h => (by cases h), fun e h => ?_⟩
        cases h
        exact ⟨by rw [res_bind]; exact this.1, by rw [file_bind rfl, this.2]; rfl⟩
      | ok t =>
        refine ⟨fun as' t' h => ?_, fun e h => (by cases h)⟩
        cases h
        simp only [Bind.bind, Run.bind]
        rw [ht.1 _ h3]
        rfl

end Dawg.Tool
