import Verif.Proof.Output
import Verif.Props.Canonical
/-! # C66–C69: what dawgtool prints and writes -/
namespace Dawg.Props
open Dawg Dawg.Spec Dawg.Client Dawg.Abs Dawg.Dict Dawg.Guided Dawg.Tool
attribute [-simp] List.length_flatten

/-! ## C66: a build that fails -/

/-- The full claim C66: a build that stops with an error leaves the dictionary file as it was. -/
def C66_statement : Prop := ∀ (ratio : Nat → Nat → List UInt8) (sorter : LineSorter) (linkSorter : Sorter) (grow : Nat → Nat), StableSort sorter → StableSort linkSorter →
  ∀ (o : Opts) (fuel : Nat) (lexicon old : List UInt8), (∃ e, (mainTool ratio sorter linkSorter grow o true fuel (some lexicon) (some old)).res = .error e) →
    (mainTool ratio sorter linkSorter grow o true fuel (some lexicon) (some old)).dict = some old

/-- **C66 is false**: with a lexicon that is not in order and without `-s`, the tool stops with an error; the dictionary file is empty then, whatever it contained before. -/
theorem C66_failed_build_false : ¬ C66_statement ∧ ∀ (ratio : Nat → Nat → List UInt8) (sorter : LineSorter) (linkSorter : Sorter) (grow : Nat → Nat) (fuel : Nat) (old : List UInt8),
    mainTool ratio sorter linkSorter grow {} true fuel (some "b\na\n".toUTF8.toList) (some old) = ⟨[], some [], .error .fatal⟩ := by
  have key : ∀ (ratio : Nat → Nat → List UInt8) (sorter : LineSorter) (linkSorter : Sorter) (grow : Nat → Nat) (fuel : Nat) (old : List UInt8),
      mainTool ratio sorter linkSorter grow {} true fuel (some "b\na\n".toUTF8.toList) (some old) = ⟨[], some [], .error .fatal⟩ := by
    intro ratio sorter linkSorter grow fuel old
    have e1 : scanLines "b\na\n".toUTF8.toList = [[98], [97]] := by decide +kernel
    have e2 : (processLinesRun {} [[98], [97]] Builder.new 0).out = [] := by decide +kernel
    have e3 : processLines {} [[98], [97]] Builder.new = .error .fatal := by decide +kernel
    have e4 := processLinesRun_res {} [[98], [97]] Builder.new 0
    rw [e3] at e4
    have e5 := processLinesRun_file {} [[98], [97]] Builder.new 0
    simp only [mainTool, if_true, buildRun, e1]
    have e6 : orderLines sorter grow {} [[98], [97]] = [[98], [97]] := rfl
    rw [e6, out_bind_error e4, file_bind_error e4, res_bind, e4, e2, e5]
    rfl
  refine ⟨fun h => ?_, key⟩
  have := h (fun _ _ => []) (fun less l => l.mergeSort (fun a b => !less b a)) insertionSort (fun n => n) (exists_stableSort _) insertionSort_stableSort {} 0
    "b\na\n".toUTF8.toList [1] (by rw [key]; exact ⟨_, rfl⟩)
  rw [key] at this
  cases this

/-- What the tool has built when it has built a Dawg from NUL-free keys. -/
theorem history_of_dawg {sorter : LineSorter} (hs : StableSort sorter) {grow : Nat → Nat} {o : Opts} {lines : List (List UInt8)} {d : Dawg} (h : buildDawg sorter grow o lines = .ok d)
    (hadm : Admissible (entries o lines)) : ∃ hist oks b, Client.build 256 hist = .ok (oks, b, d) ∧ (∀ ok ∈ verdicts [] hist, ok = true) ∧ Admissible hist ∧ hist.Perm (entries o lines) := by
  obtain ⟨ls, p1, oks, b, p2, p3⟩ := buildDawg_history hs h
  have hp := p1.map (entry o)
  have hadm' : Admissible (ls.map (entry o)) := ⟨fun e he => hadm.nulFree e (hp.mem_iff.1 he), by rw [(hp.map _).sum_nat]; exact hadm.small⟩
  refine ⟨_, oks, b, p2, ?_, hadm', hp⟩
  obtain ⟨b', d', h3⟩ := C07_build_returns 256 (by omega) (by omega) _ hadm'
  rw [p2] at h3
  simp only [Except.ok.injEq, Prod.mk.injEq] at h3
  rwa [h3.1] at p3

theorem made_of_built {hist oks b d D unused} (p3 : Admissible hist) (p1 : Client.build 256 hist = .ok (oks, b, d)) (k1 : lift d.buildWithUnused = .ok (some (D, unused))) : Made hist d D := by
  refine ⟨p3, 256, oks, b, by omega, by omega, p1, ?_⟩
  obtain ⟨oks', b', d', t1, t2⟩ := C14_build_total 256 (by omega) (by omega) hist p3
  rw [p1] at t1
  cases t1
  rcases t2 with ⟨D', num, t2, t3⟩ | ⟨_, t3, _⟩
  · rw [t3] at k1
    cases k1
    exact t2
  · rw [t3] at k1
    cases k1

theorem guideFor_some {hist d D} {linkSorter : Sorter} (h : Made hist d D) (hs : StableSort linkSorter) (o : Opts) :
    (guideFor linkSorter o d D = .ok none ∧ o.ranked = false ∧ o.guide = false) ∨
    ∃ g, guideFor linkSorter o d D = .ok (some (some g)) ∧ (o.ranked || o.guide) = true ∧ g.units.length < 4294967296 ∧ g.size = if accepted hist = [] then 0 else D.size := by
  have hD := Made.units32 h
  have hDs : D.size = D.units.length := rfl
  obtain ⟨g1, r1, r2⟩ := C27_ranked_guide h hs.perm (fun lhs rhs => decide (lhs < rhs))
  have r1 : buildRankedGuide linkSorter d D = .ok (some g1) := r1
  obtain ⟨g2, p1, p2, _⟩ := C26_guide h
  have hsz : ∀ g : Guide, g.size = (if accepted hist = [] then 0 else D.size) → g.units.length < 4294967296 := by
    intro g hg
    have : g.units.length = g.size := rfl
    rw [this, hg]
    have := hD.1
    split <;> omega
  unfold guideFor
  cases hr : o.ranked with
  | true => exact .inr ⟨g1, by simp only [if_true, r1]; rfl, rfl, hsz g1 r2, r2⟩
  | false =>
    cases hg : o.guide with
    | true => exact .inr ⟨g2, by simp only [if_true, p1]; rfl, rfl, hsz g2 p2, p2⟩
    | false => exact .inl ⟨rfl, rfl, rfl⟩

/-- **C66**, what holds instead, for lexicons of NUL-free keys (below 1 GB): when the tool ends normally, the file is complete and can be loaded; when it stops with an error,
every later run of the tool with this file and the same options stops with an error before it answers anything. -/
theorem C66_failed_build_partial (ratio : Nat → Nat → List UInt8) {sorter : LineSorter} (hs : StableSort sorter) {linkSorter : Sorter} (hls : StableSort linkSorter) (grow : Nat → Nat)
    (o : Opts) (fuel : Nat) (lexicon : List UInt8) (old : Option (List UInt8)) (hadm : Admissible (entries o (scanLines lexicon))) :
    ∃ file, (mainTool ratio sorter linkSorter grow o true fuel (some lexicon) old).dict = some file ∧
      (((mainTool ratio sorter linkSorter grow o true fuel (some lexicon) old).res = .ok () ∧ mainBuild sorter linkSorter grow o lexicon = .ok file ∧ ∃ l, load o file = .ok l) ∨
       (∃ e, (mainTool ratio sorter linkSorter grow o true fuel (some lexicon) old).res = .error e ∧ mainBuild sorter linkSorter grow o lexicon = .error e) ∧
        ∀ fuel' queries, mainTool ratio sorter linkSorter grow o false fuel' (some queries) (some file) = ⟨[], some file, .error .fatal⟩) := by
  have hload : ∀ {file : List UInt8}, load o file = .error .fatal → ∀ fuel' queries,
      mainTool ratio sorter linkSorter grow o false fuel' (some queries) (some file) = ⟨[], some file, .error .fatal⟩ := by
    intro file h fuel' queries
    simp only [mainTool, queryRun, h, Bool.false_eq_true, if_false]
    rfl
  have hempty : load o [] = .error .fatal := rfl
  refine ⟨_, rfl, ?_⟩
  simp only [show ∀ l : List UInt8, mainTool ratio sorter linkSorter grow o true fuel (some l) old =
    ⟨(buildRun ratio sorter linkSorter grow o l).out, some (buildRun ratio sorter linkSorter grow o l).file, (buildRun ratio sorter linkSorter grow o l).res⟩ from fun _ => rfl]
  rcases buildRun_cases ratio sorter linkSorter grow o lexicon with ⟨e, h1, h2, h3, h4⟩ | ⟨d, h1, h2, h3⟩
  · exact .inr ⟨⟨e, h2, h4⟩, hload (by rw [h3]; exact hempty)⟩
  · obtain ⟨hist, oks, b, p1, _, p3, _⟩ := history_of_dawg hs h1 hadm
    rw [h3, h2]
    rcases buildFileRun_cases ratio linkSorter o d with ⟨e, k1, k2, k3⟩ | ⟨k1, k2, k3⟩ | ⟨D, unused, k1, k2⟩
    · exact .inr ⟨⟨e, by rw [k2]; rfl, k3⟩, hload (by rw [k2]; exact hempty)⟩
    · exact .inr ⟨⟨_, by rw [k2]; rfl, k3⟩, hload (by rw [k2]; exact hempty)⟩
    · have hM : Made hist d D := made_of_built p3 p1 k1
      rcases k2 with ⟨e, k3, _⟩ | ⟨k3, k4, k5⟩ | ⟨g, k3, k4⟩
      · rcases guideFor_some hM hls o with ⟨g1, _⟩ | ⟨g, g1, _⟩
        · rw [g1] at k3; rcases k3 with k3 | ⟨k3, _⟩ <;> cases k3
        · rw [g1] at k3; rcases k3 with k3 | ⟨k3, _⟩ <;> cases k3
      · obtain ⟨l, hl, _⟩ := C45_tool_roundtrip hM hls o k5
        exact .inl ⟨by rw [k4], by rw [k4]; exact k5, l, by rw [k4]; exact hl⟩
      · rcases k4 with ⟨k4, k5, k6⟩ | ⟨k4, e, _, k5, k6⟩ | ⟨k4, x, _, k5, k6⟩
        · obtain ⟨l, hl, _⟩ := C45_tool_roundtrip hM hls o k6
          exact .inl ⟨by rw [k5], by rw [k5]; exact k6, l, by rw [k5]; exact hl⟩
        · rcases guideFor_some hM hls o with ⟨g1, _⟩ | ⟨g', g1, g2, g3, _⟩
          · rw [g1] at k3; cases k3
          · rw [g1] at k3
            cases k3
            refine .inr ⟨⟨e, by rw [k5], k6⟩, hload ?_⟩
            rw [k5]
            have q1 := (C19_dictionary_roundtrip D D (Made.units32 hM) g.write).2
            have q2 := (C19_guide_roundtrip g g g3 []).2
            rw [List.append_nil] at q2
            unfold load
            rw [q1]
            simp only [g2, if_true, q2, k4]
            rfl
        · obtain ⟨l, hl, _⟩ := C45_tool_roundtrip hM hls o k6
          exact .inl ⟨by rw [k5], by rw [k5]; exact k6, l, by rw [k5]; exact hl⟩

/-- The tool stops at the second line, and a query with the file that it leaves stops at once. -/
example : mainTool (fun _ _ => []) (fun less l => l.mergeSort (fun a b => !less b a)) insertionSort (fun n => n) {} false 9 (some [97]) (some []) = ⟨[], some [], .error .fatal⟩ := by
  obtain ⟨file, h1, h2⟩ := C66_failed_build_partial (fun _ _ => []) (sorter := fun less l => l.mergeSort (fun a b => !less b a)) (exists_stableSort _) insertionSort_stableSort
    (fun n => n) {} 9 "b\na\n".toUTF8.toList none ⟨by decide +kernel, by decide +kernel⟩
  have h3 := C66_failed_build_false.2 (fun _ _ => []) (fun less l => l.mergeSort (fun a b => !less b a)) insertionSort (fun n => n) 9 []
  have h4 : ∀ old, mainTool (fun _ _ => []) (fun less l => l.mergeSort (fun a b => !less b a)) insertionSort (fun n => n) {} true 9 (some "b\na\n".toUTF8.toList) old =
    mainTool (fun _ _ => []) (fun less l => l.mergeSort (fun a b => !less b a)) insertionSort (fun n => n) {} true 9 (some "b\na\n".toUTF8.toList) (some []) := fun _ => rfl
  rw [h4, h3] at h1 h2
  cases h1
  rcases h2 with ⟨h2, _⟩ | ⟨_, h2⟩
  · cases h2
  · exact h2 9 [97]

/-! ## C67: the statistics of a build -/

/-- A build that ends normally. -/
theorem buildRun_ok {sorter : LineSorter} {linkSorter : Sorter} {grow : Nat → Nat} {o : Opts} {lexicon file : List UInt8} (h : mainBuild sorter linkSorter grow o lexicon = .ok file)
    (ratio : Nat → Nat → List UInt8) : ∃ d, buildDawg sorter grow o (scanLines lexicon) = .ok d ∧ buildFile linkSorter o d = .ok file ∧
      (buildFileRun ratio linkSorter o d).res = .ok () ∧ (buildFileRun ratio linkSorter o d).file = file ∧ buildRun ratio sorter linkSorter grow o lexicon =
        ⟨linesText o.tab (orderLines sorter grow o (scanLines lexicon)) 0 ++
          (dawgText (lineCount (orderLines sorter grow o (scanLines lexicon))) d ++ (buildFileRun ratio linkSorter o d).out), file, .ok ()⟩ := by
  rcases buildRun_cases ratio sorter linkSorter grow o lexicon with ⟨e, _, _, _, h4⟩ | ⟨d, h1, h2, h3⟩
  · rw [h] at h4; cases h4
  · rw [h] at h2
    have key : (buildFileRun ratio linkSorter o d).res = .ok () ∧ (buildFileRun ratio linkSorter o d).file = file := by
      rcases buildFileRun_cases ratio linkSorter o d with ⟨e, k1, k2, k3⟩ | ⟨k1, k2, k3⟩ | ⟨D, unused, k1, k2⟩
      · rw [k3] at h2; cases h2
      · rw [k3] at h2; cases h2
      · rcases k2 with ⟨e, k3, _, k4⟩ | ⟨k3, k4, k5⟩ | ⟨g, k3, k4⟩
        · rw [k4] at h2; cases h2
        · rw [k5] at h2; cases h2
          rw [k4]; exact ⟨rfl, rfl⟩
        · rcases k4 with ⟨k4, k5, k6⟩ | ⟨k4, e, _, k5, k6⟩ | ⟨k4, x, _, k5, k6⟩
          · rw [k6] at h2; cases h2
            rw [k5]; exact ⟨rfl, rfl⟩
          · rw [k6] at h2; cases h2
          · rw [k6] at h2; cases h2
            rw [k5]; exact ⟨rfl, rfl⟩
    refine ⟨d, h1, h2.symm, key.1, key.2, ?_⟩
    rw [h3, key.1, key.2]

theorem lineCount_order {sorter : LineSorter} (hs : StableSort sorter) (grow : Nat → Nat) (o : Opts) (lines : List (List UInt8)) :
    lineCount (orderLines sorter grow o lines) = (entries o lines).length := by
  unfold orderLines lineCount entries
  rw [List.length_map, ← List.countP_eq_length_filter]
  have h : ∀ l : List (List UInt8), l.countP (fun l => decide (l ≠ [])) = l.countP (fun l => decide (l.length ≠ 0)) := by
    intro l
    congr 1
    funext x
    cases x <;> rfl
  rw [h]
  split
  · exact (hs.perm _ _).countP_eq _
  · rfl

/-- The full claim C67: without `-t`, and for less than 10000 lines, a build begins its output with the number of keys in the dictionary. -/
def C67_statement : Prop := ∀ (ratio : Nat → Nat → List UInt8) (sorter : LineSorter) (linkSorter : Sorter) (grow : Nat → Nat), StableSort sorter → StableSort linkSorter →
  ∀ (o : Opts) (lexicon file : List UInt8), o.tab = false → (scanLines lexicon).length < 10000 → Admissible (entries o (scanLines lexicon)) →
    mainBuild sorter linkSorter grow o lexicon = .ok file → ∀ n, HasCard (fun k => ∃ e ∈ entries o (scanLines lexicon), e.1 = k) n →
      ascii "no. keys: " ++ Tool.decimal n ++ [10] <+: (buildRun ratio sorter linkSorter grow o lexicon).out

/-- **C67 is false**: for the lexicon "a", "a" the tool prints 2 keys; there is one. -/
theorem C67_key_count_false : ¬ C67_statement := by
  intro h
  have e1 : scanLines "a\na\n".toUTF8.toList = [[97], [97]] := by decide +kernel
  obtain ⟨file, h1⟩ := unsorted_ok (o := {}) (lexicon := "a\na\n".toUTF8.toList) rfl rfl (fun l _ _ => ⟨_, rfl⟩) (by rw [e1]; decide) (by rw [e1]; decide) (by rw [e1]; decide)
    (fun less l => l.mergeSort (fun a b => !less b a)) insertionSort_stableSort (fun n => n)
  have h2 := h (fun _ _ => []) (fun less l => l.mergeSort (fun a b => !less b a)) insertionSort (fun n => n) (exists_stableSort _) insertionSort_stableSort {} _ file rfl (by rw [e1]; decide)
    (by rw [e1]; exact ⟨by decide, by decide⟩) h1 1 ⟨[[97]], by decide, by rw [e1]; intro x; simp [entries, entry, parseLine, keyBytes, eq_comm], rfl⟩
  obtain ⟨d, _, _, _, _, h3⟩ := buildRun_ok h1 (fun _ _ => [])
  rw [h3, e1] at h2
  have h4 : statText "no. keys" ((2 : Nat) : Int) <+: linesText false [[97], [97]] 0 ++ (dawgText 2 d ++ (buildFileRun (fun _ _ => []) insertionSort {} d).out) := by
    have : linesText false [[97], [97]] 0 = [] := rfl
    rw [this, List.nil_append]
    unfold dawgText
    simp only [List.append_assoc]
    exact List.prefix_append _ _
  have h5 := List.prefix_of_prefix_length_le h4 h2 (by rw [Tool.decimal, if_pos (by omega)]; unfold statText number Tool.decimal; decide)
  have h6 := h5.eq_of_length (by rw [Tool.decimal, if_pos (by omega)]; unfold statText number Tool.decimal; decide)
  rw [Tool.decimal, if_pos (by omega)] at h6
  unfold statText number Tool.decimal at h6
  revert h6
  decide

/-- `x` and `y` have the same length, when the keys in `y` are distinct. -/
theorem accepted_length {hist : List (Key × Int)} (h : ∀ ok ∈ verdicts [] hist, ok = true) (hd : (hist.map (·.1)).Nodup) : (accepted hist).length = hist.length := by
  have h1 : ((accepted hist).map (·.1)).Nodup := by
    refine List.Pairwise.map _ (fun a b (hab : a.1 < b.1) => ?_) (accepted_sorted hist)
    intro hc
    rw [hc] at hab
    exact List.lt_irrefl _ hab
  have h2 : ((accepted hist).map (·.1)).Perm (hist.map (·.1)) := (List.perm_ext_iff_of_nodup h1 hd).2 fun k => by
    simp only [List.mem_map]
    exact keys_accepted h k
  simpa using h2.length_eq

theorem index_size {D : Dictionary} {g : Guide} {x : Index} (h : buildIndex D g = .ok (some x)) : x.size = D.size := by
  unfold buildIndex IndexBuilder.build at h
  obtain ⟨⟨us, ok⟩, h1, h2⟩ := bind_eq_ok.1 h
  obtain ⟨a1, a2⟩ := buildIndices_units _ _ _ _ _ (by
    intro x hx
    have := List.eq_of_mem_replicate hx
    omega) h1
  cases ok with
  | false => simp [pure_eq_ok] at h2
  | true =>
    simp only [if_true, pure_eq_ok, Except.ok.injEq, Option.some.injEq] at h2
    subst h2
    show us.length = _
    rw [a1, List.length_replicate]

/-- The line with the number of unused elements. -/
def unusedText (ratio : Nat → Nat → List UInt8) (unused size : Nat) : List UInt8 :=
  ascii "no. unused elements: " ++ number unused ++ ascii " (" ++ ratio unused size ++ ascii "%)" ++ [10]

/-- **C67**, what holds instead (NUL-free keys): a build that ends normally prints, after warnings and progress, the number of non-empty lines, which is the number of keys when no
key occurs twice, the number of states and transitions of the minimal automaton and how many nodes and edges of the trie they save, the number of units of the
dictionary and of those that no key uses, and the sizes of what is written. -/
theorem C67_statistics_partial (ratio : Nat → Nat → List UInt8) {sorter : LineSorter} (hs : StableSort sorter) {linkSorter : Sorter} (hls : StableSort linkSorter) (grow : Nat → Nat)
    (o : Opts) {lexicon file : List UInt8} (hadm : Admissible (entries o (scanLines lexicon))) (h : mainBuild sorter linkSorter grow o lexicon = .ok file) :
    ∃ hist d D, Made hist d D ∧ hist.Perm (entries o (scanLines lexicon)) ∧ (((entries o (scanLines lexicon)).map (·.1)).Nodup → (accepted hist).length = (entries o (scanLines lexicon)).length) ∧
    ∃ states transitions nodes edges merging unused : Nat, HasCard (fun L => L ≠ [] ∧ ∃ p, L = residual (words (accepted hist)) p) states ∧
      HasCard (fun x : List (Key × Nat) × UInt8 => x.1 ≠ [] ∧ (∃ p, x.1 = residual (words (accepted hist)) p) ∧ ∃ e ∈ x.1, [x.2] <+: e.1 ++ [0]) transitions ∧
      HasCard (TrieNode (accepted hist)) nodes ∧ HasCard (TrieEdge (accepted hist)) edges ∧
      HasCard (fun i => i < d.size ∧ d.isMerging i = .ok true) merging ∧ HasCard (fun i => i < D.size ∧ i ≠ D.root ∧ ∀ e ∈ accepted hist, ¬ PartOf D e.1 i) unused ∧
      (buildRun ratio sorter linkSorter grow o lexicon).out =
        linesText o.tab (orderLines sorter grow o (scanLines lexicon)) 0 ++
        (statText "no. keys" (entries o (scanLines lexicon)).length ++
         statText "no. states" ((states + 1 : Nat) : Int) ++
         statText "no. transitions" transitions ++
         statText "no. merged states" ((nodes : Int) - (states + 1)) ++
         statText "no. merging states" merging ++
         statText "no. merged transitions" ((edges : Int) - transitions)) ++
        (statText "no. elements" D.size ++ (unusedText ratio unused D.size ++ statText "dictionary size" ((4 * D.size : Nat) : Int))) ++
        (if o.ranked || o.guide then
          statText "no. units" ((if accepted hist = [] then 0 else D.size : Nat) : Int) ++ statText "guide size" ((2 * if accepted hist = [] then 0 else D.size : Nat) : Int) ++
          (if o.index then statText "no. index units" D.size ++ statText "index size" ((4 * D.size : Nat) : Int) else [])
         else []) := by
  obtain ⟨d, h1, h2, h3, h4, h5⟩ := buildRun_ok h ratio
  obtain ⟨hist, oks, b, p1, p2, p3, p4⟩ := history_of_dawg hs h1 hadm
  have hout : ∃ D unused, Made hist d D ∧ d.buildWithUnused = .ok (some (D, unused)) ∧ (buildFileRun ratio linkSorter o d).out = dictText ratio D unused ++
      (if o.ranked || o.guide then
          statText "no. units" ((if accepted hist = [] then 0 else D.size : Nat) : Int) ++ statText "guide size" ((2 * if accepted hist = [] then 0 else D.size : Nat) : Int) ++
          (if o.index then statText "no. index units" D.size ++ statText "index size" ((4 * D.size : Nat) : Int) else [])
         else []) := by
    rcases buildFileRun_cases ratio linkSorter o d with ⟨e, k1, k2, k3⟩ | ⟨k1, k2, k3⟩ | ⟨D, unused, k1, k2⟩
    · rw [k3] at h2; cases h2
    · rw [k3] at h2; cases h2
    · have hM : Made hist d D := made_of_built p3 p1 k1
      have k1' : d.buildWithUnused = .ok (some (D, unused)) := by
        revert k1
        cases d.buildWithUnused with
        | error e => intro k1; cases k1
        | ok r => intro k1; cases k1; rfl
      refine ⟨D, unused, hM, k1', ?_⟩
      rcases k2 with ⟨e, k3, _, k4⟩ | ⟨k3, k4, k5⟩ | ⟨g, k3, k4⟩
      · rw [k4] at h2; cases h2
      · rcases guideFor_some hM hls o with ⟨_, g2, g3⟩ | ⟨g, g1, _⟩
        · rw [k4, g2, g3]; simp
        · rw [g1] at k3; cases k3
      · rcases guideFor_some hM hls o with ⟨g1, _⟩ | ⟨g', g1, g2, _, g3⟩
        · rw [g1] at k3; cases k3
        · rw [g1] at k3
          cases k3
          have hgt : guideText g = statText "no. units" ((if accepted hist = [] then 0 else D.size : Nat) : Int) ++ statText "guide size" ((2 * if accepted hist = [] then 0 else D.size : Nat) : Int) := by
            rw [← g3]; rfl
          rcases k4 with ⟨k4, k5, k6⟩ | ⟨k4, e, _, k5, k6⟩ | ⟨k4, x, k7, k5, k6⟩
          · rw [k5, g2, k4, hgt]; simp
          · rw [k6] at h2; cases h2
          · have hx : x.size = D.size := by
              have : buildIndex D g = .ok (some x) := by
                revert k7
                cases buildIndex D g with
                | error e => intro k1; cases k1
                | ok r => intro k1; cases k1; rfl
              exact index_size this
            have hxt : indexText x = statText "no. index units" D.size ++ statText "index size" ((4 * D.size : Nat) : Int) := by
              rw [← hx]; rfl
            rw [k5, g2, k4, hgt, hxt]; simp
  obtain ⟨D, unused, hM, hu, ho⟩ := hout
  obtain ⟨states, s1, s2, _⟩ := C05_number_of_states 256 (by omega) (by omega) hist p3 _ _ _ p1
  obtain ⟨edges, nodes, t1, t2, t3, t4⟩ := C06_trie_counts 256 (by omega) (by omega) hist p3 _ _ _ p1
  have m1 := C06_number_of_merging 256 (by omega) (by omega) hist p3 _ _ _ p1
  obtain ⟨unused', u1, u2, _⟩ := C15_unused_exact hM
  rw [hu] at u1
  cases u1
  obtain ⟨transitions, r1, r2⟩ := C06_number_of_transitions 256 (by omega) (by omega) hist p3 _ _ _ p1
  refine ⟨hist, d, D, hM, p4, fun hn => ?_, states, transitions, nodes, edges, d.numOfMergingStates, unused, s2, r2, t2, t1, m1, u2, ?_⟩
  · rw [accepted_length p2 ((p4.map _).nodup_iff.2 hn), p4.length_eq]
  · rw [h5]
    simp only
    rw [ho, lineCount_order hs]
    have q1 : (nodes : Int) - (states + 1) = d.numOfMergedStates := by omega
    have q2 : (edges : Int) - transitions = d.numOfMergedTransitions := by omega
    have q3 : states + 1 = d.numOfStates := by omega
    rw [q1, q2, q3, ← r1]
    simp only [dawgText, dictText, unusedText, Dictionary.totalSize, List.append_assoc]

/-- Two equal lines: the output begins with "no. keys: 2". -/
example (ratio : Nat → Nat → List UInt8) : ∃ file, mainBuild (fun less l => l.mergeSort (fun a b => !less b a)) insertionSort (fun n => n) {} "a\na\n".toUTF8.toList = .ok file ∧
    "no. keys: 2\nno. states: ".toUTF8.toList <+: (buildRun ratio (fun less l => l.mergeSort (fun a b => !less b a)) insertionSort (fun n => n) {} "a\na\n".toUTF8.toList).out := by
  have e1 : scanLines "a\na\n".toUTF8.toList = [[97], [97]] := by decide +kernel
  obtain ⟨file, h1⟩ := unsorted_ok (o := {}) (lexicon := "a\na\n".toUTF8.toList) rfl rfl (fun l _ _ => ⟨_, rfl⟩) (by rw [e1]; decide) (by rw [e1]; decide) (by rw [e1]; decide)
    (fun less l => l.mergeSort (fun a b => !less b a)) insertionSort_stableSort (fun n => n)
  obtain ⟨hist, d, D, _, _, _, states, _, _, _, _, _, _, _, _, _, _, _, h⟩ := C67_statistics_partial ratio (exists_stableSort _) insertionSort_stableSort (fun n => n) {}
    (by rw [e1]; exact ⟨by decide, by decide⟩) h1
  have e2 : statText "no. keys" ((entries {} (scanLines "a\na\n".toUTF8.toList)).length : Int) ++ ascii "no. states: " = "no. keys: 2\nno. states: ".toUTF8.toList := by
    rw [e1]
    unfold statText number
    rw [if_neg (by decide), show Int.natAbs ((entries {} [[97], [97]]).length : Int) = 2 from rfl, Tool.decimal, if_pos (by decide)]
    decide +kernel
  have e3 : ∀ v, statText "no. states" v = ascii "no. states: " ++ (number v ++ [10]) := by
    intro v
    unfold statText
    rw [show ascii "no. states" ++ ascii ": " = ascii "no. states: " by decide +kernel]
    simp
  rw [e1] at h
  have e4 : linesText false [[97], [97]] 0 = [] := rfl
  have e5 : orderLines (fun less l => l.mergeSort (fun a b => !less b a)) (fun n => n) {} [[97], [97]] = [[97], [97]] := rfl
  rw [e5, e4, e3, List.nil_append] at h
  rw [e1] at e2
  refine ⟨file, h1, ?_⟩
  rw [h, ← e2]
  simp only [List.append_assoc]
  exact (List.prefix_append_right_inj _).2 (List.prefix_append _ _)

/-! ## C68: one line per query -/

/-- The number of lines in a text. -/
def newlines (s : List UInt8) : Nat := s.count 10

/-- The full claim C68: without `-i`, the number of lines that a run prints is the number of queries. -/
def C68_statement : Prop := ∀ (sorter : LineSorter) (linkSorter : Sorter) (grow : Nat → Nat), StableSort sorter → StableSort linkSorter →
  ∀ (o : Opts) (lexicon file queries : List UInt8) (fuel : Nat), o.index = false → Admissible (entries o (scanLines lexicon)) → mainBuild sorter linkSorter grow o lexicon = .ok file →
    (queryRun o fuel file queries).res = .ok () → newlines (queryRun o fuel file queries).out = (scanLines queries).length

theorem decimal_digits : ∀ (n : Nat), ∀ b ∈ Tool.decimal n, 48 ≤ b ∧ b ≤ 57 := by
  intro n
  induction n using Nat.strongRecOn with
  | _ n ih =>
    intro b hb
    rw [Tool.decimal] at hb
    split at hb
    · next h =>
      simp only [List.mem_singleton] at hb
      subst hb
      have : ∀ m < 10, 48 ≤ UInt8.ofNat (48 + m) ∧ UInt8.ofNat (48 + m) ≤ 57 := by decide
      exact this n h
    · next h =>
      rcases List.mem_append.1 hb with hb | hb
      · exact ih (n / 10) (by omega) b hb
      · simp only [List.mem_singleton] at hb
        subst hb
        have : ∀ m < 10, 48 ≤ UInt8.ofNat (48 + m) ∧ UInt8.ofNat (48 + m) ≤ 57 := by decide
        exact this _ (Nat.mod_lt _ (by omega))

theorem number_newline (v : Int) : (10 : UInt8) ∉ number v := by
  have h : ∀ n, (10 : UInt8) ∉ Tool.decimal n := fun n hc => absurd (decimal_digits n 10 hc).1 (by decide)
  unfold number
  split
  · intro hc
    rcases List.mem_cons.1 hc with hc | hc
    · cases hc
    · exact h _ hc
  · exact h _

theorem hitText_newlines {k : List UInt8} (h : 10 ∉ k) (v : Int) : newlines (hitText k v) = 0 := by
  have h1 := number_newline v
  have h2 : ascii " = " = [32, 61, 32] := by decide
  have h3 : ascii ";" = [59] := by decide
  unfold newlines hitText
  rw [List.count_eq_zero, h2, h3]
  simp [h, h1]

theorem rankPart_newlines (r : Option Nat) : newlines (rankPart r) = 0 := by
  cases r with
  | none => rfl
  | some r =>
    have h1 := number_newline r
    show newlines (rankText r) = 0
    unfold rankText newlines
    rw [List.count_eq_zero]
    split
    · decide +kernel
    · split
      · decide +kernel
      · have h2 : ascii " (#" = [32, 40, 35] := by decide
        have h3 : ascii ")" = [41] := by decide
        rw [h2, h3]
        simp [h1]

theorem newlines_append (a b : List UInt8) : newlines (a ++ b) = newlines a + newlines b := List.count_append

theorem newlines_flatMap {α : Type} {f : α → List UInt8} {m : Nat} : ∀ {l : List α}, (∀ a ∈ l, newlines (f a) = m) → newlines (l.flatMap f) = m * l.length
  | [], _ => rfl
  | a :: l, h => by
    rw [List.flatMap_cons, newlines_append, h a List.mem_cons_self, newlines_flatMap (fun b hb => h b (List.mem_cons_of_mem _ hb)), List.length_cons, Nat.mul_add]
    omega

/-- An answer is one line, when neither the query nor a key in it contains a newline. -/
theorem answer_newlines {a : Answer} (h1 : 10 ∉ a.query) (h2 : ∀ e ∈ a.hits, 10 ∉ e.1) : newlines (answerText a) = 1 := by
  unfold answerText
  rw [newlines_append, newlines_append, newlines_append, newlines_append, rankPart_newlines, newlines_flatMap (fun e he => hitText_newlines (h2 e he) e.2)]
  have : newlines a.query = 0 := List.count_eq_zero.2 h1
  rw [this, Nat.zero_mul]
  decide

theorem dropCR_sub (l : List UInt8) : ∀ b ∈ dropCR l, b ∈ l := by
  intro b hb
  unfold dropCR at hb
  split at hb
  · exact (List.dropLast_sublist _).subset hb
  · exact hb

theorem scanLoop_newline : ∀ (bs cur : List UInt8), 10 ∉ cur → ∀ l ∈ scanLoop bs cur, 10 ∉ l
  | [], cur, h, l, hl => by
    unfold scanLoop at hl
    split at hl
    · cases hl
    · rw [List.mem_singleton] at hl
      subst hl
      exact fun hc => h (dropCR_sub _ _ hc)
  | b :: bs, cur, h, l, hl => by
    unfold scanLoop at hl
    split at hl
    · rcases List.mem_cons.1 hl with rfl | hl
      · exact fun hc => h (dropCR_sub _ _ hc)
      · exact scanLoop_newline bs [] (by simp) l hl
    · next hb =>
      split at hl
      · cases hl
      · exact scanLoop_newline bs _ (by simp [h, Ne.symm hb]) l hl

theorem prefixLoop_prefixes {d : Dictionary} {key : List UInt8} : ∀ {cs : List UInt8} {pos i : Nat} {hits}, prefixLoop d key cs pos i = .ok hits → ∀ e ∈ hits, e.1 <+: key
  | [], _, _, _, h => by cases h; simp
  | c :: cs, pos, i, hits, h => by
    unfold prefixLoop at h
    obtain ⟨r, h1, h2⟩ := bind_eq_ok.1 h
    cases r with
    | none => cases h2; simp
    | some j =>
      obtain ⟨rest, h3, h4⟩ := bind_eq_ok.1 h2
      obtain ⟨v, h5, h6⟩ := bind_eq_ok.1 h4
      have ih := prefixLoop_prefixes h3
      cases v with
      | false => cases h6; exact ih
      | true =>
        obtain ⟨w, h7, h8⟩ := bind_eq_ok.1 h6
        cases h8
        intro e he
        rcases List.mem_cons.1 he with rfl | he
        · exact List.take_prefix _ _
        · exact ih e he

theorem answers_all {o : Opts} {l : Loaded} {fuel : Nat} {P : Answer → Prop} : ∀ {qs : List (List UInt8)} {c : Completers} {as}, answers o l fuel c qs = .ok as →
    (∀ q ∈ qs, ∀ c a c', answer o l fuel c q = .ok (a, c') → P a) → as.length = qs.length ∧ ∀ a ∈ as, P a
  | [], _, _, h, _ => by cases h; simp
  | q :: qs, c, as, h, hp => by
    unfold answers at h
    obtain ⟨⟨a, c'⟩, h1, h2⟩ := bind_eq_ok.1 h
    obtain ⟨rest, h3, h4⟩ := bind_eq_ok.1 h2
    cases h4
    obtain ⟨i1, i2⟩ := answers_all h3 (fun q hq => hp q (List.mem_cons_of_mem _ hq))
    refine ⟨by simp [i1], fun b hb => ?_⟩
    rcases List.mem_cons.1 hb with rfl | hb
    · exact hp q List.mem_cons_self _ _ _ h1
    · exact i2 b hb

/-- **C68**, without a guide, for every dictionary file: one line per query. -/
theorem C68_no_guide_partial {o : Opts} (hr : o.ranked = false) (hg : o.guide = false) (fuel : Nat) (dictionary queries : List UInt8) (h : (queryRun o fuel dictionary queries).res = .ok ()) :
    newlines (queryRun o fuel dictionary queries).out = (scanLines queries).length := by
  obtain ⟨k1, k2⟩ := queryRun_spec o fuel dictionary queries
  cases hm : mainQuery o fuel dictionary queries with
  | error e => rw [(k2 e hm).1] at h; cases h
  | ok r =>
    obtain ⟨as, t⟩ := r
    rw [k1 _ _ hm]
    simp only
    unfold mainQuery handleLoad at hm
    obtain ⟨l, h1, h2⟩ := bind_ok.1 hm
    obtain ⟨as', h3, h4⟩ := bind_ok.1 h2
    obtain ⟨t', h5, h6⟩ := bind_ok.1 h4
    cases h6
    have hgl : l.guide = none := by
      unfold load at h1
      rw [hr, hg] at h1
      revert h1
      split
      · intro h1; cases h1
      · intro h1; cases h1; rfl
    have ht : t = none := by
      unfold totals at h5
      rw [hgl] at h5
      cases hi : o.index with
      | false => rw [hi] at h5; cases h5; rfl
      | true => rw [hi] at h5; cases h5
    have h3' : answers o l fuel Completers.new (scanLines queries) = .ok as := by
      revert h3
      cases answers o l fuel Completers.new (scanLines queries) with
      | error e => intro h3; cases h3
      | ok r => intro h3; cases h3; rfl
    obtain ⟨i1, i2⟩ := answers_all (P := fun a => newlines (answerText a) = 1) h3' (by
      intro q hq c a c' ha
      have hq' : 10 ∉ q := scanLoop_newline _ [] (by simp) q hq
      unfold answer at ha
      rw [hgl] at ha
      obtain ⟨hits, e1, e2⟩ := bind_eq_ok.1 ha
      cases e2
      refine answer_newlines hq' ?_
      intro e he
      obtain ⟨e', he', rfl⟩ := List.mem_map.1 he
      exact fun hc => hq' ((prefixLoop_prefixes e1 e' he').subset hc))
    rw [newlines_append, newlines_flatMap i2, ht, i1, Nat.one_mul]
    rfl

theorem listText_newlines : ∀ {ks : List (List UInt8)} (i : Nat), (∀ k ∈ ks, 10 ∉ k) → newlines (listText i ks) = ks.length
  | [], _, _ => rfl
  | k :: ks, i, h => by
    have h1 : newlines (number i) = 0 := List.count_eq_zero.2 (number_newline i)
    have h2 : newlines k = 0 := List.count_eq_zero.2 (h k List.mem_cons_self)
    rw [listText, newlines_append, newlines_append, newlines_append, newlines_append, h1, h2, listText_newlines (i + 1) (fun k hk => h k (List.mem_cons_of_mem _ hk)), List.length_cons,
      show newlines (ascii ": ") = 0 by decide, show newlines [10] = 1 by decide]
    omega

theorem totalsText_newlines {ks : List (List UInt8)} (h : ∀ k ∈ ks, 10 ∉ k) : newlines (totalsText (some ks)) = 1 + ks.length := by
  have h1 : newlines (number (ks.length : Int)) = 0 := List.count_eq_zero.2 (number_newline _)
  rw [totalsText, newlines_append, listText_newlines 0 h, statText, newlines_append, newlines_append, newlines_append, h1, show newlines (ascii "Total words") = 0 by decide,
    show newlines (ascii ": ") = 0 by decide, show newlines [10] = 1 by decide]

/-- **C68**, with `-g`: the exact text, for queries as in C49.  When no key contains a newline, there is one line per query, and with `-i` another one and one per key. -/
theorem C68_text_partial {hist d D} {linkSorter : Sorter} (h : Made hist d D) (hs : StableSort linkSorter) {o : Opts} (hr : o.ranked = false) (hgd : o.guide = true)
    {file : List UInt8} (hf : buildFile linkSorter o d = .ok file) {queries : List UInt8} (hc : ∀ q ∈ scanLines queries, NoClash hist q)
    (hx : ¬ ([] ∈ scanLines queries ∧ ∃ e ∈ accepted hist, e.1 = [])) {fuel : Nat} (hfuel : (accepted hist).length < fuel) :
    queryRun o fuel file queries =
      ⟨(scanLines queries).flatMap (fun q => q ++ ascii ":" ++ (if o.index then rankText (rankOf (accepted hist) q) else []) ++
          (extensions (accepted hist) q).flatMap (fun e => hitText (e.1 ++ [0]) e.2) ++ [10]) ++
        (if o.index then totalsText (some ((accepted hist).map (·.1))) else []), [], .ok ()⟩ ∧
    ((∀ e ∈ accepted hist, 10 ∉ e.1) → newlines (queryRun o fuel file queries).out = (scanLines queries).length + if o.index then 1 + (accepted hist).length else 0) := by
  have h1 := C49_completions_partial h hs hr hgd hf hc hx hfuel
  have h2 := (queryRun_spec o fuel file queries).1 _ _ h1
  have h3 : queryRun o fuel file queries =
      ⟨(scanLines queries).flatMap (fun q => q ++ ascii ":" ++ (if o.index then rankText (rankOf (accepted hist) q) else []) ++
          (extensions (accepted hist) q).flatMap (fun e => hitText (e.1 ++ [0]) e.2) ++ [10]) ++
        (if o.index then totalsText (some ((accepted hist).map (·.1))) else []), [], .ok ()⟩ := by
    rw [h2]
    congr 1
    congr 1
    · rw [List.flatMap_map]
      congr 1
      funext q
      unfold answerText withNul
      simp only [List.flatMap_map]
      congr 3
      split <;> rfl
    · split <;> rfl
  refine ⟨h3, fun hn => ?_⟩
  rw [h2]
  simp only
  rw [newlines_append, newlines_flatMap (m := 1), Nat.one_mul, List.length_map]
  · congr 1
    split
    · rw [totalsText_newlines (by
        intro k hk
        obtain ⟨e, he, rfl⟩ := List.mem_map.1 hk
        exact hn e he), List.length_map]
    · rfl
  · intro a ha
    obtain ⟨q, hq, rfl⟩ := List.mem_map.1 ha
    refine answer_newlines (scanLoop_newline _ [] (by simp) q hq) ?_
    intro e he
    unfold withNul extensions at he
    rw [List.map_map] at he
    obtain ⟨e', he', rfl⟩ := List.mem_map.1 he
    have := hn e' (List.mem_filter.1 he').1
    simp [this]

/-- The keys "a", "ab", "b" with `-g -i` and the queries "a" and "c", in full. -/
example : ∃ d D file, Made keysG d D ∧ buildFile insertionSort { guide := true, index := true } d = .ok file ∧
    (queryRun { guide := true, index := true } 9 file "a\nc\n".toUTF8.toList).out =
      "a: (#0) a\x00 = 5; ab\x00 = 3;\nc: (not found)\nTotal words: 3\n0: a\n1: ab\n2: b\n".toUTF8.toList := by
  obtain ⟨d, D, h⟩ := madeG
  obtain ⟨file, h1⟩ := C45_tool_writes h insertionSort_stableSort { guide := true, index := true } (fun _ => ⟨rfl, by decide⟩)
  have e1 : scanLines "a\nc\n".toUTF8.toList = [[97], [99]] := by decide +kernel
  have h2 := (C68_text_partial (queries := "a\nc\n".toUTF8.toList) (fuel := 9) h insertionSort_stableSort rfl rfl h1
    (by rw [e1]; exact fun q hq => .of_bytes (by revert q; decide)) (by rw [e1]; decide) (by decide)).1
  refine ⟨d, D, file, h, h1, ?_⟩
  rw [h2, e1]
  decide +kernel

/-- The dictionary of the lexicon "Ċ" with `-u -g`: its only key is the bytes 129 and 10. -/
theorem dotted (sorter : LineSorter) {linkSorter : Sorter} (hls : StableSort linkSorter) (grow : Nat → Nat) :
    ∃ d D file, Made [([129, 10], 0)] d D ∧ buildFile linkSorter { utfc := true, guide := true } d = .ok file ∧
      mainBuild sorter linkSorter grow { utfc := true, guide := true } "Ċ\n".toUTF8.toList = .ok file := by
  obtain ⟨h1, _⟩ := C47_unsorted (o := { utfc := true, guide := true }) sorter grow (lines := scanLines "Ċ\n".toUTF8.toList) rfl (fun l _ _ => ⟨_, rfl⟩)
    (by decide +kernel) (by decide +kernel)
  obtain ⟨d, oks, b, h2, h3, _⟩ := h1 (by decide +kernel)
  rw [show ((scanLines "Ċ\n".toUTF8.toList).filter (fun l : List UInt8 => l.length ≠ 0)).map (entry { utfc := true, guide := true }) = [([129, 10], 0)] by decide +kernel] at h3
  obtain ⟨d', D, h4, oks', b', h5⟩ := C14_small_builds 256 (by omega) (by omega) [([129, 10], 0)] (by decide) (by decide)
  rw [h3] at h5
  cases h5
  obtain ⟨file, h6⟩ := C45_tool_writes h4 hls { utfc := true, guide := true } (by simp)
  refine ⟨d, D, file, h4, h6, ?_⟩
  unfold mainBuild
  rw [h2]
  exact h6

/-- **C68 is false**: with `-u` a key can contain a newline (that of "Ċ", U+010A, is the bytes 129 and 10), and it is printed as it is. -/
theorem C68_newline_false : ¬ C68_statement := by
  intro hs
  obtain ⟨d, D, file, h1, h2, h3⟩ := dotted (fun less l => l.mergeSort (fun a b => !less b a)) insertionSort_stableSort (fun n => n)
  have e1 : scanLines [10] = [[]] := by decide +kernel
  have h4 := (C68_text_partial (queries := [10]) (fuel := 9) h1 insertionSort_stableSort rfl rfl h2
    (by rw [e1]; exact fun q hq => .of_bytes (by revert q; decide)) (by decide) (by decide)).1
  have h5 := hs _ insertionSort (fun n => n) (exists_stableSort _) insertionSort_stableSort { utfc := true, guide := true } "Ċ\n".toUTF8.toList file [10] 9 rfl
    (by rw [show entries { utfc := true, guide := true } (scanLines "Ċ\n".toUTF8.toList) = [([129, 10], 0)] by decide +kernel]; exact ⟨by decide, by decide⟩) h3 (by rw [h4])
  rw [h4, e1] at h5
  exact absurd h5 (by decide +kernel)

/-- **C68**, with `-r` and without `-i`, for queries as in C50: one line per query when no key contains a newline. -/
theorem C68_ranked_partial {hist d D} {linkSorter : Sorter} (h : Made hist d D) (hs : StableSort linkSorter) {o : Opts} (hr : o.ranked = true) (hi : o.index = false)
    {file : List UInt8} (hf : buildFile linkSorter o d = .ok file) {queries : List UInt8} (hc : ∀ q ∈ scanLines queries, NoClash hist q) {fuel : Nat} (hfuel : (accepted hist).length < fuel)
    (hn : ∀ e ∈ accepted hist, 10 ∉ e.1) :
    (queryRun o fuel file queries).res = .ok () ∧ newlines (queryRun o fuel file queries).out = (scanLines queries).length := by
  obtain ⟨as, h1, h2, h3⟩ := C50_ranked_partial h hs hr hi hf hc hfuel
  rw [(queryRun_spec o fuel file queries).1 as none h1]
  refine ⟨rfl, ?_⟩
  simp only
  rw [newlines_append, newlines_flatMap (m := 1), Nat.one_mul, ← h2, List.length_map]
  · rfl
  · intro a ha
    refine answer_newlines (scanLoop_newline _ [] (by simp) _ (h2 ▸ List.mem_map_of_mem ha)) ?_
    obtain ⟨_, xs, k1, _, k2⟩ := h3 a ha
    intro e he
    rw [k2] at he
    obtain ⟨e', he', rfl⟩ := List.mem_map.1 he
    have he' := k1.mem_iff.1 he'
    unfold extensions at he'
    obtain ⟨e'', he'', rfl⟩ := List.mem_map.1 he'
    have := hn e'' (List.mem_filter.1 he'').1
    simp [this]

/-! ## C69: runs end -/

/-- The full claim C69: every run with a dictionary file that the tool has built ends. -/
def C69_statement : Prop := ∀ (sorter : LineSorter) (linkSorter : Sorter) (grow : Nat → Nat), StableSort sorter → StableSort linkSorter →
  ∀ (o : Opts) (lexicon file queries : List UInt8), Admissible (entries o (scanLines lexicon)) → mainBuild sorter linkSorter grow o lexicon = .ok file →
    ∃ N, ∀ fuel > N, (queryRun o fuel file queries).res ≠ .error (.fault .hang)

theorem load_fatal {o : Opts} {file : List UInt8} {e : Stop} (h : load o file = .error e) : e = .fatal := by
  unfold load at h
  split at h
  · cases h; rfl
  · split at h
    · split at h
      · cases h; rfl
      · split at h
        · split at h
          · cases h; rfl
          · cases h
        · cases h
    · cases h

theorem load_noGuide {o : Opts} (hr : o.ranked = false) (hg : o.guide = false) {file : List UInt8} {l : Loaded} (h : load o file = .ok l) : l.guide = none := by
  unfold load at h
  rw [hr, hg] at h
  revert h
  split
  · intro h; cases h
  · intro h; cases h; rfl

theorem answer_panic {o : Opts} {l : Loaded} (hg : l.guide = none) {fuel : Nat} {c : Completers} {q : List UInt8} {e : Fault} (h : answer o l fuel c q = .error e) : e = .panic := by
  unfold answer at h
  rw [hg] at h
  simp only [queryPrefixes] at h
  cases h1 : prefixLoop l.dict q q 0 l.dict.root with
  | error e' => rw [h1] at h; cases h; exact prefixLoop_panic h1
  | ok hits => rw [h1] at h; cases h

theorem answers_panic {o : Opts} {l : Loaded} (hg : l.guide = none) {fuel : Nat} {e : Fault} : ∀ {qs : List (List UInt8)} {c : Completers}, answers o l fuel c qs = .error e → e = .panic
  | [], _, h => by cases h
  | q :: qs, c, h => by
    unfold answers at h
    cases h1 : answer o l fuel c q with
    | error e' => rw [h1] at h; cases h; exact answer_panic hg h1
    | ok r =>
      rw [h1] at h
      simp only [ok_bind] at h
      cases h2 : answers o l fuel r.2 qs with
      | error e' => rw [h2] at h; cases h; exact answers_panic hg h2
      | ok as => rw [h2] at h; cases h

theorem answersRun_fuel {o : Opts} {l : Loaded} (hg : l.guide = none) (fuel : Nat) : ∀ (qs : List (List UInt8)) (c : Completers), answersRun o l fuel c qs = answersRun o l 0 c qs
  | [], _ => rfl
  | q :: qs, c => by
    have h1 : answerRun o l fuel c q = answerRun o l 0 c q := by
      unfold answerRun hitsRun
      rw [hg]
    unfold answersRun
    rw [h1]
    congr 1
    funext c'
    exact answersRun_fuel hg fuel qs c'

/-- **C69**, without a guide, for all bytes in the dictionary file and the file of queries. -/
theorem C69_no_guide_partial {o : Opts} (hr : o.ranked = false) (hg : o.guide = false) (fuel : Nat) (dictionary queries : List UInt8) :
    (queryRun o fuel dictionary queries).res ≠ .error (.fault .hang) ∧ queryRun o fuel dictionary queries = queryRun o 0 dictionary queries := by
  constructor
  · obtain ⟨k1, k2⟩ := queryRun_spec o fuel dictionary queries
    cases hm : mainQuery o fuel dictionary queries with
    | ok r => rw [k1 r.1 r.2 hm]; exact fun h => (by cases h)
    | error e =>
      rw [(k2 e hm).1]
      intro hc
      cases hc
      unfold mainQuery handleLoad at hm
      cases hl : load o dictionary with
      | error e => rw [hl] at hm; cases hm; have := load_fatal hl; cases this
      | ok l =>
        have hgl := load_noGuide hr hg hl
        rw [hl] at hm
        simp only [ok_bind'] at hm
        cases ha : answers o l fuel Completers.new (scanLines queries) with
        | error e => rw [ha] at hm; cases hm; have := answers_panic hgl ha; cases this
        | ok as =>
          rw [ha] at hm
          simp only [lift, ok_bind'] at hm
          unfold totals at hm
          rw [hgl] at hm
          cases hi : o.index with
          | false => rw [hi] at hm; cases hm
          | true => rw [hi] at hm; cases hm
  · unfold queryRun
    cases hl : load o dictionary with
    | error e => rfl
    | ok l =>
      simp only [perform_ok_bind]
      rw [answersRun_fuel (load_noGuide hr hg hl) fuel]

/-- A dictionary file with one unit, and an empty query and the query "a": the tool answers the first one and panics at the second. -/
example (fuel : Nat) : queryRun {} fuel [1, 0, 0, 0, 0, 0, 0, 0] [10, 97, 10] = ⟨[58, 10, 97, 58], [], .error (.fault .panic)⟩ := by
  rw [(C69_no_guide_partial rfl rfl _ _ _).2]
  rfl

/-- **C69**, with `-g`: the run ends except for an empty query in a dictionary with the empty key, as soon as the queries are as in C49; with `-r` and without `-i`, always. -/
theorem C69_guide_partial {hist d D} {linkSorter : Sorter} (h : Made hist d D) (hs : StableSort linkSorter) {o : Opts} {file : List UInt8} (hf : buildFile linkSorter o d = .ok file)
    {queries : List UInt8} (hc : ∀ q ∈ scanLines queries, NoClash hist q) {fuel : Nat} (hfuel : (accepted hist).length < fuel)
    (ho : o.ranked = true ∧ o.index = false ∨ o.ranked = false ∧ o.guide = true ∧ ¬ ([] ∈ scanLines queries ∧ ∃ e ∈ accepted hist, e.1 = [])) :
    (queryRun o fuel file queries).res = .ok () := by
  rcases ho with ⟨hr, hi⟩ | ⟨hr, hg, hx⟩
  · obtain ⟨as, h1, _⟩ := C50_ranked_partial h hs hr hi hf hc hfuel
    rw [(queryRun_spec o fuel file queries).1 as none h1]
  · rw [(C68_text_partial h hs hr hg hf hc hx hfuel).1]

/-- **C69 fails otherwise**: with the empty key in the dictionary, the first empty query prints the empty key and its value for ever. -/
theorem C69_prints_for_ever {hist d D} {linkSorter : Sorter} (h : Made hist d D) (hs : StableSort linkSorter) {o : Opts} (hr : o.ranked = false) (hgd : o.guide = true)
    {file : List UInt8} (hf : buildFile linkSorter o d = .ok file) {e : Key × Int} (he1 : e ∈ accepted hist) (he2 : e.1 = []) {queries : List UInt8} {qs : List Key}
    (hq : scanLines queries = [] :: qs) (fuel : Nat) :
    queryRun o fuel file queries =
      ⟨ascii ":" ++ (if o.index then rankText (rankOf (accepted hist) []) else []) ++ (List.replicate fuel (hitText [0] (stored e.2))).flatten, [], .error (.fault .hang)⟩ := by
  obtain ⟨g, l, h1, h2, h3⟩ := load_guide h hs hr hgd hf
  obtain ⟨hz, hn, hv⟩ := empty_key_step h h2 he1 he2
  have hloop : ∀ f, completeLoopRun D g [] f ⟨[] ++ [0], [D.root], 0⟩ = ⟨(List.replicate f (hitText [0] (stored e.2))).flatten, [], .error (.fault .hang)⟩ := by
    intro f
    induction f with
    | zero => rfl
    | succ f ih =>
      rw [completeLoopRun, show Completer.next D g ⟨[] ++ [0], [D.root], 0⟩ = .ok (⟨[] ++ [0], [D.root], 0⟩, true) from hn]
      simp only [lift, perform_ok_bind, Bool.not_true, Bool.false_eq_true, if_false, Completer.value]
      rw [hv]
      simp only [perform_ok_bind, print_bind]
      rw [ih]
      rfl
  have hrank := queryRank_eq h h2 h3 (q := []) (.of_prefix ⟨e, he1, by simp⟩)
  have hcr : completionsRun o l g fuel Completers.new [] = ⟨(List.replicate fuel (hitText [0] (stored e.2))).flatten, [], .error (.fault .hang)⟩ := by
    unfold completionsRun
    simp only [h3.dict, Dictionary.followString, lift, perform_ok_bind, Bool.not_true, Bool.false_eq_true, if_false, hr]
    rw [start_eq, startString_eq hz]
    simp only [perform_ok_bind]
    rw [hloop]
    rfl
  have hhr : hitsRun o l fuel Completers.new [] =
      ⟨(if o.index then rankText (rankOf (accepted hist) []) else []) ++ (List.replicate fuel (hitText [0] (stored e.2))).flatten, [], .error (.fault .hang)⟩ := by
    unfold hitsRun
    rw [h3.guide]
    simp only
    rw [hrank]
    simp only [lift, perform_ok_bind]
    rw [hcr]
    cases o.index <;> rfl
  unfold queryRun
  rw [h1, hq]
  simp only [perform_ok_bind]
  unfold answersRun answerRun
  simp only [print_bind]
  rw [hhr]
  simp [Bind.bind, Run.bind]

/-- **C69 is false**: the lexicon "\t1" with `-t -g` and one empty query. -/
theorem C69_runs_end_false : ¬ C69_statement := by
  intro hs
  have e0 : scanLines "\t1\n".toUTF8.toList = [[9, 49]] := by decide +kernel
  obtain ⟨h1, _⟩ := C47_unsorted (o := { tab := true, guide := true }) (fun less l => l.mergeSort (fun a b => !less b a)) (fun n => n) (lines := [[9, 49]]) rfl
    (fun l hl _ => by rw [List.mem_singleton.1 hl]; exact ⟨_, rfl⟩) (by decide +kernel) (by decide +kernel)
  obtain ⟨d, oks, b, h2, h3, _⟩ := h1 (by decide +kernel)
  rw [show ([[9, 49]].filter (fun l : List UInt8 => l.length ≠ 0)).map (entry { tab := true, guide := true }) = [([], 1)] by decide +kernel] at h3
  obtain ⟨d', D, h4, oks', b', h5⟩ := C14_small_builds 256 (by omega) (by omega) [([], 1)] (by decide) (by decide)
  rw [h3] at h5
  cases h5
  obtain ⟨file, h6⟩ := C45_tool_writes h4 insertionSort_stableSort { tab := true, guide := true } (by simp)
  obtain ⟨N, h7⟩ := hs _ insertionSort (fun n => n) (exists_stableSort _) insertionSort_stableSort { tab := true, guide := true } "\t1\n".toUTF8.toList file [10]
    (by rw [e0, show entries { tab := true, guide := true } [[9, 49]] = [([], 1)] by decide +kernel]; exact ⟨by decide, by decide⟩)
    (by unfold mainBuild; rw [e0, h2]; exact h6)
  refine h7 (N + 1) (by omega) ?_
  rw [C69_prints_for_ever h4 insertionSort_stableSort rfl rfl h6 (e := ([], 1)) (by decide) rfl (queries := [10]) (qs := []) (by decide +kernel)]

/-- What three steps print. -/
example : ∃ d D file, Made keysE d D ∧ buildFile insertionSort { guide := true } d = .ok file ∧
    queryRun { guide := true } 3 file "\na\n".toUTF8.toList = ⟨": \x00 = 1; \x00 = 1; \x00 = 1;".toUTF8.toList, [], .error (.fault .hang)⟩ := by
  obtain ⟨d, D, h⟩ := madeE
  obtain ⟨file, h1⟩ := C45_tool_writes h insertionSort_stableSort { guide := true } (by simp)
  refine ⟨d, D, file, h, h1, ?_⟩
  rw [C69_prints_for_ever h insertionSort_stableSort rfl rfl h1 (e := ([], 1)) (by decide) rfl (queries := "\na\n".toUTF8.toList) (qs := [[97]]) (by decide +kernel) 3]
  congr 1
  decide +kernel

end Dawg.Props
