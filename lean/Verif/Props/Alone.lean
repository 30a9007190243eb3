import Verif.Props.Output
import Verif.Props.Text
/-! # C85: queries do not influence each other

dawgtool answers all queries with one completer.  The answers are nevertheless those of separate runs, also
for corrupt dictionary files. -/
namespace Dawg.Props
open Dawg Dawg.Spec Dawg.Client Dawg.Abs Dawg.Dict Dawg.Guided Dawg.Tool

/-! ## A completer that is started again -/

theorem start_ranked (D : Dictionary) (g : Guide) (rc : RankedCompleter) (i : Nat) (p : List UInt8) (n : Int) :
    RankedCompleter.startStringLen D g rc i p n = RankedCompleter.startStringLen D g RankedCompleter.new i p n := by
  unfold RankedCompleter.startStringLen
  simp only [List.take_zero]

theorem start_plain (g : Guide) (c : Completer) (i : Nat) (p : List UInt8) (n : Int) (h : g.size ≠ 0) :
    Completer.startStringLen g c i p n = Completer.startStringLen g Completer.new i p n := by
  unfold Completer.startStringLen
  simp only [h, ne_eq, not_false_eq_true, if_true]

theorem start_none {g : Guide} (h : g.size = 0) (c : Completer) (i : Nat) :
    Completer.start g c i = .ok { c with path := [0], indexStack := [] } := by
  unfold Completer.start Completer.startStringLen
  simp only [h, ne_eq, not_true, if_false, Completer.takeLen]
  rfl

theorem next_none (D : Dictionary) (g : Guide) {c : Completer} (h : c.indexStack = []) : c.next D g = .ok (c, false) := by
  unfold Completer.next
  rw [h]; rfl

/-! ## Runs that differ in their results only -/

/-- The same effects, and the same end. -/
def Alike {α β : Type} (x : Run α) (y : Run β) : Prop :=
  x.out = y.out ∧ x.file = y.file ∧ (fun _ => ()) <$> x.res = (fun _ => ()) <$> y.res

theorem alike_refl {α : Type} (x : Run α) : Alike x x := ⟨rfl, rfl, rfl⟩

theorem alike_bind {α β γ δ : Type} {x : Run α} {y : Run β} (h : Alike x y) {f : α → Run γ} {g : β → Run δ} (hf : ∀ a b, Alike (f a) (g b)) :
    Alike (x >>= f) (y >>= g) := by
  obtain ⟨xo, xf, xr⟩ := x
  obtain ⟨yo, yf, yr⟩ := y
  obtain ⟨h1, h2, h3⟩ := h
  dsimp only at h1 h2 h3
  subst h1; subst h2
  cases xr with
  | error e =>
    cases yr with
    | error e' => cases h3; exact ⟨rfl, rfl, rfl⟩
    | ok b => cases h3
  | ok a =>
    cases yr with
    | error e' => cases h3
    | ok b =>
      obtain ⟨k1, k2, k3⟩ := hf a b
      exact ⟨congrArg (xo ++ ·) k1, congrArg (xf ++ ·) k2, k3⟩

theorem alike_bind_same {α γ δ : Type} (x : Run α) {f : α → Run γ} {g : α → Run δ} (hf : ∀ a, Alike (f a) (g a)) : Alike (x >>= f) (x >>= g) := by
  obtain ⟨xo, xf, xr⟩ := x
  cases xr with
  | error e => exact ⟨rfl, rfl, rfl⟩
  | ok a =>
    obtain ⟨k1, k2, k3⟩ := hf a
    exact ⟨congrArg (xo ++ ·) k1, congrArg (xf ++ ·) k2, k3⟩

theorem alike_eq {x y : Run Unit} (h : Alike x y) : x = y := by
  obtain ⟨xo, xf, xr⟩ := x
  obtain ⟨yo, yf, yr⟩ := y
  obtain ⟨h1, h2, h3⟩ := h
  dsimp only at h1 h2 h3
  subst h1; subst h2
  cases xr <;> cases yr <;> cases h3 <;> rfl

theorem completionsRun_alike (o : Opts) (l : Loaded) (g : Guide) (fuel : Nat) (c c' : Completers) (q : List UInt8) :
    Alike (completionsRun o l g fuel c q) (completionsRun o l g fuel c' q) := by
  unfold completionsRun
  refine alike_bind_same _ fun r => ?_
  obtain ⟨ok, index, n⟩ := r
  dsimp only
  by_cases ho : (!ok) = true
  · rw [if_pos ho, if_pos ho]; exact ⟨rfl, rfl, rfl⟩
  rw [if_neg ho, if_neg ho]
  by_cases hr : o.ranked = true
  · rw [if_pos hr, if_pos hr]
    unfold RankedCompleter.start
    rw [start_ranked _ _ c.ranked, start_ranked _ _ c'.ranked]
    refine alike_bind_same _ fun rc => alike_bind_same _ fun rc => ?_
    exact ⟨rfl, rfl, rfl⟩
  · rw [if_neg hr, if_neg hr]
    by_cases h0 : g.size = 0
    · rw [start_none h0, start_none h0]
      rw [show ∀ c : Completer, lift (Except.ok c : Go Completer) = .ok c from fun _ => rfl, perform_ok_bind, show ∀ c : Completer, lift (Except.ok c : Go Completer) = .ok c from fun _ => rfl, perform_ok_bind]
      cases fuel with
      | zero => exact ⟨rfl, rfl, rfl⟩
      | succ fuel =>
        unfold completeLoopRun
        rw [next_none _ _ rfl, next_none _ _ rfl]
        exact ⟨rfl, rfl, rfl⟩
    · unfold Completer.start
      rw [start_plain _ c.plain _ _ _ h0, start_plain _ c'.plain _ _ _ h0]
      refine alike_bind_same _ fun rc => alike_bind_same _ fun rc => ?_
      exact ⟨rfl, rfl, rfl⟩

theorem answerRun_alike (o : Opts) (l : Loaded) (fuel : Nat) (c c' : Completers) (q : List UInt8) :
    Alike (answerRun o l fuel c q) (answerRun o l fuel c' q) := by
  unfold answerRun
  refine alike_bind_same _ fun _ => alike_bind ?_ fun a b => alike_bind_same _ fun _ => ⟨rfl, rfl, rfl⟩
  unfold hitsRun
  cases l.guide with
  | none => exact alike_bind_same _ fun _ => ⟨rfl, rfl, rfl⟩
  | some g => exact alike_bind_same _ fun r => alike_bind_same _ fun _ => completionsRun_alike o l g fuel c c' q

theorem answersRun_alike (o : Opts) (l : Loaded) (fuel : Nat) (c c' : Completers) (qs : List (List UInt8)) :
    answersRun o l fuel c qs = answersRun o l fuel c' qs := by
  induction qs generalizing c c' with
  | nil => rfl
  | cons q qs ih =>
    apply alike_eq
    unfold answersRun
    refine alike_bind (answerRun_alike o l fuel c c' q) fun a b => ?_
    rw [ih a b]; exact alike_refl _

theorem run_assoc {α β γ : Type} (x : Run α) (f : α → Run β) (g : β → Run γ) : (x >>= f) >>= g = x >>= fun a => f a >>= g := by
  obtain ⟨xo, xf, xr⟩ := x
  cases xr with
  | error e => rfl
  | ok a =>
    show Run.bind (Run.bind _ _) _ = Run.bind _ _
    unfold Run.bind
    dsimp only
    generalize hy : f a = y
    obtain ⟨yo, yf, yr⟩ := y
    cases yr with
    | error e => simp [Bind.bind, Run.bind]
    | ok b => simp [Bind.bind, Run.bind]

theorem answersRun_append (o : Opts) (l : Loaded) (fuel : Nat) (c : Completers) (qs rs : List (List UInt8)) :
    answersRun o l fuel c (qs ++ rs) = answersRun o l fuel c qs >>= fun _ => answersRun o l fuel Completers.new rs := by
  induction qs generalizing c with
  | nil => rw [List.nil_append, answersRun_alike o l fuel c Completers.new]; rfl
  | cons q qs ih =>
    rw [List.cons_append, answersRun, answersRun, run_assoc]
    congr 1; funext c'; exact ih c'

/-! ## Values -/

theorem answer_alike (o : Opts) (l : Loaded) (fuel : Nat) (c c' : Completers) (q : List UInt8) :
    (·.1) <$> answer o l fuel c q = (·.1) <$> answer o l fuel c' q := by
  unfold answer
  cases l.guide with
  | none => cases queryPrefixes l.dict q <;> rfl
  | some g =>
    dsimp only
    cases queryRank l g q with
    | error e => rfl
    | ok rank =>
      rw [ok_bind, ok_bind]
      cases l.dict.followString q l.dict.root with
      | error e => rfl
      | ok r =>
        obtain ⟨ok, index, n⟩ := r
        rw [ok_bind, ok_bind]
        dsimp only
        by_cases ho : (!ok) = true
        · rw [if_pos ho, if_pos ho]; rfl
        rw [if_neg ho, if_neg ho]
        by_cases hr : o.ranked = true
        · rw [if_pos hr, if_pos hr]
          unfold RankedCompleter.start
          rw [start_ranked _ _ c.ranked, start_ranked _ _ c'.ranked]
          cases RankedCompleter.startStringLen l.dict g RankedCompleter.new index [] 0 with
          | error e => rfl
          | ok rc =>
            rw [ok_bind, ok_bind]
            cases rankedLoop l.dict g q fuel rc <;> rfl
        · rw [if_neg hr, if_neg hr]
          by_cases h0 : g.size = 0
          · rw [start_none h0, start_none h0, ok_bind, ok_bind]
            cases fuel with
            | zero => rfl
            | succ fuel =>
              unfold completeLoop
              rw [next_none _ _ rfl, next_none _ _ rfl]
              rfl
          · unfold Completer.start
            rw [start_plain _ c.plain _ _ _ h0, start_plain _ c'.plain _ _ _ h0]
            cases Completer.startStringLen g Completer.new index [] 0 with
            | error e => rfl
            | ok pc =>
              rw [ok_bind, ok_bind]
              cases completeLoop l.dict g q fuel pc <;> rfl

/-! ## C85 -/

/-- **C85, completers can be started again**: whatever was done with a completer, after `Start` it behaves
like a new one: the two states are equal, or no call of `Next` yields anything. -/
theorem C85_restart (D : Dictionary) (g : Guide) (c : Completer) (rc : RankedCompleter) (i : Nat) :
    RankedCompleter.start D g rc i = RankedCompleter.start D g RankedCompleter.new i ∧
    (Completer.start g c i = Completer.start g Completer.new i ∨
      ∃ c1 c2, Completer.start g c i = .ok c1 ∧ Completer.start g Completer.new i = .ok c2 ∧ c1.key = c2.key ∧
        c1.next D g = .ok (c1, false) ∧ c2.next D g = .ok (c2, false)) := by
  refine ⟨start_ranked D g rc i [] 0, ?_⟩
  by_cases h0 : g.size = 0
  · exact Or.inr ⟨_, _, start_none h0 c i, start_none h0 _ i, rfl, next_none D g rfl, next_none D g rfl⟩
  · exact Or.inl (start_plain g c i [] 0 h0)

/-- A completer in the middle of another search. -/
example : Completer.start ⟨[⟨97, 0⟩]⟩ { path := [98, 0], indexStack := [7, 3, 0], lastIndex := 7 } 0 = .ok { path := [0], indexStack := [0], lastIndex := 0 } := by
  decide +kernel

/-- **C85, values**: with every loaded file, also a corrupt one, and all options, the answers to a list of
queries are the answers that each query gets alone. -/
theorem C85_alone (o : Opts) (l : Loaded) (fuel : Nat) (c : Completers) (qs : List (List UInt8)) :
    answers o l fuel c qs = qs.mapM (fun q => (·.1) <$> answer o l fuel Completers.new q) := by
  induction qs generalizing c with
  | nil => rfl
  | cons q qs ih =>
    rw [answers, List.mapM_cons, ← answer_alike o l fuel c Completers.new q]
    cases answer o l fuel c q with
    | error e => rfl
    | ok r =>
      obtain ⟨a, c1⟩ := r
      show (answers o l fuel c1 qs >>= _) = _
      rw [ih c1]; rfl

/-- A hand-made dictionary with the key "a" (value 5) and its guide. -/
def loadedA : Loaded :=
  { dict := ⟨(((List.replicate 256 0).set 0 1024).set 96 1377).set 97 2147483653⟩
    guide := some ⟨((List.replicate 256 ⟨0, 0⟩).set 0 ⟨97, 0⟩)⟩
    index := none }

/-- The completer lists the same key for three queries, one after another, and nothing for the fourth. -/
example : (answers { guide := true } loadedA 9 Completers.new [[], [97], [], [98]]).toOption.map (·.map (·.hits)) =
    some [[([97, 0], 5)], [([97, 0], 5)], [([97, 0], 5)], []] := by decide +kernel

/-- **C85, text**: for all options and all dictionary files, also corrupt ones, and for a file of queries
that is cut behind the end of a line: when the run with the first part ends well, the run with the whole
file prints the lines of the first part (without the list of all keys that `-i` adds, which is what an empty
file of queries yields) and then what the run with the second part prints, and ends like this run.  When it
fails at one of the queries, the run with the whole file is the same run. -/
theorem C85_text (o : Opts) (fuel : Nat) (dictionary : List UInt8) {lines : List (List UInt8)}
    (hl : ∀ l ∈ lines, IsLine l ∧ l.length < 65536) (rest : List UInt8) :
    ((queryRun o fuel dictionary (fileOf lines)).res = .ok () →
      ∃ X, (queryRun o fuel dictionary (fileOf lines)).out = X ++ (queryRun o fuel dictionary []).out ∧
        (queryRun o fuel dictionary (fileOf lines ++ rest)).out = X ++ (queryRun o fuel dictionary rest).out ∧
        (queryRun o fuel dictionary (fileOf lines ++ rest)).res = (queryRun o fuel dictionary rest).res) ∧
    (∀ e, (queryRun o fuel dictionary []).res = .ok () → (queryRun o fuel dictionary (fileOf lines)).res = .error e →
      (queryRun o fuel dictionary (fileOf lines ++ rest)).out = (queryRun o fuel dictionary (fileOf lines)).out ∧
      (queryRun o fuel dictionary (fileOf lines ++ rest)).res = .error e) := by
  have e1 : scanLines (fileOf lines ++ rest) = lines ++ scanLines rest := scanLoop_lines hl rest
  have e2 : scanLines (fileOf lines) = lines := by
    have := scanLoop_lines hl []
    simpa [scanLines, scanLoop] using this
  have e3 : scanLines [] = [] := rfl
  unfold queryRun
  rw [e1, e2, e3]
  cases hld : load o dictionary with
  | error e =>
    refine ⟨fun h => ?_, fun e' h => ?_⟩ <;> cases h
  | ok l =>
    simp only [perform_ok_bind]
    rw [answersRun_append, run_assoc]
    generalize hA : answersRun o l fuel Completers.new lines = A
    obtain ⟨ao, af, ar⟩ := A
    cases ar with
    | error e =>
      refine ⟨fun h => ?_, fun e' h0 h => ?_⟩
      · cases h
      · cases h; exact ⟨rfl, rfl⟩
    | ok u =>
      refine ⟨fun h => ⟨ao, ?_, ?_, ?_⟩, fun e' h0 h => ?_⟩
      · rfl
      · rfl
      · rfl
      · exfalso
        have h0' : (totalsRun o l).res = .ok () := h0
        have h' : (totalsRun o l).res = .error e' := h
        rw [h0'] at h'; cases h'

/-- A file of queries, and its two parts. -/
example : (queryRun {} 9 (loadedA.dict.write) [97, 10]).out = ascii "a: a = 5;\n" ∧ (queryRun {} 9 (loadedA.dict.write) [98, 10, 97]).out = ascii "b:\na: a = 5;\n" ∧
    (queryRun {} 9 (loadedA.dict.write) [97, 10, 98, 10, 97]).out = ascii "a: a = 5;\nb:\na: a = 5;\n" := by decide +kernel

/-- **C85, the order of the queries**: without `-i`, queries that are answered at all get the same lines in
any order; a permutation of the queries permutes the lines. -/
theorem C85_order (o : Opts) (l : Loaded) (fuel : Nat) {qs rs : List (List UInt8)} (hp : qs.Perm rs) {as : List Answer}
    (h : answers o l fuel Completers.new qs = .ok as) :
    ∃ bs, answers o l fuel Completers.new rs = .ok bs ∧ as.Perm bs := by
  rw [C85_alone] at h
  simp only [C85_alone]
  generalize hf : (fun q => (·.1) <$> answer o l fuel Completers.new q) = f at h ⊢
  clear hf
  induction hp generalizing as with
  | nil => exact ⟨as, h, .refl _⟩
  | cons q _ ih =>
    rw [List.mapM_cons] at h ⊢
    obtain ⟨a, h1, h2⟩ := bind_eq_ok.mp h
    obtain ⟨t, h3, h4⟩ := bind_eq_ok.mp h2
    obtain ⟨t', h5, h6⟩ := ih h3
    cases h4
    rw [h1, h5]
    exact ⟨a :: t', rfl, h6.cons a⟩
  | swap p q qs =>
    rw [List.mapM_cons, List.mapM_cons] at h ⊢
    obtain ⟨a, h1, h2⟩ := bind_eq_ok.mp h
    obtain ⟨t, h3, h4⟩ := bind_eq_ok.mp h2
    obtain ⟨b, h5, h6⟩ := bind_eq_ok.mp h3
    obtain ⟨t', h7, h8⟩ := bind_eq_ok.mp h6
    cases h8; cases h4
    rw [h1, h5, h7]
    exact ⟨b :: a :: t', rfl, .swap _ _ _⟩
  | trans _ _ ih1 ih2 =>
    obtain ⟨b1, h1, h2⟩ := ih1 h
    obtain ⟨b2, h3, h4⟩ := ih2 h1
    exact ⟨b2, h3, h2.trans h4⟩

example : (answers { guide := true } loadedA 9 Completers.new [[98], [97]]).toOption.map (·.map (·.hits)) = some [[], [([97, 0], 5)]] ∧
    (answers { guide := true } loadedA 9 Completers.new [[97], [98]]).toOption.map (·.map (·.hits)) = some [[([97, 0], 5)], []] := by decide +kernel

end Dawg.Props
