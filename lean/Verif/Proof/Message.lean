import Verif.Model.Message
import Verif.Proof.Output
/-! # The runs with messages have the results of those without -/
namespace Dawg
namespace Tool

theorem forget_bind {α β : Type} (x : Except Why α) (f : α → Except Why β) : forget (x >>= f) = forget x >>= fun a => forget (f a) := by
  cases x <;> rfl

theorem forget_tell {α : Type} (x : Go α) : forget (tell x) = lift x := by cases x <;> rfl

theorem forget_map {α β : Type} (f : α → β) (x : Except Why α) : forget (f <$> x) = f <$> forget x := by cases x <;> rfl

theorem parseLine_forget (tab : Bool) (line : List UInt8) : forget (parseLineMsg tab line) = parseLine tab line := by
  unfold parseLineMsg parseLine
  split
  · rfl
  · rcases splitTab line with _ | ⟨k, _ | ⟨v, r⟩⟩
    · rfl
    · rfl
    · simp only
      cases atoi v <;> rfl

theorem processLine_forget (o : Opts) (b : Builder) (line : List UInt8) : forget (processLineMsg o b line) = processLine o b line := by
  unfold processLineMsg processLine
  split
  · rfl
  · rw [forget_bind, parseLine_forget]
    congr 1
    funext p
    simp only
    rw [forget_bind, forget_tell]
    congr 1
    funext q
    obtain ⟨b', ok⟩ := q
    cases ok <;> rfl

theorem processLines_forget (o : Opts) : ∀ (ls : List (List UInt8)) (b : Builder), forget (processLinesMsg o ls b) = processLines o ls b
  | [], _ => rfl
  | l :: ls, b => by
    rw [processLinesMsg, processLines, forget_bind, processLine_forget]
    congr 1
    funext p
    exact processLines_forget o ls p.1

theorem buildDawg_forget (sorter : LineSorter) (grow : Nat → Nat) (o : Opts) (lines : List (List UInt8)) :
    forget (buildDawgMsg sorter grow o lines) = buildDawg sorter grow o lines := by
  unfold buildDawgMsg buildDawg
  rw [forget_bind, processLines_forget]
  congr 1
  funext b
  rw [forget_bind, forget_tell]
  rfl

theorem buildFile_forget (linkSorter : Sorter) (o : Opts) (d : Dawg) : forget (buildFileMsg linkSorter o d) = buildFile linkSorter o d := by
  have key : ∀ (dict : Dictionary) (r : Go (Option Guide)),
      forget (some <$> tell r >>= fun g => match g with
        | none => pure dict.write
        | some none => Except.error (Why.fault Fault.panic)
        | some (some g) =>
          if o.index = true then do
            match ← tell (buildIndex dict g) with
              | none => Except.error (Why.fatal Message.noIndex)
              | some x => pure (dict.write ++ g.write ++ x.write)
          else pure (dict.write ++ g.write)) =
      some <$> lift r >>= fun g => match g with
        | none => pure dict.write
        | some none => Except.error (Stop.fault Fault.panic)
        | some (some g) =>
          if o.index = true then do
            match ← lift (buildIndex dict g) with
              | none => Except.error Stop.fatal
              | some x => pure (dict.write ++ g.write ++ x.write)
          else pure (dict.write ++ g.write) := by
    intro dict r
    rcases r with f | _ | g
    · rfl
    · rfl
    · show forget (if o.index = true then _ else _) = if o.index = true then _ else _
      split
      · rw [forget_bind, forget_tell]
        congr 1
        funext x
        cases x <;> rfl
      · rfl
  unfold buildFileMsg buildFile
  rw [forget_bind, forget_tell]
  congr 1
  funext r
  match r with
  | none => rfl
  | some (dict, _) =>
    simp only
    split
    · exact key ..
    · split
      · exact key ..
      · rfl

theorem mainBuild_forget (sorter : LineSorter) (linkSorter : Sorter) (grow : Nat → Nat) (o : Opts) (lexicon : List UInt8) :
    forget (mainBuildMsg sorter linkSorter grow o lexicon) = mainBuild sorter linkSorter grow o lexicon := by
  unfold mainBuildMsg mainBuild
  rw [forget_bind, buildDawg_forget]
  congr 1
  funext d
  exact buildFile_forget ..

theorem load_forget (o : Opts) (file : List UInt8) : forget (loadMsg o file) = load o file := by
  unfold loadMsg load
  rcases Dictionary.readNew file with ⟨_ | D, r⟩
  · rfl
  · simp only
    split
    · rcases Guide.readNew r with ⟨_ | g, r⟩
      · rfl
      · simp only
        split
        · rcases Index.readNew r with ⟨_ | x, r⟩ <;> rfl
        · rfl
    · rfl

theorem mainQuery_forget (o : Opts) (fuel : Nat) (dictionary lexicon : List UInt8) : forget (mainQueryMsg o fuel dictionary lexicon) = mainQuery o fuel dictionary lexicon := by
  unfold mainQueryMsg mainQuery handleLoad
  rw [forget_bind, load_forget]
  congr 1
  funext l
  rw [forget_bind, forget_tell]
  congr 1
  funext as
  rw [forget_bind, forget_tell]
  rfl

theorem messageOf_forget {α : Type} (x : Except Why α) : (∃ m, messageOf x = some m) ↔ forget x = .error .fatal := by
  cases x with
  | ok a => simp [messageOf, forget]
  | error e => cases e <;> simp [messageOf, forget, Why.forget]

end Tool
end Dawg
