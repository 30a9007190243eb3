import Verif.Proof.Scan
import Verif.Proof.Output
/-! # dawgtool with readers and writers -/
namespace Dawg.Stream
open Dawg Dawg.Tool

/-- The writer keeps to the contract of `io.Writer`: it takes at most what it is given, and gives an error when it takes less. -/
def Honest (W : Writer) : Prop := ∀ s p, (W.write s p).2.1 ≤ p.length ∧ ((W.write s p).2.2 = true → (W.write s p).2.1 = p.length)

/-- The writer gives errors in the case `P` only. -/
def Errs (W : Writer) (P : Prop) : Prop := ∀ s p, (W.write s p).2.2 = false → P

theorem units_errs {W : Writer} {P : Prop} (h : Errs W P) (s : W.State) (size : Nat) (body : List UInt8) (hf : (W.units s size body).2.2 = false) : P := by
  unfold Writer.units at hf
  have h1 := h s (putU32 (u32 size))
  cases hp : W.write s (putU32 (u32 size)) with
  | mk s1 r =>
    obtain ⟨n, ok⟩ := r
    rw [hp] at h1
    have e1 : W.put s (putU32 (u32 size)) = (s1, (putU32 (u32 size)).take n, ok) := by rw [Writer.put, hp]
    rw [e1] at hf
    cases ok with
    | false => exact h1 rfl
    | true => exact h s1 body hf

theorem writer_units {W : Writer} (h : Honest W) (s : W.State) (size : Nat) (body : List UInt8) :
    (W.units s size body).2.1 <+: putU32 (u32 size) ++ body ∧ ((W.units s size body).2.2 = true → (W.units s size body).2.1 = putU32 (u32 size) ++ body) := by
  unfold Writer.units
  have h1 := h s (putU32 (u32 size))
  cases hp : W.write s (putU32 (u32 size)) with
  | mk s1 r =>
    obtain ⟨n, ok⟩ := r
    rw [hp] at h1
    simp only at h1
    have e1 : W.put s (putU32 (u32 size)) = (s1, (putU32 (u32 size)).take n, ok) := by rw [Writer.put, hp]
    rw [e1]
    cases ok with
    | false => exact ⟨(List.take_prefix _ _).trans (List.prefix_append _ _), fun hc => by cases hc⟩
    | true =>
      have h2 := h s1 body
      cases hq : W.write s1 body with
      | mk s2 r =>
        obtain ⟨m, ok⟩ := r
        rw [hq] at h2
        simp only at h2
        have e2 : W.put s1 body = (s2, body.take m, ok) := by rw [Writer.put, hq]
        simp only [e2]
        rw [h1.2 rfl, List.take_length]
        refine ⟨(List.prefix_append_right_inj _).2 (List.take_prefix _ _), fun hc => ?_⟩
        subst hc
        rw [h2.2 rfl, List.take_length]

/-- A run that is like another one or, in the case `P`, stops earlier with an error. -/
def Cut {α : Type} (P : Prop) (x y : Run α) : Prop := x = y ∨ (P ∧ x.res = .error .fatal ∧ x.out <+: y.out ∧ x.file <+: y.file)

theorem Cut.rfl' {α : Type} {P : Prop} (x : Run α) : Cut P x x := .inl rfl

theorem Cut.bind {W : Writer} {P : Prop} {α β : Type} {x : Dev W α} {y : Run α} {f : α → Dev W β} {g : α → Run β} (hx : ∀ s, Cut P (x s).2 y) (hf : ∀ a s, Cut P (f a s).2 (g a)) (s : W.State) :
    Cut P ((x >>= f) s).2 (y >>= g) := by
  have e1 : (x >>= f) s = match x s with
      | (s, r) => match r.res with
        | .error e => (s, ⟨r.out, r.file, .error e⟩)
        | .ok a => match f a s with
          | (s, r') => (s, ⟨r.out ++ r'.out, r.file ++ r'.file, r'.res⟩) := rfl
  have e2 : y >>= g = match y.res with
      | .error e => ⟨y.out, y.file, .error e⟩
      | .ok a => ⟨y.out ++ (g a).out, y.file ++ (g a).file, (g a).res⟩ := rfl
  have hx := hx s
  rw [e1, e2]
  cases hxs : x s with
  | mk s1 r =>
    rw [hxs] at hx
    simp only at hx ⊢
    rcases hx with hx | ⟨h0, h1, h2, h3⟩
    · subst hx
      cases hr : r.res with
      | error e => exact .inl rfl
      | ok a =>
        simp only
        have hfa := hf a s1
        cases hfs : f a s1 with
        | mk s2 r' =>
          rw [hfs] at hfa
          simp only at hfa ⊢
          rcases hfa with hfa | ⟨k0, k1, k2, k3⟩
          · subst hfa; exact .inl rfl
          · exact .inr ⟨k0, k1, (List.prefix_append_right_inj _).2 k2, (List.prefix_append_right_inj _).2 k3⟩
    · rw [h1]
      refine .inr ⟨h0, rfl, ?_, ?_⟩
      · cases y.res with
        | error e => exact h2
        | ok a => exact h2.trans (List.prefix_append _ _)
      · cases y.res with
        | error e => exact h3
        | ok a => exact h3.trans (List.prefix_append _ _)

theorem Cut.mute {W : Writer} {P : Prop} {α : Type} (x : Run α) (s : W.State) : Cut P ((Tool.mute x : Dev W α) s).2 x := .inl rfl

theorem Cut.save {W : Writer} {P : Prop} {write : W.State → W.State × List UInt8 × Bool} {bs : List UInt8} (h : ∀ s, (write s).2.1 <+: bs ∧ ((write s).2.2 = true → (write s).2.1 = bs))
    (hP : ∀ s, (write s).2.2 = false → P) (s : W.State) : Cut P (saveTo write s).2 (Tool.save bs) := by
  have h := h s
  have hP := hP s
  unfold saveTo
  cases hw : write s with
  | mk s1 r =>
    obtain ⟨b, ok⟩ := r
    rw [hw] at h hP
    simp only at h hP ⊢
    cases ok with
    | true => rw [h.2 rfl]; exact .inl rfl
    | false => exact .inr ⟨hP rfl, rfl, List.prefix_refl _, h.1⟩

theorem buildFileDev_cut {W : Writer} {P : Prop} (h : Honest W) (hP : Errs W P) (ratio : Nat → Nat → List UInt8) (linkSorter : Sorter) (o : Opts) (d : Dawg) (s : W.State) :
    Cut P (buildFileDev W ratio linkSorter o d s).2 (buildFileRun ratio linkSorter o d) := by
  unfold buildFileDev buildFileRun
  refine Cut.bind (Cut.mute _) (fun r s => ?_) s
  cases r with
  | none => exact Cut.mute _ _
  | some p =>
    obtain ⟨dict, unused⟩ := p
    simp only
    refine Cut.bind (Cut.mute _) (fun _ s => ?_) s
    refine Cut.bind (Cut.mute _) (fun _ s => ?_) s
    refine Cut.bind (Cut.mute _) (fun _ s => ?_) s
    refine Cut.bind (Cut.save (fun s => writer_units h s _ _) (fun s => units_errs hP s _ _)) (fun _ s => ?_) s
    have tail : ∀ (guide : Option (Option Guide)) (s : W.State), Cut P ((match guide with
        | none => (return () : Dev W Unit)
        | some none => Tool.mute (perform (.error (.fault .panic)))
        | some (some g) => do
          Tool.mute (stat "no. units" g.size)
          Tool.mute (stat "guide size" g.totalSize)
          saveTo (g.writeTo W)
          if o.index then
            match ← Tool.mute (perform (lift (buildIndex dict g))) with
            | none => Tool.mute (perform (.error .fatal))
            | some x =>
              Tool.mute (stat "no. index units" x.size)
              Tool.mute (stat "index size" x.totalSize)
              saveTo (x.writeTo W)
          else return ()) s).2 (match guide with
        | none => return ()
        | some none => perform (.error (.fault .panic))
        | some (some g) => do
          stat "no. units" g.size
          stat "guide size" g.totalSize
          save g.write
          if o.index then
            match ← perform (lift (buildIndex dict g)) with
            | none => perform (.error .fatal)
            | some x =>
              stat "no. index units" x.size
              stat "index size" x.totalSize
              save x.write
          else return ()) := by
      intro guide s
      match guide with
      | none => exact Cut.rfl' _
      | some none => exact Cut.mute _ _
      | some (some g) =>
        simp only
        refine Cut.bind (Cut.mute _) (fun _ s => ?_) s
        refine Cut.bind (Cut.mute _) (fun _ s => ?_) s
        refine Cut.bind (Cut.save (fun s => writer_units h s _ _) (fun s => units_errs hP s _ _)) (fun _ s => ?_) s
        by_cases hi : o.index = true
        · rw [if_pos hi, if_pos hi]
          refine Cut.bind (Cut.mute _) (fun r s => ?_) s
          cases r with
          | none => exact Cut.mute _ _
          | some x =>
            refine Cut.bind (Cut.mute _) (fun _ s => ?_) s
            refine Cut.bind (Cut.mute _) (fun _ s => ?_) s
            exact Cut.save (fun s => writer_units h s _ _) (fun s => units_errs hP s _ _) s
        · rw [if_neg hi, if_neg hi]
          exact Cut.rfl' _
    by_cases hr : o.ranked = true
    · simp only [if_pos hr]
      exact Cut.bind (Cut.mute _) (fun g s => tail g s) s
    · simp only [if_neg hr]
      by_cases hg : o.guide = true
      · simp only [if_pos hg]
        exact Cut.bind (Cut.mute _) (fun g s => tail g s) s
      · simp only [if_neg hg]
        exact Cut.bind (x := (pure none : Dev W (Option (Option Guide)))) (y := pure none) (fun _ => Cut.rfl' _) (fun g s => tail g s) s

/-- The build with a writer is the build with the file, or stops earlier with an error. -/
theorem buildDev_cut {R : Reader} {W : Writer} {P : Prop} (h : Honest W) (hP : Errs W P) (ratio : Nat → Nat → List UInt8) (sorter : LineSorter) (linkSorter : Sorter) (grow : Nat → Nat) (o : Opts)
    {fin : ReadErr} {s : R.State} {lexicon : List UInt8} (ha : Alone R ∨ Short lexicon) (hd : Delivers R 100 fin 0 s lexicon) (w : W.State) :
    ∃ N, ∀ fuel, N ≤ fuel → Cut P (buildDev R W ratio sorter linkSorter grow o fuel s w).2 (buildRun ratio sorter linkSorter grow o lexicon) := by
  obtain ⟨N, sc', h1, _⟩ := lines_delivers ha hd
  refine ⟨N, fun fuel hf => ?_⟩
  unfold buildDev buildRun
  have e1 : (do
      let (lines, _) ← (Tool.mute (perform (lift (Scanner.lines R fuel Scanner.new s))) : Dev W _)
      let (b, count) ← Tool.mute (processLinesRun o (orderLines sorter grow o lines) Builder.new 0)
      let (_, d) ← Tool.mute (perform (lift b.finish))
      Tool.mute (dawgStats count d)
      buildFileDev W ratio linkSorter o d) w = (do
      let (b, count) ← Tool.mute (processLinesRun o (orderLines sorter grow o (scanLines lexicon)) Builder.new 0)
      let (_, d) ← Tool.mute (perform (lift b.finish))
      Tool.mute (dawgStats count d)
      buildFileDev W ratio linkSorter o d) w := by
    rw [h1 fuel hf]
    rfl
  rw [e1]
  refine Cut.bind (Cut.mute _) (fun bc s => ?_) w
  refine Cut.bind (Cut.mute _) (fun bd s => ?_) s
  refine Cut.bind (Cut.mute _) (fun _ s => ?_) s
  exact buildFileDev_cut h hP _ _ _ _ _

/-! ## Loading -/

theorem loadFrom_delivers {R : Reader} {lim : Nat} {fin : ReadErr} {e : Nat} {s : R.State} {bs : List UInt8} (h : Delivers R lim fin e s bs) (o : Opts) :
    ∃ N, ∀ fuel, N ≤ fuel → loadFrom R fuel o s = load o bs := by
  obtain ⟨N1, s1, h1, h2⟩ := dict_delivers h Dictionary.new
  unfold load Dictionary.readNew
  cases hr : Dictionary.new.read bs with
  | mk d r =>
    obtain ⟨ok, r⟩ := r
    rw [hr] at h1 h2
    simp only at h1 h2
    cases ok with
    | false =>
      refine ⟨N1, fun fuel hf => ?_⟩
      rw [loadFrom, h1 fuel hf]
      rfl
    | true =>
      obtain ⟨e2, h3⟩ := h2 rfl
      simp only
      by_cases hg : (o.ranked || o.guide) = true
      case neg =>
        refine ⟨N1, fun fuel hf => ?_⟩
        rw [loadFrom, h1 fuel hf, if_neg hg]
        show (if (o.ranked || o.guide) = true then _ else _) = _
        rw [if_neg hg]
      rw [if_pos hg]
      obtain ⟨N2, s2, k1, k2⟩ := guide_delivers h3 Guide.new
      have e1 : ∀ fuel, N1 ≤ fuel → loadFrom R fuel o s = (do
          match ← lift (Guide.new.readFrom R fuel s1) with
          | (_, false, _) => .error .fatal
          | (g, true, s) =>
            if o.index then
              match ← lift (Index.new.readFrom R fuel s) with
              | (_, false, _) => .error .fatal
              | (x, true, _) => return { dict := d, guide := some g, index := some x }
            else return { dict := d, guide := some g, index := none }) := by
        intro fuel hf
        rw [loadFrom, h1 fuel hf]
        show (if (o.ranked || o.guide) = true then _ else _) = _
        rw [if_pos hg]
        rfl
      unfold Guide.readNew
      cases hr2 : Guide.new.read r with
      | mk g r2 =>
        obtain ⟨ok, r2⟩ := r2
        rw [hr2] at k1 k2
        simp only at k1 k2
        cases ok with
        | false =>
          refine ⟨N1 + N2, fun fuel hf => ?_⟩
          rw [e1 fuel (by omega), k1 fuel (by omega)]
          rfl
        | true =>
          obtain ⟨e3, k3⟩ := k2 rfl
          simp only
          by_cases hi : o.index = true
          case neg =>
            refine ⟨N1 + N2, fun fuel hf => ?_⟩
            rw [e1 fuel (by omega), k1 fuel (by omega), if_neg hi]
            show (if o.index = true then _ else _) = _
            rw [if_neg hi]
          rw [if_pos hi]
          obtain ⟨N3, s3, m1, m2⟩ := index_delivers k3 Index.new
          unfold Index.readNew
          have e2 : ∀ fuel, N1 + N2 ≤ fuel → loadFrom R fuel o s = (do
              match ← lift (Index.new.readFrom R fuel s2) with
              | (_, false, _) => .error .fatal
              | (x, true, _) => return { dict := d, guide := some g, index := some x }) := by
            intro fuel hf
            rw [e1 fuel (by omega), k1 fuel (by omega)]
            show (if o.index = true then _ else _) = _
            rw [if_pos hi]
          cases hr3 : Index.new.read r2 with
          | mk x r3 =>
            obtain ⟨ok, r3⟩ := r3
            rw [hr3] at m1
            simp only at m1
            refine ⟨N1 + N2 + N3, fun fuel hf => ?_⟩
            rw [e2 fuel (by omega), m1 fuel (by omega)]
            cases ok <;> rfl

/-- The answers of the tool do not depend on the pieces. -/
theorem queryFrom_delivers {R R' : Reader} {lim : Nat} {fin fin' : ReadErr} {e : Nat} {s : R.State} {s' : R'.State} {dictionary queries : List UInt8}
    (ha : Alone R' ∨ Short queries) (h : Delivers R lim fin e s dictionary) (h' : Delivers R' 100 fin' 0 s' queries) (o : Opts) :
    ∃ N, ∀ fuel, N ≤ fuel → queryFrom R R' o fuel s s' = queryRun o fuel dictionary queries := by
  obtain ⟨N, h1⟩ := loadFrom_delivers h o
  obtain ⟨N', sc', h2, _⟩ := lines_delivers ha h'
  refine ⟨N + N', fun fuel hf => ?_⟩
  unfold queryFrom queryRun
  rw [h1 fuel (by omega), h2 fuel (by omega)]
  rfl

/-! ## Incomplete files -/

theorem readFull_more {n : Nat} {p buf r : List UInt8} (h : readFull n p = (some buf, r)) (q : List UInt8) : readFull n (p ++ q) = (some buf, r ++ q) := by
  unfold readFull at h ⊢
  split at h
  · rename_i hle
    cases h
    rw [if_pos (by rw [List.length_append]; omega), List.take_append_of_le_length hle, List.drop_append_of_le_length hle]
  · cases h

theorem readUnits_more {α : Type} {k : Nat} {dec : List UInt8 → List α} {p : List UInt8} {us : List α} {r : List UInt8} (h : readUnits k dec p = (some us, r)) (q : List UInt8) :
    readUnits k dec (p ++ q) = (some us, r ++ q) := by
  unfold readUnits at h ⊢
  cases hr : readFull 4 p with
  | mk o r1 =>
    rw [hr] at h
    cases o with
    | none => cases h
    | some buf =>
      obtain ⟨a, b, c, d, rfl⟩ := length4 (readFull_length hr)
      rw [readFull_more hr q]
      simp only at h ⊢
      cases hr2 : readFull (k * getU32 a b c d) r1 with
      | mk o r2 =>
        rw [hr2] at h
        cases o with
        | none => cases h
        | some buf => cases h; rw [readFull_more hr2 q]

theorem index_read_more {x x' : Index} {p r : List UInt8} (h : x.read p = (x', true, r)) (q : List UInt8) : x.read (p ++ q) = (x', true, r ++ q) := by
  unfold Index.read at h ⊢
  cases hr : readFull 4 p with
  | mk o r1 =>
    rw [hr] at h
    cases o with
    | none => cases h
    | some buf =>
      obtain ⟨a, b, c, d, rfl⟩ := length4 (readFull_length hr)
      rw [readFull_more hr q]
      simp only at h ⊢
      cases hr2 : readFull (4 * getU32 a b c d) r1 with
      | mk o r2 =>
        rw [hr2] at h
        cases o with
        | none => cases h
        | some buf => cases h; rw [readFull_more hr2 q]

end Dawg.Stream
