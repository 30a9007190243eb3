import Verif.Props.Text
/-! # C62: dictionary files with arbitrary contents -/
namespace Dawg.Props
open Dawg Dawg.Spec Dawg.Client Dawg.Abs Dawg.Dict Dawg.Guided Dawg.Tool
attribute [-simp] List.length_flatten

/-- The full claim C62: whatever the dictionary file contains, dawgtool reports an error or answers all queries. -/
def C62_statement : Prop := ∀ (o : Opts) (dictionary lexicon : List UInt8), o.index = false →
  ∃ N, ∀ fuel, N ≤ fuel → (∃ r, mainQuery o fuel dictionary lexicon = .ok r) ∨ mainQuery o fuel dictionary lexicon = .error .fatal

/-- **C62 is false**: with a dictionary of one zero unit, which `ReadDictionary` accepts, the query "a" panics. -/
theorem C62_corrupt_false : ¬ C62_statement ∧ ∀ fuel, mainQuery {} fuel [1, 0, 0, 0, 0, 0, 0, 0] [97] = .error (.fault .panic) := by
  have key : ∀ fuel, mainQuery {} fuel [1, 0, 0, 0, 0, 0, 0, 0] [97] = .error (.fault .panic) := fun fuel => rfl
  refine ⟨fun hs => ?_, key⟩
  obtain ⟨N, h⟩ := hs {} [1, 0, 0, 0, 0, 0, 0, 0] [97] rfl
  rcases h N (Nat.le_refl _) with ⟨r, h⟩ | h
  · rw [key] at h; cases h
  · rw [key] at h; cases h

/-- A file with a dictionary and a guide in which 'a' leads back to the same unit. -/
def loopFile : List UInt8 :=
  (Dictionary.mk ((List.range 256).map (fun i => if i = 97 then 99425 else 0))).write ++
    (Guide.mk ((List.range 256).map (fun i => if i = 0 ∨ i = 97 then ⟨97, 0⟩ else ⟨0, 0⟩))).write

theorem next_hangs {file : List UInt8} {D : Dictionary} {g : Guide} (h1 : load { guide := true } file = .ok ⟨D, some g, none⟩) (hz : g.size ≠ 0)
    (h2 : Completer.next D g ⟨[0], [0], 0⟩ = .error .hang) (fuel : Nat) : mainQuery { guide := true } (fuel + 1) file [10] = .error (.fault .hang) := by
  unfold mainQuery handleLoad
  rw [h1]
  change (lift (answers { guide := true } ⟨D, some g, none⟩ (fuel + 1) Completers.new (scanLines [10])) >>= _) = _
  rw [show scanLines [10] = [[]] by decide, answers]
  unfold answer
  simp only [queryRank, ok_bind, Dictionary.followString, Bool.not_true, Bool.false_eq_true, if_false]
  rw [start_eq, startString_eq hz]
  simp only [ok_bind]
  rw [completeLoop, show Completer.next D g ⟨[] ++ [0], [D.root], 0⟩ = .error .hang from h2]
  rfl

set_option maxRecDepth 100000 in
/-- **C62 fails otherwise, too**: with a guide that has a cycle, the completer runs for ever. -/
theorem C62_cycle_hangs (fuel : Nat) : mainQuery { guide := true } (fuel + 1) loopFile [10] = .error (.fault .hang) :=
  next_hangs (D := ⟨(List.range 256).map (fun i => if i = 97 then 99425 else 0)⟩)
    (g := ⟨(List.range 256).map (fun i => if i = 0 ∨ i = 97 then ⟨97, 0⟩ else ⟨0, 0⟩)⟩) (by decide +kernel) (by decide +kernel) (by decide +kernel) fuel

/-- **C62**, what is true: loading ends with an error message or with a dictionary, for every file.  (The memory that Go allocates for a file that announces
many units is not modelled.) -/
theorem C62_load_partial (o : Opts) (file : List UInt8) : (∃ l, load o file = .ok l) ∨ load o file = .error .fatal := by
  unfold load
  cases h : Dictionary.readNew file with
  | mk D rest =>
    cases D with
    | none => exact .inr rfl
    | some D =>
      cases hg : (o.ranked || o.guide) with
      | false => exact .inl ⟨_, rfl⟩
      | true =>
        simp only [if_true]
        cases h2 : Guide.readNew rest with
        | mk G rest =>
          cases G with
          | none => exact .inr rfl
          | some G =>
            cases hi : o.index with
            | false => exact .inl ⟨_, rfl⟩
            | true =>
              simp only [if_true]
              cases h3 : Index.readNew rest with
              | mk X rest =>
                cases X with
                | none => exact .inr rfl
                | some X => exact .inl ⟨_, rfl⟩

/-- Units `S` of a dictionary (from wherever it was read) on which queries of the bytes `A` work: the dictionary consists of whole blocks of 256 units, the root is in `S`,
the units of `S` exist and lead to blocks of the dictionary, and bytes of `A` lead from units of `S` only to units of `S`. -/
structure Closed (D : Dictionary) (A : UInt8 → Prop) (S : Nat → Prop) : Prop where
  whole : D.units.length % 256 = 0
  root : S D.root
  lead : ∀ i, S i → ∃ u, D.units[i]? = some u ∧ i ^^^ dictOffset u < D.units.length
  step : ∀ i b j, S i → A b → D.follow b i = .ok (some j) → S j

section
variable {D : Dictionary} {A : UInt8 → Prop} {S : Nat → Prop}

theorem Closed.lt (h : Closed D A S) {i : Nat} (hi : S i) : i < D.units.length := by
  obtain ⟨u, hu, _⟩ := h.lead i hi
  exact (List.getElem?_eq_some_iff.1 hu).1

theorem Closed.offset (h : Closed D A S) {i : Nat} (hi : S i) : i ^^^ dictOffset (D.units[i]'(h.lt hi)) < D.units.length := by
  obtain ⟨u, hu, h1⟩ := h.lead i hi
  obtain ⟨_, rfl⟩ := List.getElem?_eq_some_iff.1 hu
  exact h1

theorem Closed.follow (h : Closed D A S) (b : UInt8) {i : Nat} (hi : S i) : D.follow b i = .ok none ∨ ∃ j, D.follow b i = .ok (some j) ∧ j < D.units.length := by
  have h1 := h.offset hi
  have h2 : i ^^^ dictOffset (D.units[i]'(h.lt hi)) ^^^ b.toNat < D.units.length := by
    have : D.units.length = 256 * (D.units.length / 256) := by have := h.whole; omega
    rw [this]
    rw [this] at h1
    exact (xor_lt_of_block b.toNat_lt).2 h1
  unfold Dictionary.follow
  rw [rd_lt (h.lt hi)]
  simp only [ok_bind]
  rw [rd_lt h2]
  simp only [ok_bind, pure_eq_ok]
  split
  · exact .inl rfl
  · exact .inr ⟨_, rfl, h2⟩

theorem Closed.followString (h : Closed D A S) : ∀ (q : Key) {i : Nat}, S i → (∀ b ∈ q, A b) → ∃ ok j n, S j ∧ D.followString q i = .ok (ok, j, n)
  | [], i, hi, _ => ⟨true, i, 0, hi, rfl⟩
  | b :: q, i, hi, hq => by
    rw [Dictionary.followString]
    rcases h.follow b hi with h1 | ⟨j, h1, _⟩
    · rw [h1]
      exact ⟨false, i, 0, hi, rfl⟩
    · obtain ⟨ok, k, n, hk, h2⟩ := h.followString q (h.step i b j hi (hq b List.mem_cons_self) h1) (fun x hx => hq x (List.mem_cons_of_mem _ hx))
      rw [h1]
      simp only [ok_bind]
      rw [h2]
      exact ⟨ok, k, n + 1, hk, rfl⟩

theorem Closed.hasValue (h : Closed D A S) {i : Nat} (hi : S i) : ∃ b, D.hasValue i = .ok b := by
  unfold Dictionary.hasValue
  rw [rd_lt (h.lt hi)]
  exact ⟨_, rfl⟩

theorem Closed.value (h : Closed D A S) {i : Nat} (hi : S i) : ∃ v, D.value i = .ok v := by
  unfold Dictionary.value
  rw [rd_lt (h.lt hi)]
  simp only [ok_bind]
  rw [rd_lt (h.offset hi)]
  exact ⟨_, rfl⟩

/-- **C62**, what is true of look-ups: on a dictionary with such units, no query of such bytes goes wrong. -/
theorem C62_lookup_partial (h : Closed D A S) (q : Key) (hq : ∀ b ∈ q, A b) (out : Int) :
    (∃ b, D.containsString q = .ok b) ∧ (∃ v, D.findString q = .ok v) ∧ (∃ r, D.findStringValue q out = .ok r) ∧ ∃ r, D.followString q D.root = .ok r := by
  obtain ⟨ok, j, n, hj, h1⟩ := h.followString q h.root hq
  obtain ⟨b, h2⟩ := h.hasValue hj
  obtain ⟨v, h3⟩ := h.value hj
  unfold Dictionary.containsString Dictionary.findString Dictionary.findStringValue
  rw [h1]
  cases ok <;> cases b <;> simp [ok_bind, pure_eq_ok, h2, h3]

theorem Closed.prefixLoop (h : Closed D A S) (key : Key) : ∀ (q : Key) (pos : Nat) {i : Nat}, S i → (∀ b ∈ q, A b) → ∃ xs, prefixLoop D key q pos i = .ok xs
  | [], _, i, hi, _ => ⟨[], rfl⟩
  | b :: q, pos, i, hi, hq => by
    rw [Tool.prefixLoop]
    rcases h.follow b hi with h1 | ⟨j, h1, _⟩
    · rw [h1]
      exact ⟨[], rfl⟩
    · have hj := h.step i b j hi (hq b List.mem_cons_self) h1
      obtain ⟨xs, h2⟩ := h.prefixLoop key q (pos + 1) hj (fun x hx => hq x (List.mem_cons_of_mem _ hx))
      obtain ⟨c, h3⟩ := h.hasValue hj
      obtain ⟨v, h4⟩ := h.value hj
      rw [h1]
      simp only [ok_bind]
      rw [h2]
      simp only [ok_bind]
      rw [h3]
      simp only [ok_bind]
      cases c with
      | false => exact ⟨_, rfl⟩
      | true =>
        simp only [if_true]
        rw [h4]
        exact ⟨_, rfl⟩

/-- **C62**, what is true of dawgtool without guides: a file with such a dictionary makes no query of such bytes panic. -/
theorem C62_tool_partial {dictionary : List UInt8} {rest : List UInt8} (hd : Dictionary.readNew dictionary = (some D, rest)) (h : Closed D A S)
    (fuel : Nat) (lexicon : List UInt8) (hq : ∀ q ∈ scanLines lexicon, ∀ b ∈ q, A b) :
    ∃ as, mainQuery {} fuel dictionary lexicon = .ok (as, none) ∧ as.map (·.query) = scanLines lexicon := by
  have key : ∀ (qs : List Key) (c : Completers), (∀ q ∈ qs, ∀ b ∈ q, A b) → ∃ as, answers {} ⟨D, none, none⟩ fuel c qs = .ok as ∧ as.map (·.query) = qs := by
    intro qs
    induction qs with
    | nil => intro c _; exact ⟨[], rfl, rfl⟩
    | cons q qs ih =>
      intro c hq
      obtain ⟨xs, h1⟩ := h.prefixLoop q q 0 h.root (hq q List.mem_cons_self)
      obtain ⟨as, h2, h3⟩ := ih c (fun x hx => hq x (List.mem_cons_of_mem _ hx))
      refine ⟨⟨q, none, xs.map (fun e => (e.1, Int.ofNat e.2))⟩ :: as, ?_, by simp [h3]⟩
      rw [answers]
      unfold answer queryPrefixes
      simp only
      rw [h1]
      simp only [ok_bind, pure_eq_ok]
      rw [h2]
      rfl
  obtain ⟨as, h1, h2⟩ := key (scanLines lexicon) Completers.new hq
  refine ⟨as, ?_, h2⟩
  unfold mainQuery handleLoad load
  rw [hd]
  show (lift (answers {} ⟨D, none, none⟩ fuel Completers.new (scanLines lexicon)) >>= _) = _
  rw [h1]
  rfl

/-- All units and all bytes: enough is that every unit leads to a block of the dictionary. -/
theorem closed_all (h0 : 0 < D.units.length) (hw : D.units.length % 256 = 0) (h : ∀ i (hi : i < D.units.length), i ^^^ dictOffset D.units[i] < D.units.length) :
    Closed D (fun _ => True) (· < D.units.length) := by
  refine ⟨hw, h0, fun i hi => ⟨_, List.getElem?_eq_getElem hi, h i hi⟩, ?_⟩
  intro i b j hi _ hj
  unfold Dictionary.follow at hj
  rw [rd_lt hi] at hj
  simp only [ok_bind] at hj
  obtain ⟨w, h1, h2⟩ := bind_eq_ok.1 hj
  have h3 := (List.getElem?_eq_some_iff.1 (rd_eq_ok.1 h1)).1
  simp only [pure_eq_ok, Except.ok.injEq] at h2
  split at h2
  · cases h2
  · cases h2; exact h3
end

/-- A dictionary of 256 units that all lead to unit 0, with whatever labels. -/
example : Closed ⟨(List.range 256).map (fun i => i * 1024 + 7)⟩ (fun _ => True) (· < ((List.range 256).map (fun i => i * 1024 + 7)).length) :=
  closed_all (D := ⟨(List.range 256).map (fun i => i * 1024 + 7)⟩) (by decide +kernel) (by decide +kernel) (by
    intro i hi
    simp only [List.length_map, List.length_range] at hi
    simp only [List.getElem_map, List.getElem_range, List.length_map, List.length_range]
    revert i
    decide +kernel)

end Dawg.Props
