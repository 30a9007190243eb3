import Verif.Proof.Device
import Verif.Props.Mixed
import Verif.Props.Output
import Verif.Props.Corrupt
/-! # C89–C91: readers and writers that work in pieces and can fail -/
namespace Dawg.Props
open Dawg Dawg.Spec Dawg.Client Dawg.Abs Dawg.Dict Dawg.Guided Dawg.Tool Dawg.Stream
attribute [-simp] List.length_flatten

/-! ## Examples of readers and writers -/

/-- A reader that delivers at most `k` bytes at a time and then gives the error `fin`. -/
def pieces (k : Nat) (fin : ReadErr) : Reader where
  State := List UInt8
  read s m := (s.drop (min k m), s.take (min k m), if s = [] then some fin else none)

theorem pieces_alone (k : Nat) (fin : ReadErr) : Alone (pieces k fin) := by
  intro (s : List UInt8) m _ h
  by_cases hs : s = []
  · subst hs; simp [pieces]
  · exact absurd (by simp [pieces, hs]) h

theorem pieces_ended (k : Nat) (fin : ReadErr) : Ended (pieces k fin) fin ([] : List UInt8) := by
  refine ⟨fun s => s = ([] : List UInt8), rfl, fun s hs m _ => ?_⟩
  subst hs
  exact ⟨by simp [pieces], by simp [pieces], by simp [pieces]⟩

theorem pieces_delivers {k : Nat} (hk : 0 < k) (fin : ReadErr) (lim : Nat) : ∀ (n : Nat) (bs : List UInt8), bs.length ≤ n → Delivers (pieces k fin) lim fin 0 bs bs
  | 0, bs, hn => by
    have : bs = [] := List.length_eq_zero_iff.1 (by omega)
    subst this
    exact (pieces_ended k fin).delivers _ _
  | n + 1, bs, hn => by
    by_cases hb : bs = []
    · subst hb; exact (pieces_ended k fin).delivers _ _
    · have hl := List.length_pos_iff.2 hb
      refine .mk (fun m hm => ⟨List.take_prefix _ _, by simp only [pieces, List.length_take]; omega⟩) (fun m hm x hx => by simp [pieces, hb] at hx) (fun m hm _ _ => ?_)
        (fun m hm _ hc => ?_) (fun m hm _ hc => ?_)
      · have e1 : bs.drop ((pieces k fin).read bs m).2.1.length = bs.drop (min k m) := by
          simp only [pieces, List.length_take]
          by_cases hle : min k m ≤ bs.length
          · rw [Nat.min_eq_left hle]
          · rw [Nat.min_eq_right (by omega), List.drop_of_length_le (Nat.le_refl _), List.drop_of_length_le (by omega)]
        rw [e1]
        exact pieces_delivers hk fin lim n (bs.drop (min k m)) (by rw [List.length_drop]; omega)
      all_goals
        have := congrArg List.length hc
        simp only [pieces, List.length_take, List.length_nil] at this
        omega

/-- A disk; the state is the number of free bytes. -/
def disk : Writer where
  State := Nat
  write s p := (s - min s p.length, min s p.length, decide (p.length ≤ s))

theorem disk_honest : Honest disk := by
  intro s p
  simp only [disk, decide_eq_true_eq]
  omega

/-- A writer that takes everything. -/
def endless : Writer where
  State := Unit
  write _ p := ((), p.length, true)

theorem endless_honest : Honest endless := fun _ _ => ⟨Nat.le_refl _, fun _ => rfl⟩
theorem endless_errs : Errs endless False := by
  intro _ _ h
  cases h

/-! ## C89: reading in pieces -/

/-- **C89** From every reader that delivers the bytes `bs`, `Dictionary.Read` gives what it gives from these bytes at once, whatever the pieces and the error at the end; after a success
the reader still has what follows. -/
theorem C89_dictionary {R : Reader} {lim : Nat} {fin : ReadErr} {e : Nat} {s : R.State} {bs : List UInt8} (h : Delivers R lim fin e s bs) (d : Dictionary) :
    ∃ N s', (∀ fuel, N ≤ fuel → d.readFrom R fuel s = .ok ((d.read bs).1, (d.read bs).2.1, s')) ∧
      ((d.read bs).2.1 = true → ∃ e', Delivers R lim fin e' s' (d.read bs).2.2) := dict_delivers h d

/-- **C89** The same for guides and ranked guides. -/
theorem C89_guide {R : Reader} {lim : Nat} {fin : ReadErr} {e : Nat} {s : R.State} {bs : List UInt8} (h : Delivers R lim fin e s bs) (g : Guide) :
    ∃ N s', (∀ fuel, N ≤ fuel → g.readFrom R fuel s = .ok ((g.read bs).1, (g.read bs).2.1, s')) ∧
      ((g.read bs).2.1 = true → ∃ e', Delivers R lim fin e' s' (g.read bs).2.2) := guide_delivers h g

/-- **C89** The same for indexes. -/
theorem C89_index {R : Reader} {lim : Nat} {fin : ReadErr} {e : Nat} {s : R.State} {bs : List UInt8} (h : Delivers R lim fin e s bs) (x : Index) :
    ∃ N s', (∀ fuel, N ≤ fuel → x.readFrom R fuel s = .ok ((x.read bs).1, (x.read bs).2.1, s')) ∧
      ((x.read bs).2.1 = true → ∃ e', Delivers R lim fin e' s' (x.read bs).2.2) := index_delivers h x

/-- **C89** What was written is read back, in pieces of any size. -/
theorem C89_roundtrip {R : Reader} {lim : Nat} {fin : ReadErr} {e : Nat} {s : R.State} (d recv : Dictionary) (hd : Units32 d.units) (rest : List UInt8)
    (h : Delivers R lim fin e s (d.write ++ rest)) : ∃ N s', (∀ fuel, N ≤ fuel → recv.readFrom R fuel s = .ok (d, true, s')) ∧ ∃ e', Delivers R lim fin e' s' rest := by
  obtain ⟨N, s', h1, h2⟩ := dict_delivers h recv
  rw [(C19_dictionary_roundtrip d recv hd rest).1] at h1 h2
  exact ⟨N, s', h1, h2 rfl⟩

/-- **C89** dawgtool without `-b`: it prints the same and ends in the same way, in whatever pieces the two files are read (if the last piece of the
queries comes together with the error, no query has 65536 bytes: see `C90_together`). -/
theorem C89_tool {R R' : Reader} {lim : Nat} {fin fin' : ReadErr} {e : Nat} {s : R.State} {s' : R'.State} {dictionary queries : List UInt8}
    (ha : Alone R' ∨ Short queries) (h : Delivers R lim fin e s dictionary) (h' : Delivers R' 100 fin' 0 s' queries) (o : Opts) :
    ∃ N, ∀ fuel, N ≤ fuel → queryFrom R R' o fuel s s' = queryRun o fuel dictionary queries := queryFrom_delivers ha h h' o

/-- A dictionary of two units, read byte by byte; a byte follows. -/
example : ∃ N s', (∀ fuel, N ≤ fuel → Dictionary.new.readFrom (pieces 1 .eof) fuel [2, 0, 0, 0, 1, 0, 0, 0, 255, 255, 255, 255, 9] = .ok ({ units := [1, 4294967295] }, true, s')) ∧
    ∃ e', Delivers (pieces 1 .eof) 0 .eof e' s' [9] :=
  C89_roundtrip { units := [1, 4294967295] } Dictionary.new (by unfold Units32; decide) [9] (pieces_delivers (by omega) .eof 0 13 _ (by decide))

example : (Dictionary.new.readFrom (pieces 1 .eof) 9 [2, 0, 0, 0, 1, 0, 0, 0, 255, 255, 255, 255, 9]).map (fun r => (r.1.units, r.2.1)) = .ok ([1, 4294967295], true) := by decide
example : (Dictionary.new.readFrom (pieces 3 .device) 9 [2, 0, 0, 0, 1, 0, 0, 0, 255, 255, 255]).map (fun r => (r.1.units, r.2.1)) = .ok (Dictionary.new.units, false) := by decide

/-! ## C90: read errors of the lexicon -/

/-- **C90**, the lines: from every reader, the scanner yields the lines of the bytes that the reader delivers, whatever the pieces and whatever the error; it remembers the error (unless it
stopped at a line of 65536 bytes).  Lines of 65536 bytes are covered for readers that give their error alone; `C90_together` is what another reader does. -/
theorem C90_lines_partial {R : Reader} {fin : ReadErr} {s : R.State} {bs : List UInt8} (ha : Alone R ∨ Short bs) (h : Delivers R 100 fin 0 s bs) :
    ∃ N sc, (∀ fuel, N ≤ fuel → Scanner.lines R fuel Scanner.new s = .ok (scanLines bs, sc)) ∧
      (sc.err = some fin ∨ sc.err = some .tooLong ∧ ∃ pre line rest, bs = pre ++ line ++ rest ∧ 10 ∉ line ∧ line.length = 65536) := lines_delivers ha h

/-- The full claim C90: when the lexicon cannot be read to its end, dawgtool -b stops with an error. -/
def C90_statement : Prop := ∀ (ratio : Nat → Nat → List UInt8) (sorter : LineSorter) (linkSorter : Sorter) (grow : Nat → Nat), StableSort sorter → StableSort linkSorter →
  ∀ (R : Reader), Alone R → ∀ (W : Writer), Honest W → ∀ (o : Opts) (fuel : Nat) (lexicon : R.State) (bs : List UInt8) (w : W.State), Delivers R 100 .device 0 lexicon bs →
    ∃ e, (buildDev R W ratio sorter linkSorter grow o fuel lexicon w).2.res = .error e

/-- **C90**, what happens instead: whatever the error with which the reading of the lexicon ends, the tool prints, writes and ends as if the lexicon ended there. -/
theorem C90_read_error_partial {R : Reader} {W : Writer} (hw : Honest W) (hW : Errs W False) (ratio : Nat → Nat → List UInt8) (sorter : LineSorter) (linkSorter : Sorter)
    (grow : Nat → Nat) (o : Opts) {fin : ReadErr} {s : R.State} {bs : List UInt8} (ha : Alone R ∨ Short bs) (h : Delivers R 100 fin 0 s bs) (w : W.State) :
    ∃ N, ∀ fuel, N ≤ fuel → (buildDev R W ratio sorter linkSorter grow o fuel s w).2 = buildRun ratio sorter linkSorter grow o bs := by
  obtain ⟨N, h1⟩ := buildDev_cut hw hW ratio sorter linkSorter grow o ha h w
  refine ⟨N, fun fuel hf => ?_⟩
  rcases h1 fuel hf with h2 | ⟨h2, _⟩
  · exact h2
  · exact h2.elim

theorem line_a (sorter : LineSorter) {linkSorter : Sorter} (hls : StableSort linkSorter) (grow : Nat → Nat) : ∃ d D file, Made [([97], 0)] d D ∧ buildFile linkSorter {} d = .ok file ∧
    mainBuild sorter linkSorter grow {} [97, 10] = .ok file := by
  obtain ⟨h1, _⟩ := C47_unsorted (o := {}) sorter grow (lines := scanLines [97, 10]) rfl (fun l _ _ => ⟨_, rfl⟩) (by decide +kernel) (by decide +kernel)
  obtain ⟨d, oks, b, h2, h3, _⟩ := h1 (by decide +kernel)
  rw [show ((scanLines [97, 10]).filter (fun l : List UInt8 => l.length ≠ 0)).map (entry {}) = [([97], 0)] by decide +kernel] at h3
  obtain ⟨d', D, h4, oks', b', h5⟩ := C14_small_builds 256 (by omega) (by omega) [([97], 0)] (by decide) (by decide)
  rw [h3] at h5
  cases h5
  obtain ⟨file, h6⟩ := C45_tool_writes h4 hls {} (by simp)
  refine ⟨d, D, file, h4, h6, ?_⟩
  unfold mainBuild
  rw [h2]
  exact h6

/-- **C90 is false**: when the lexicon "a", "b" cannot be read beyond its first line, the tool makes a dictionary of "a" alone and ends normally. -/
theorem C90_read_error_false : ¬ C90_statement := by
  intro h
  obtain ⟨d, D, file, _, _, h3⟩ := line_a (fun less l => l.mergeSort (fun a b => !less b a)) insertionSort_stableSort (fun n => n)
  obtain ⟨_, _, _, _, _, h4⟩ := buildRun_ok h3 (fun _ _ => [])
  have hd := pieces_delivers (k := 4096) (by omega) .device 100 2 [97, 10] (by decide)
  obtain ⟨N, h5⟩ := C90_read_error_partial endless_honest endless_errs (fun _ _ => []) (fun less l => l.mergeSort (fun a b => !less b a)) insertionSort
    (fun n => n) {} (.inl (pieces_alone 4096 .device)) hd ()
  obtain ⟨e, h6⟩ := h (fun _ _ => []) (fun less l => l.mergeSort (fun a b => !less b a)) insertionSort (fun n => n) (exists_stableSort _) insertionSort_stableSort _ (pieces_alone 4096 .device)
    _ endless_honest {} N [97, 10] [97, 10] () hd
  rw [h5 N (Nat.le_refl N), h4] at h6
  cases h6

/-- The lines "a", "", "b\r", "c" in pieces of two bytes, and then an error. -/
example : (Scanner.lines (pieces 2 .device) 20 Scanner.new [97, 10, 10, 98, 13, 10, 99]).map (fun r => (r.1, r.2.err)) = .ok ([[97], [], [98], [99]], some .device) := by decide +kernel

/-- A reader of `n` bytes 97 that gives the end of the stream together with the last of them. -/
abbrev together : Reader where
  State := Nat
  read n m := (n - min n m, List.replicate (min n m) 97, if n ≤ m then some .eof else none)

theorem together_delivers (lim : Nat) (n : Nat) : Delivers together lim .eof 0 n (List.replicate n 97) := by
  induction n using Nat.strongRecOn with
  | _ n ih =>
    refine .mk (fun m hm => ?_) (fun m hm x hx => ?_) (fun m hm hx hc => ?_) (fun m hm hx hc => ?_) (fun m hm hx hc => ?_)
    · refine ⟨⟨List.replicate (n - min n m) 97, ?_⟩, by simp only [List.length_replicate]; omega⟩
      simp only
      rw [List.replicate_append_replicate]
      congr 1
      omega
    · simp only [together] at hx ⊢
      by_cases hle : n ≤ m
      · rw [if_pos hle] at hx
        cases hx
        rw [Nat.min_eq_left hle]
        refine ⟨rfl, rfl, fun k => k = (0 : Nat), Nat.sub_self n, fun k hk m _ => ?_⟩
        subst hk
        simp
      · rw [if_neg hle] at hx
        cases hx
    · simp only [together] at hx ⊢
      by_cases hle : n ≤ m
      · rw [if_pos hle] at hx
        cases hx
      · rw [Nat.min_eq_right (by omega), List.length_replicate, List.drop_replicate]
        exact ih (n - m) (by omega)
    all_goals
      simp only at hx hc
      by_cases hle : n ≤ m
      · rw [if_pos hle] at hx
        cases hx
      · rw [Nat.min_eq_right (by omega)] at hc
        have := congrArg List.length hc
        simp only [List.length_replicate, List.length_nil] at this
        omega

/-- The scanner with `n` bytes in a buffer that is full. -/
theorem together_step {n k : Nat} (hn : 0 < n) (hk : 0 < k) (h1 : n * 2 ≤ 65536) (fuel : Nat) :
    Scanner.scan together (fuel + 1) ⟨List.replicate n 97, 0, n, none⟩ k =
      Scanner.scan together fuel ⟨List.replicate (n + min k n) 97, 0, n * 2, if k ≤ n then some .eof else none⟩ (k - min k n) := by
  have e1 : Scanner.scanLinesSplit (List.replicate n 97) false = (0, none) := by
    rw [split_none (by simp [List.mem_replicate])]
    simp
  have e2 : n * 2 - n = n := by omega
  have e3 : 0 < min k n := by omega
  have e4 : Scanner.fill together 101 ⟨List.replicate n 97, 0, n * 2, none⟩ k = (⟨List.replicate (n + min k n) 97, 0, n * 2, if k ≤ n then some .eof else none⟩, k - min k n) := by
    unfold Scanner.fill
    simp only [List.length_replicate, Nat.zero_add, e2, together, List.replicate_append_replicate]
    by_cases hle : k ≤ n
    · simp [hle]
    · simp [hle, e3]
  conv => lhs; unfold Scanner.scan
  simp only [List.length_replicate, hn, true_or, if_true, ne_eq, not_true_eq_false, decide_false, e1, List.drop_zero, if_false, Scanner.room, Nat.lt_irrefl, false_and, Nat.zero_add,
    if_neg (show ¬ 65536 ≤ n by omega), if_neg (show ¬ n * 2 = 0 by omega), Nat.min_eq_left h1, e4]

/-- **C90**, the exception: when the error comes together with the last bytes, a last line of 65536 bytes without a newline is a line; when it comes alone, the line is too long and there
is none. -/
theorem C90_together : Delivers together 100 .eof 0 (65536 : Nat) (List.replicate 65536 97) ∧
    (∃ N sc, ∀ fuel, N ≤ fuel → Scanner.lines together fuel Scanner.new (65536 : Nat) = .ok ([List.replicate 65536 97], sc)) ∧ scanLines (List.replicate 65536 97) = [] := by
  refine ⟨together_delivers _ _, ⟨9, ⟨[], 0, 65536, some .eof⟩, fun fuel hf => ?_⟩, ?_⟩
  · obtain ⟨fuel, rfl⟩ : ∃ f, fuel = f + 9 := ⟨fuel - 9, by omega⟩
    have e0 : ∀ f c k : Nat, c = 4096 → c < k → Scanner.scan together (f + 1) Scanner.new k = Scanner.scan together f ⟨List.replicate c 97, 0, c, none⟩ (k - c) := by
      intro f c k hc hk
      have h : Scanner.fill together 101 ⟨[], 0, c, none⟩ k = (⟨List.replicate c 97, 0, c, none⟩, k - c) := by
        unfold Scanner.fill
        simp only [List.length_nil, Nat.add_zero, Nat.sub_zero, Nat.min_eq_right (Nat.le_of_lt hk), if_neg (show ¬ k ≤ c by omega), List.nil_append, List.length_replicate]
        simp only [ne_eq, not_true_eq_false, if_false, if_pos (show 0 < c by omega)]
      conv => lhs; unfold Scanner.scan
      have hr : Scanner.room ⟨[], 0, 0, none⟩ = some ⟨[], 0, c, none⟩ := by subst hc; rfl
      simp only [Scanner.new, List.length_nil, Nat.lt_irrefl, ne_eq, not_true_eq_false, or_self, if_false, List.drop_nil, Nat.add_zero, hr, h]
    have e1 := fun f => e0 f 4096 65536 rfl (by omega)
    have gen : ∀ (f n : Nat), 0 < n → Scanner.scan together (f + 1) ⟨List.replicate n 97, 0, n, some .eof⟩ (0 : Nat) = .ok (some (List.replicate n 97), ⟨[], n, n, some .eof⟩, (0 : Nat)) := by
      intro f n hn
      have e2 : Scanner.scanLinesSplit (List.replicate n 97) true = (n, some (List.replicate n 97)) := by
        have hd : dropCR (List.replicate n 97) = List.replicate n 97 := by
          obtain ⟨k, rfl⟩ : ∃ k, n = k + 1 := ⟨n - 1, by omega⟩
          unfold dropCR
          rw [List.replicate_succ', List.getLast?_concat]
          simp
        rw [split_none (by simp [List.mem_replicate]), hd]
        have : List.replicate n (97 : UInt8) ≠ [] := by simp; omega
        simp [this]
      unfold Scanner.scan
      simp [hn, e2]
    have e4 : ∀ f n : Nat, Scanner.scan together (f + 1) ⟨[], n, n, some .eof⟩ (0 : Nat) = .ok (none, ⟨[], 0, n, some .eof⟩, (0 : Nat)) := by
      intro f n
      unfold Scanner.scan
      simp [Scanner.scanLinesSplit]
    have h1 : Scanner.scan together (fuel + 8) Scanner.new (65536 : Nat) = .ok (some (List.replicate 65536 97), ⟨[], 65536, 65536, some .eof⟩, (0 : Nat)) := by
      rw [e1, together_step (n := 4096) (k := 61440) (by omega) (by omega) (by omega)]
      exact (together_step (n := 8192) (k := 57344) (by omega) (by omega) (by omega) (fuel + 5)).trans
        ((together_step (n := 16384) (k := 49152) (by omega) (by omega) (by omega) (fuel + 4)).trans
          ((together_step (n := 32768) (k := 32768) (by omega) (by omega) (by omega) (fuel + 3)).trans (gen (fuel + 2) 65536 (by omega))))
    have h2 : Scanner.lines together (fuel + 8) ⟨[], 65536, 65536, some .eof⟩ (0 : Nat) = .ok ([], ⟨[], 0, 65536, some .eof⟩) := by
      unfold Scanner.lines
      rw [e4 (fuel + 6) 65536]
      rfl
    unfold Scanner.lines
    rw [h1]
    simp only [ok_bind]
    rw [h2]
    rfl
  · have := scanLoop_long (List.replicate 65536 97) [] [] (fun h => absurd (List.eq_of_mem_replicate h) (by decide)) (by decide) (by rw [List.length_replicate]; exact Nat.le_add_left _ _)
    rw [List.append_nil] at this
    exact this

/-! ## C91: writers that fail -/

/-- **C91** `Write` to any writer that keeps to the contract: what it has taken is a beginning of the file format, and all of it when the result is true; for dictionaries, guides, ranked
guides and indexes.  Without errors of the writer the result is true. -/
theorem C91_write {W : Writer} (h : Honest W) (d : Dictionary) (g : Guide) (x : Index) (s : W.State) :
    ((d.writeTo W s).2.1 <+: d.write ∧ ((d.writeTo W s).2.2 = true → (d.writeTo W s).2.1 = d.write) ∧ (Errs W False → (d.writeTo W s).2.2 = true)) ∧
    ((g.writeTo W s).2.1 <+: g.write ∧ ((g.writeTo W s).2.2 = true → (g.writeTo W s).2.1 = g.write) ∧ (Errs W False → (g.writeTo W s).2.2 = true)) ∧
    ((x.writeTo W s).2.1 <+: x.write ∧ ((x.writeTo W s).2.2 = true → (x.writeTo W s).2.1 = x.write) ∧ (Errs W False → (x.writeTo W s).2.2 = true)) := by
  have key : ∀ size body, (W.units s size body).2.1 <+: putU32 (u32 size) ++ body ∧ ((W.units s size body).2.2 = true → (W.units s size body).2.1 = putU32 (u32 size) ++ body) ∧
      (Errs W False → (W.units s size body).2.2 = true) := by
    intro size body
    refine ⟨(writer_units h s size body).1, (writer_units h s size body).2, fun he => ?_⟩
    cases hc : (W.units s size body).2.2 with
    | true => rfl
    | false => exact (units_errs he s size body hc).elim
  exact ⟨key _ _, key _ _, key _ _⟩

example : (({ units := [1, 2] } : Dictionary).writeTo disk (11 : Nat)).2 = ([2, 0, 0, 0, 1, 0, 0, 0, 2, 0, 0], false) := by decide
example : (({ units := [1, 2] } : Dictionary).writeTo disk (12 : Nat)).2 = ([2, 0, 0, 0, 1, 0, 0, 0, 2, 0, 0, 0], true) := by decide

/-- What `load` takes from a file: `r` is left. -/
def Took (o : Opts) (p : List UInt8) (r : List UInt8) : Prop :=
  ∃ d r1, readUnits 4 unitsOfBytes p = (some d, r1) ∧
    if (o.ranked || o.guide) = true then
      ∃ g r2, readUnits 2 guideUnitsOfBytes r1 = (some g, r2) ∧ if o.index = true then ∃ x, Index.new.read r2 = (x, true, r) else r = r2
    else r = r1

theorem took_of_load {o : Opts} {p : List UInt8} {l : Loaded} (h : load o p = .ok l) : ∃ r, Took o p r := by
  unfold load Dictionary.readNew Dictionary.read at h
  cases h1 : readUnits 4 unitsOfBytes p with
  | mk d r1 =>
    rw [h1] at h
    cases d with
    | none => cases h
    | some d =>
      simp only at h
      by_cases hg : (o.ranked || o.guide) = true
      · rw [if_pos hg] at h
        unfold Guide.readNew Guide.read at h
        cases h2 : readUnits 2 guideUnitsOfBytes r1 with
        | mk g r2 =>
          rw [h2] at h
          cases g with
          | none => cases h
          | some g =>
            simp only at h
            by_cases hi : o.index = true
            · rw [if_pos hi] at h
              unfold Index.readNew at h
              cases h3 : Index.new.read r2 with
              | mk x r3 =>
                obtain ⟨ok, r3⟩ := r3
                rw [h3] at h
                cases ok with
                | false => cases h
                | true => exact ⟨r3, d, r1, h1, by rw [if_pos hg]; exact ⟨g, r2, h2, by rw [if_pos hi]; exact ⟨x, h3⟩⟩⟩
            · exact ⟨r2, d, r1, h1, by rw [if_pos hg]; exact ⟨g, r2, h2, by rw [if_neg hi]⟩⟩
      · exact ⟨r1, d, r1, h1, by rw [if_neg hg]⟩

theorem Took.load {o : Opts} {p r : List UInt8} (h : Took o p r) : ∃ l, load o p = .ok l := by
  obtain ⟨d, r1, h1, h2⟩ := h
  unfold Tool.load Dictionary.readNew Dictionary.read
  rw [h1]
  simp only
  by_cases hg : (o.ranked || o.guide) = true
  · rw [if_pos hg] at h2 ⊢
    obtain ⟨g, r2, h3, h4⟩ := h2
    unfold Guide.readNew Guide.read
    rw [h3]
    simp only
    by_cases hi : o.index = true
    · rw [if_pos hi] at h4 ⊢
      obtain ⟨x, h5⟩ := h4
      unfold Index.readNew
      rw [h5]
      exact ⟨_, rfl⟩
    · rw [if_neg hi]; exact ⟨_, rfl⟩
  · rw [if_neg hg]; exact ⟨_, rfl⟩

theorem Took.more {o : Opts} {p r : List UInt8} (h : Took o p r) (q : List UInt8) : Took o (p ++ q) (r ++ q) := by
  obtain ⟨d, r1, h1, h2⟩ := h
  refine ⟨d, r1 ++ q, readUnits_more h1 q, ?_⟩
  by_cases hg : (o.ranked || o.guide) = true
  · rw [if_pos hg] at h2 ⊢
    obtain ⟨g, r2, h3, h4⟩ := h2
    refine ⟨g, r2 ++ q, readUnits_more h3 q, ?_⟩
    by_cases hi : o.index = true
    · rw [if_pos hi] at h4 ⊢
      obtain ⟨x, h5⟩ := h4
      exact ⟨x, index_read_more h5 q⟩
    · rw [if_neg hi] at h4 ⊢; rw [h4]
  · rw [if_neg hg] at h2 ⊢; rw [h2]

theorem Took.unique {o : Opts} {p r r' : List UInt8} (h : Took o p r) (h' : Took o p r') : r = r' := by
  obtain ⟨d, r1, h1, h2⟩ := h
  obtain ⟨d', r1', h1', h2'⟩ := h'
  rw [h1] at h1'
  cases h1'
  by_cases hg : (o.ranked || o.guide) = true
  · rw [if_pos hg] at h2 h2'
    obtain ⟨g, r2, h3, h4⟩ := h2
    obtain ⟨g', r2', h3', h4'⟩ := h2'
    rw [h3] at h3'
    cases h3'
    by_cases hi : o.index = true
    · rw [if_pos hi] at h4 h4'
      obtain ⟨x, h5⟩ := h4
      obtain ⟨x', h5'⟩ := h4'
      rw [h5] at h5'
      cases h5'
      rfl
    · rw [if_neg hi] at h4 h4'; rw [h4, h4']
  · rw [if_neg hg] at h2 h2'; rw [h2, h2']

theorem dict_units_read {d : Dictionary} (h : Units32 d.units) (rest : List UInt8) : readUnits 4 unitsOfBytes (d.write ++ rest) = (some d.units, rest) := by
  unfold Dictionary.write Dictionary.size
  rw [readUnits_write 4 _ _ h.1 _ _ (bytesOfUnits_length _), unitsOfBytes_bytesOfUnits _ h.2]

theorem guide_units_read {g : Guide} (h : g.units.length < 4294967296) (rest : List UInt8) : readUnits 2 guideUnitsOfBytes (g.write ++ rest) = (some g.units, rest) := by
  unfold Guide.write Guide.size
  rw [readUnits_write 2 _ _ h _ _ (bytesOfGuideUnits_length _), guideUnitsOfBytes_bytesOf]

/-- A complete file is read to its end. -/
theorem complete_took {hist d D} {linkSorter : Sorter} (h : Made hist d D) (hs : StableSort linkSorter) (o : Opts) {file : List UInt8} (hf : buildFile linkSorter o d = .ok file) :
    Took o file [] := by
  obtain ⟨n, oks, b, num, h1, h2, hadm, h3, h4⟩ := Made.unfold' h
  have hD := Made.units32 h
  obtain ⟨g1, r1, r2⟩ := C27_ranked_guide h hs.perm (fun lhs rhs => decide (lhs < rhs))
  have r1 : buildRankedGuide linkSorter d D = .ok (some g1) := r1
  obtain ⟨g2, p1, p2, _⟩ := C26_guide h
  rw [buildFile_eq o h4 r1 p1] at hf
  simp only at hf
  have hsz : ∀ g : Guide, g.size = (if accepted hist = [] then 0 else D.size) → g.units.length < 4294967296 := by
    intro g hg
    have : g.units.length = g.size := rfl
    have hDs : D.size = D.units.length := rfl
    rw [this, hg]
    have := hD.1
    split <;> omega
  have main : ∀ g : Guide, (o.ranked || o.guide) = true → g.units.length < 4294967296 →
      (if o.index = true then (do
        match ← lift (buildIndex D g) with
        | none => .error .fatal
        | some x => return D.write ++ g.write ++ x.write) else (return D.write ++ g.write : Except Stop (List UInt8))) = .ok file → Took o file [] := by
    intro g ho hg hf
    by_cases hi : o.index = true
    · rw [if_pos hi] at hf
      cases hx : buildIndex D g with
      | error e => rw [hx] at hf; cases hf
      | ok x =>
        rw [hx] at hf
        cases x with
        | none => cases hf
        | some x =>
          change Except.ok (D.write ++ g.write ++ x.write) = .ok file at hf
          cases hf
          refine ⟨D.units, g.write ++ x.write, by rw [List.append_assoc]; exact dict_units_read hD _, ?_⟩
          rw [if_pos ho]
          refine ⟨g.units, x.write, guide_units_read hg _, ?_⟩
          rw [if_pos hi]
          refine ⟨x, ?_⟩
          have := (C19_index_roundtrip x Index.new (index_units32 hD.1 hx) []).1
          rwa [List.append_nil] at this
    · rw [if_neg hi] at hf
      change Except.ok (D.write ++ g.write) = .ok file at hf
      cases hf
      refine ⟨D.units, g.write, dict_units_read hD _, ?_⟩
      rw [if_pos ho]
      refine ⟨g.units, [], ?_, by rw [if_neg hi]⟩
      have := guide_units_read hg []
      rwa [List.append_nil] at this
  by_cases hr : o.ranked = true
  · rw [if_pos hr] at hf
    exact main g1 (by simp [hr]) (hsz g1 r2) hf
  · rw [if_neg hr] at hf
    by_cases hgd : o.guide = true
    · rw [if_pos hgd] at hf
      exact main g2 (by simp [hgd]) (hsz g2 p2) hf
    · rw [if_neg hgd] at hf
      cases hf
      refine ⟨D.units, [], ?_, by rw [if_neg (by simp [hr, hgd])]⟩
      have := dict_units_read hD []
      rwa [List.append_nil] at this

theorem out_prefix {α β : Type} {x : Run α} (f : α → Run β) : x.out <+: (x >>= f).out := by
  cases h : x.res with
  | error e => rw [out_bind_error h]; exact List.prefix_refl _
  | ok a => rw [out_bind h]; exact List.prefix_append _ _

/-- **C91** dawgtool -b with any reader and any writer that keep to their contracts, for lexicons of NUL-free keys (below 1 GB): when the tool ends normally, the file is complete and can be
loaded; when it stops, either the file is complete nevertheless, or every later run with this file and the same options stops with an error before it answers anything; and what the tool has
printed and written is a beginning of what it would have printed and written to a file without errors. -/
theorem C91_tool {R : Reader} {W : Writer} (hw : Honest W) (ratio : Nat → Nat → List UInt8) {sorter : LineSorter} (hs : StableSort sorter) {linkSorter : Sorter}
    (hls : StableSort linkSorter) (grow : Nat → Nat) (o : Opts) {fin : ReadErr} {s : R.State} {lexicon : List UInt8} (ha : Alone R ∨ Short lexicon) (h : Delivers R 100 fin 0 s lexicon) (w : W.State)
    (hadm : Admissible (entries o (scanLines lexicon))) :
    ∃ N, ∀ fuel, N ≤ fuel → ∀ r, (buildDev R W ratio sorter linkSorter grow o fuel s w).2 = r →
      r.out <+: (buildRun ratio sorter linkSorter grow o lexicon).out ∧ r.file <+: (buildRun ratio sorter linkSorter grow o lexicon).file ∧
      ((r.res = .ok () ∧ mainBuild sorter linkSorter grow o lexicon = .ok r.file ∧ ∃ l, load o r.file = .ok l) ∨
       ∃ e, r.res = .error e ∧ (mainBuild sorter linkSorter grow o lexicon = .ok r.file ∨ ∀ fuel' queries, queryRun o fuel' r.file queries = ⟨[], [], .error .fatal⟩)) := by
  obtain ⟨N, h1⟩ := buildDev_cut hw (P := True) (fun _ _ _ => trivial) ratio sorter linkSorter grow o ha h w
  refine ⟨N, fun fuel hf r hr => ?_⟩
  have hc := h1 fuel hf
  rw [hr] at hc
  have hfatal : ∀ {p : List UInt8}, load o p = .error .fatal → ∀ fuel' queries, queryRun o fuel' p queries = ⟨[], [], .error .fatal⟩ := by
    intro p hp fuel' queries
    unfold queryRun
    rw [hp]
    rfl
  obtain ⟨file, h2, h3⟩ := C66_failed_build_partial ratio hs hls grow o 0 lexicon none hadm
  simp only [show ∀ l : List UInt8, mainTool ratio sorter linkSorter grow o true 0 (some l) none =
    ⟨(buildRun ratio sorter linkSorter grow o l).out, some (buildRun ratio sorter linkSorter grow o l).file, (buildRun ratio sorter linkSorter grow o l).res⟩ from fun _ => rfl] at h2 h3
  have h2 : (buildRun ratio sorter linkSorter grow o lexicon).file = file := Option.some.inj h2
  have hbad : (∀ fuel' queries, mainTool ratio sorter linkSorter grow o false fuel' (some queries) (some file) = ⟨[], some file, .error .fatal⟩) → load o file = .error .fatal := by
    intro hq
    rcases C62_load_partial o file with ⟨l, hl⟩ | hl
    · exfalso
      have hres := congrArg Outcome.out (hq 1 [97])
      simp only [mainTool, Bool.false_eq_true, if_false, queryRun, hl] at hres
      have e1 : scanLines [97] = [[97]] := by decide +kernel
      rw [e1] at hres
      have p1 : (print ([97] ++ ascii ":")).out <+: (answerRun o l 1 Completers.new [97]).out := out_prefix _
      have p2 : (answerRun o l 1 Completers.new [97]).out <+: (answersRun o l 1 Completers.new [[97]]).out := out_prefix _
      have p3 : (answersRun o l 1 Completers.new [[97]]).out <+: (answersRun o l 1 Completers.new [[97]] >>= fun _ => totalsRun o l).out := out_prefix _
      have p4 := p1.trans (p2.trans p3)
      rw [out_bind (x := perform (.ok l)) rfl] at hres
      change [] ++ (answersRun o l 1 Completers.new [[97]] >>= fun _ => totalsRun o l).out = [] at hres
      rw [List.nil_append] at hres
      rw [hres] at p4
      exact absurd (List.prefix_nil.1 p4) (by decide)
    · exact hl
  rcases hc with hc | ⟨_, c1, c2, c3⟩
  · subst hc
    refine ⟨List.prefix_refl _, List.prefix_refl _, ?_⟩
    rw [h2]
    rcases h3 with h3 | ⟨⟨e, h3, h4⟩, h5⟩
    · exact .inl h3
    · exact .inr ⟨e, h3, .inr (hfatal (hbad h5))⟩
  · refine ⟨c2, c3, .inr ⟨_, c1, ?_⟩⟩
    obtain ⟨q, hq⟩ := c3
    rcases h3 with ⟨_, h4, _⟩ | ⟨_, h5⟩
    · by_cases hqn : q = []
      · left
        rw [h4, ← h2, ← hq, hqn, List.append_nil]
      · right
        rcases C62_load_partial o r.file with ⟨l, hl⟩ | hl
        · exfalso
          obtain ⟨rest, ht⟩ := took_of_load hl
          have ht := ht.more q
          rw [hq, h2] at ht
          rcases buildRun_cases ratio sorter linkSorter grow o lexicon with ⟨e, _, _, _, k4⟩ | ⟨d, k1, k2, _⟩
          · rw [h4] at k4; cases k4
          · obtain ⟨hist, oks, b, p1, _, p3, _⟩ := history_of_dawg hs k1 hadm
            rw [h4] at k2
            rcases buildFileRun_cases ratio linkSorter o d with ⟨e, _, _, m3⟩ | ⟨_, _, m3⟩ | ⟨D, unused, m1, _⟩
            · rw [m3] at k2; cases k2
            · rw [m3] at k2; cases k2
            · have hM : Made hist d D := made_of_built p3 p1 m1
              have := ht.unique (complete_took hM hls o k2.symm)
              exact hqn (List.append_eq_nil_iff.1 this).2
        · exact hfatal hl
    · right
      rcases C62_load_partial o r.file with ⟨l, hl⟩ | hl
      · exfalso
        obtain ⟨rest, ht⟩ := took_of_load hl
        obtain ⟨l', hl'⟩ := (ht.more q).load
        rw [hq, h2, hbad h5] at hl'
        cases hl'
      · exact hfatal hl

/-- The lexicon "a", read byte by byte, and a disk with five free bytes. -/
example : ∃ N, ∀ fuel, N ≤ fuel →
    ∃ r : Run Unit, (buildDev (pieces 1 .eof) disk (fun _ _ => []) (fun less l => l.mergeSort (fun a b => !less b a)) insertionSort (fun n => n) {} fuel [97, 10] (5 : Nat)).2 = r ∧
      (r.res = .ok () → ∃ l, load {} r.file = .ok l) ∧
      (∀ e, r.res = .error e → (∃ l, load {} r.file = .ok l) ∨ ∀ fuel' queries, queryRun {} fuel' r.file queries = ⟨[], [], .error .fatal⟩) := by
  obtain ⟨N, h⟩ := C91_tool disk_honest (fun _ _ => []) (sorter := fun less l => l.mergeSort (fun a b => !less b a)) (exists_stableSort _) insertionSort_stableSort
    (fun n => n) {} (.inl (pieces_alone 1 .eof)) (pieces_delivers (by omega) .eof 100 2 [97, 10] (by decide)) (5 : Nat) ⟨by decide +kernel, by decide +kernel⟩
  obtain ⟨d, D, file, hM, h2, h3⟩ := line_a (fun less l => l.mergeSort (fun a b => !less b a)) insertionSort_stableSort (fun n => n)
  obtain ⟨l, hl⟩ := (complete_took hM insertionSort_stableSort {} h2).load
  refine ⟨N, fun fuel hf => ⟨_, rfl, fun hr => ?_, fun e he => ?_⟩⟩
  · rcases (h fuel hf _ rfl).2.2 with ⟨_, _, k⟩ | ⟨e, k, _⟩
    · exact k
    · rw [hr] at k; cases k
  · rcases (h fuel hf _ rfl).2.2 with ⟨k, _⟩ | ⟨_, _, k | k⟩
    · rw [he] at k; cases k
    · rw [h3] at k
      cases k
      exact .inl ⟨l, hl⟩
    · exact .inr k

end Dawg.Props
