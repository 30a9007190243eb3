import Verif.Proof.Stream
/-! # The lines that bufio.Scanner yields -/
namespace Dawg.Stream
open Dawg Dawg.Tool

/-- The reader gives its error alone, not together with bytes, as an `os.File` does. -/
def Alone (R : Reader) : Prop := ∀ s m, 0 < m → (R.read s m).2.2 ≠ none → (R.read s m).2.1 = []

/-- No line has 65536 bytes or more. -/
def Short (bs : List UInt8) : Prop := ∀ pre line rest, bs = pre ++ line ++ rest → 10 ∉ line → line.length < 65536

theorem Short.suffix {bs pre rest : List UInt8} (h : Short bs) (he : bs = pre ++ rest) : Short rest := by
  intro p l r h1 h2
  exact h (pre ++ p) l r (by rw [he, h1]; simp) h2

theorem Short.short {bs : List UInt8} (h : Short bs) (hn : 10 ∉ bs) : bs.length < 65536 := h [] bs [] (by simp) hn

/-! ## The specification -/

theorem scanLoop_line : ∀ (pre rest cur : List UInt8), 10 ∉ pre → cur.length + pre.length < 65536 →
    scanLoop (pre ++ 10 :: rest) cur = dropCR (cur ++ pre) :: scanLoop rest []
  | [], rest, cur, _, _ => by simp [scanLoop]
  | b :: pre, rest, cur, h, hl => by
    simp only [List.mem_cons, not_or] at h
    rw [List.cons_append, scanLoop, if_neg (fun hb => h.1 hb.symm), if_neg (by simp only [List.length_cons] at hl; omega),
      scanLoop_line pre rest (cur ++ [b]) h.2 (by simp only [List.length_append, List.length_cons, List.length_nil] at hl ⊢; omega)]
    simp

theorem scanLoop_last : ∀ (pre cur : List UInt8), 10 ∉ pre → cur.length + pre.length < 65536 →
    scanLoop pre cur = if cur ++ pre = [] then [] else [dropCR (cur ++ pre)]
  | [], cur, _, _ => by rw [scanLoop, List.append_nil]
  | b :: pre, cur, h, hl => by
    simp only [List.mem_cons, not_or] at h
    rw [scanLoop, if_neg (fun hb => h.1 hb.symm), if_neg (by simp only [List.length_cons] at hl; omega),
      scanLoop_last pre (cur ++ [b]) h.2 (by simp only [List.length_append, List.length_cons, List.length_nil] at hl ⊢; omega)]
    simp

theorem scanLoop_long : ∀ (pre rest cur : List UInt8), 10 ∉ pre → cur.length < 65536 → 65536 ≤ cur.length + pre.length → scanLoop (pre ++ rest) cur = []
  | [], rest, cur, _, h1, h2 => by simp only [List.length_nil] at h2; omega
  | b :: pre, rest, cur, h, h1, h2 => by
    simp only [List.mem_cons, not_or] at h
    rw [List.cons_append, scanLoop, if_neg (fun hb => h.1 hb.symm)]
    by_cases hc : cur.length + 1 ≥ 65536
    · rw [if_pos hc]
    · rw [if_neg hc]
      exact scanLoop_long pre rest (cur ++ [b]) h.2 (by simp only [List.length_append, List.length_cons, List.length_nil]; omega)
        (by simp only [List.length_append, List.length_cons, List.length_nil] at h2 ⊢; omega)

/-! ## Splitting -/

theorem split_newline {data : List UInt8} (h : 10 ∈ data) (atEOF : Bool) : ∃ pre rest, data = pre ++ 10 :: rest ∧ 10 ∉ pre ∧
    Scanner.scanLinesSplit data atEOF = (pre.length + 1, some (dropCR pre)) := by
  obtain ⟨pre, rest, h1, h2⟩ := List.eq_append_cons_of_mem h
  refine ⟨pre, rest, h1, h2, ?_⟩
  have hf : data.findIdx? (· == 10) = some pre.length := by
    rw [List.findIdx?_eq_some_iff_getElem]
    subst h1
    refine ⟨by simp, by simp, fun j hj => ?_⟩
    rw [List.getElem_append_left hj]
    intro hc
    simp only [beq_iff_eq] at hc
    exact h2 (hc ▸ List.getElem_mem hj)
  unfold Scanner.scanLinesSplit
  rw [if_neg (by subst h1; simp), hf]
  simp only
  rw [h1, List.take_left]

theorem split_none {data : List UInt8} (h : 10 ∉ data) (atEOF : Bool) : Scanner.scanLinesSplit data atEOF =
    if atEOF ∧ data ≠ [] then (data.length, some (dropCR data)) else (0, none) := by
  have hf : data.findIdx? (· == 10) = none := by
    rw [List.findIdx?_eq_none_iff]
    intro x hx
    simp only [beq_eq_false_iff_ne]
    intro hc
    exact h (hc ▸ hx)
  unfold Scanner.scanLinesSplit
  rw [hf]
  cases atEOF <;> cases data <;> simp

/-! ## Reading -/

theorem fill_delivers {R : Reader} {fin : ReadErr} : ∀ (left : Nat) {e : Nat} {s : R.State} {bs : List UInt8} {sc : Scanner}, Delivers R 100 fin e s bs →
    left + e = 101 → e ≤ 100 → sc.err = none → sc.start + sc.data.length < sc.cap →
    ∃ s', (Scanner.fill R left sc s = ({ sc with data := sc.data ++ bs, err := some fin }, s') ∧ sc.start + (sc.data ++ bs).length ≤ sc.cap ∧ (Alone R → bs = [])) ∨
      (∃ c rest, c ≠ [] ∧ bs = c ++ rest ∧ Scanner.fill R left sc s = ({ sc with data := sc.data ++ c }, s') ∧ sc.start + (sc.data ++ c).length ≤ sc.cap ∧ Delivers R 100 fin 0 s' rest)
  | 0, e, s, bs, sc, _, h1, h2, _, _ => by omega
  | left + 1, e, s, bs, sc, hd, h1, h2, he, hroom => by
    cases hd with
    | mk piece last more few empty =>
      have hm : 0 < sc.cap - (sc.start + sc.data.length) := by omega
      have key : Scanner.fill R (left + 1) sc s = if (R.read s (sc.cap - (sc.start + sc.data.length))).2.2 ≠ none then
            ({ sc with data := sc.data ++ (R.read s (sc.cap - (sc.start + sc.data.length))).2.1, err := (R.read s (sc.cap - (sc.start + sc.data.length))).2.2 },
              (R.read s (sc.cap - (sc.start + sc.data.length))).1)
          else if 0 < (R.read s (sc.cap - (sc.start + sc.data.length))).2.1.length then
            ({ sc with data := sc.data ++ (R.read s (sc.cap - (sc.start + sc.data.length))).2.1, err := (R.read s (sc.cap - (sc.start + sc.data.length))).2.2 },
              (R.read s (sc.cap - (sc.start + sc.data.length))).1)
          else Scanner.fill R left { sc with data := sc.data ++ (R.read s (sc.cap - (sc.start + sc.data.length))).2.1, err := (R.read s (sc.cap - (sc.start + sc.data.length))).2.2 }
              (R.read s (sc.cap - (sc.start + sc.data.length))).1 := rfl
      have hp := piece _ hm
      have hl := last _ hm
      have hmo := more _ hm
      have hfe := few _ hm
      have hem := empty _ hm
      have hal : Alone R → _ := fun ha => ha s _ hm
      revert key hp hl hmo hfe hem hal
      generalize hr : R.read s (sc.cap - (sc.start + sc.data.length)) = r
      obtain ⟨s', c, err⟩ := r
      simp only
      intro key hp hl hmo hfe hem hal
      rw [key]
      cases err with
      | some x =>
        rw [if_pos (by simp)]
        obtain ⟨l1, l2, _⟩ := hl x rfl
        subst l1 l2
        exact ⟨s', .inl ⟨rfl, by have := hp.2; rw [List.length_append]; omega, fun ha => hal ha (by simp)⟩⟩
      | none =>
        rw [if_neg (by simp)]
        by_cases hc : c = []
        · subst hc
          rw [if_neg (by simp)]
          have hfe := hfe rfl rfl
          have := fill_delivers left (sc := { sc with data := sc.data ++ [], err := none }) (hem rfl rfl) (by omega) (by omega) rfl (by simpa using hroom)
          rw [List.append_nil] at this ⊢
          have hsc : ({ sc with data := sc.data, err := none } : Scanner) = sc := by cases sc; cases he; rfl
          rw [hsc] at this ⊢
          exact this
        · rw [if_pos (List.length_pos_iff.2 hc)]
          obtain ⟨⟨rest, hrest⟩, hlen⟩ := hp
          refine ⟨s', .inr ⟨c, rest, hc, hrest.symm, ?_, by rw [List.length_append]; omega, ?_⟩⟩
          · cases sc; cases he; rfl
          · have := hmo rfl hc
            rwa [← hrest, List.drop_left] at this

theorem room_spec {sc : Scanner} (h1 : sc.start + sc.data.length ≤ sc.cap) (h2 : sc.cap ≤ 65536) :
    (sc.room = none ∧ sc.data.length = 65536) ∨
    (∃ sc', sc.room = some sc' ∧ sc'.data = sc.data ∧ sc'.err = sc.err ∧ sc'.start + sc'.data.length < sc'.cap ∧ sc'.cap ≤ 65536) := by
  obtain ⟨data, start, cap, err⟩ := sc
  simp only at h1 h2 ⊢
  have key : ∀ start', start' + data.length ≤ cap → (start' + data.length = cap → start' = 0) →
      ((if start' + data.length = cap then (if 65536 ≤ cap then none else
        some ({ data := data, start := 0, cap := min (if cap * 2 = 0 then 4096 else cap * 2) 65536, err := err } : Scanner)) else some ⟨data, start', cap, err⟩) = none ∧ data.length = 65536) ∨
      (∃ sc' : Scanner, (if start' + data.length = cap then (if 65536 ≤ cap then none else
        some ({ data := data, start := 0, cap := min (if cap * 2 = 0 then 4096 else cap * 2) 65536, err := err } : Scanner)) else some ⟨data, start', cap, err⟩) = some sc' ∧
        sc'.data = data ∧ sc'.err = err ∧ sc'.start + sc'.data.length < sc'.cap ∧ sc'.cap ≤ 65536) := by
    intro start' k1 k2
    by_cases hf : start' + data.length = cap
    · rw [if_pos hf]
      have := k2 hf
      by_cases hc : 65536 ≤ cap
      · rw [if_pos hc]
        exact .inl ⟨rfl, by omega⟩
      · rw [if_neg hc]
        refine .inr ⟨_, rfl, rfl, rfl, ?_, ?_⟩
        · simp only
          split <;> omega
        · simp only
          omega
    · rw [if_neg hf]
      exact .inr ⟨_, rfl, rfl, rfl, by simp only; omega, h2⟩
  unfold Scanner.room
  simp only
  by_cases hs : 0 < start ∧ (start + data.length = cap ∨ cap / 2 < start)
  · rw [if_pos hs]
    exact key 0 (by omega) (fun _ => rfl)
  · rw [if_neg hs]
    exact key start h1 (by omega)

/-! ## Scanning -/

/-- The scanner between two calls of `Scan`: `bs` are the bytes that it has not read. -/
structure Live (R : Reader) (fin : ReadErr) (sc : Scanner) (s : R.State) (bs : List UInt8) : Prop where
  fits : sc.start + sc.data.length ≤ sc.cap
  small : sc.cap ≤ 65536
  fine : Alone R ∨ Short (sc.data ++ bs)
  rest : (sc.err = none ∧ Delivers R 100 fin 0 s bs) ∨ (sc.err = some fin ∧ bs = [] ∧ (sc.data.length < 65536 ∨ Short sc.data))

/-- How the scanner ends: with the reader's error, or with a line that is too long. -/
def Over (fin : ReadErr) (bs : List UInt8) (sc : Scanner) : Prop :=
  sc.err = some fin ∨ (sc.err = some .tooLong ∧ ∃ pre line rest, bs = pre ++ line ++ rest ∧ 10 ∉ line ∧ line.length = 65536)

/-- What a call of `Scan` gives. -/
def Step (R : Reader) (fin : ReadErr) (sc : Scanner) (s : R.State) (bs : List UInt8) : Prop :=
  ∃ N, (∃ sc' s', (∀ fuel, N ≤ fuel → Scanner.scan R fuel sc s = .ok (none, sc', s')) ∧ scanLoop (sc.data ++ bs) [] = [] ∧ Over fin (sc.data ++ bs) sc') ∨
    (∃ t sc' s' bs', (∀ fuel, N ≤ fuel → Scanner.scan R fuel sc s = .ok (some t, sc', s')) ∧ scanLoop (sc.data ++ bs) [] = t :: scanLoop (sc'.data ++ bs') [] ∧
      Live R fin sc' s' bs' ∧ (sc'.data ++ bs').length < (sc.data ++ bs).length ∧ ∃ pre, sc.data ++ bs = pre ++ (sc'.data ++ bs'))

theorem scan_succ (R : Reader) (fuel : Nat) (sc : Scanner) (s : R.State) (a : Nat) (t : Option (List UInt8))
    (h : (if 0 < sc.data.length ∨ sc.err ≠ none then Scanner.scanLinesSplit sc.data (sc.err ≠ none) else (0, none)) = (a, t)) :
    Scanner.scan R (fuel + 1) sc s = match (generalizing := false) t with
      | some t => .ok (some t, { sc with data := sc.data.drop a, start := sc.start + a }, s)
      | none =>
        if sc.err ≠ none then .ok (none, { sc with data := [], start := 0 }, s)
        else match ({ sc with data := sc.data.drop a, start := sc.start + a } : Scanner).room with
          | none => .ok (none, { sc with data := sc.data.drop a, start := sc.start + a, err := some .tooLong }, s)
          | some sc => Scanner.scan R fuel (Scanner.fill R 101 sc s).1 (Scanner.fill R 101 sc s).2 := by
  rw [Scanner.scan, h]
  cases t <;> rfl

theorem step_newline {R : Reader} {fin : ReadErr} {sc : Scanner} {s : R.State} {bs : List UInt8} (h : Live R fin sc s bs) (hn : 10 ∈ sc.data) : Step R fin sc s bs := by
  obtain ⟨pre, rest, h1, h2, h3⟩ := split_newline hn (sc.err ≠ none)
  have hlen : sc.data.length = pre.length + 1 + rest.length := by rw [h1]; simp; omega
  have hd : sc.data.drop (pre.length + 1) = rest := by rw [h1]; simp
  have hfits := h.fits
  have hsmall := h.small
  refine ⟨1, .inr ⟨dropCR pre, { sc with data := sc.data.drop (pre.length + 1), start := sc.start + (pre.length + 1) }, s, bs, fun fuel hf => ?_, ?_, ?_, ?_, ?_⟩⟩
  · obtain ⟨fuel, rfl⟩ : ∃ k, fuel = k + 1 := ⟨fuel - 1, by omega⟩
    rw [scan_succ R fuel sc s (pre.length + 1) (some (dropCR pre)) (by rw [if_pos (.inl (by omega))]; exact h3)]
  · simp only [hd]
    rw [h1, List.append_assoc, List.cons_append, scanLoop_line pre (rest ++ bs) [] h2 (by simp only [List.length_nil]; omega), List.nil_append]
  · refine ⟨by simp only [hd]; omega, h.small, ?_, ?_⟩
    · refine h.fine.imp id fun k => ?_
      simp only [hd]
      exact k.suffix (pre := pre ++ [10]) (by rw [h1]; simp)
    · rcases h.rest with k | ⟨k1, k2, k3⟩
      · exact .inl k
      · refine .inr ⟨k1, k2, ?_⟩
        simp only [hd]
        exact k3.imp (fun k => by omega) (fun k => k.suffix (pre := pre ++ [10]) (by rw [h1]; simp))
  · simp only [hd, List.length_append]; omega
  · refine ⟨pre ++ [10], ?_⟩
    simp only [hd]
    rw [h1]
    simp

theorem step_ended {R : Reader} {fin : ReadErr} {sc : Scanner} {s : R.State} {bs : List UInt8} (h : Live R fin sc s bs) (he : sc.err = some fin) : Step R fin sc s bs := by
  by_cases hn : 10 ∈ sc.data
  · exact step_newline h hn
  rcases h.rest with ⟨k, _⟩ | ⟨_, k2, k3⟩
  · rw [he] at k; cases k
  subst k2
  have k3 : sc.data.length < 65536 := k3.elim id (fun k => k.short hn)
  have h3 := split_none hn (sc.err ≠ none)
  by_cases hd : sc.data = []
  · refine ⟨1, .inl ⟨{ sc with data := [], start := 0 }, s, fun fuel hf => ?_, ?_, .inl he⟩⟩
    · obtain ⟨fuel, rfl⟩ : ∃ k, fuel = k + 1 := ⟨fuel - 1, by omega⟩
      rw [scan_succ R fuel sc s 0 none (by rw [if_pos (.inr (by rw [he]; simp)), h3, if_neg (by simp [hd])])]
      simp only
      rw [if_pos (by rw [he]; simp)]
    · rw [hd]; rfl
  · refine ⟨1, .inr ⟨dropCR sc.data, { sc with data := sc.data.drop sc.data.length, start := sc.start + sc.data.length }, s, [], fun fuel hf => ?_, ?_, ?_, ?_, sc.data, by simp⟩⟩
    · obtain ⟨fuel, rfl⟩ : ∃ k, fuel = k + 1 := ⟨fuel - 1, by omega⟩
      rw [scan_succ R fuel sc s sc.data.length (some (dropCR sc.data)) (by rw [if_pos (.inr (by rw [he]; simp)), h3, if_pos (by simp [he, hd])])]
    · simp only [List.append_nil, List.drop_length]
      rw [scanLoop_last sc.data [] hn (by simpa using k3), List.nil_append, if_neg hd]
      rfl
    · have := h.fits
      exact ⟨by simp; omega, h.small, h.fine.imp id (fun k => k.suffix (pre := sc.data) (by simp)), .inr ⟨he, rfl, by simp⟩⟩
    · simp only [List.append_nil, List.drop_length, List.length_nil]
      exact List.length_pos_iff.2 hd

theorem step_live {R : Reader} {fin : ReadErr} : ∀ (n : Nat) {sc : Scanner} {s : R.State} {bs : List UInt8}, bs.length ≤ n → Live R fin sc s bs → Step R fin sc s bs := by
  intro n
  induction n with
  | zero =>
    intro sc s bs hn h
    exact step_live_aux (fun hlt => by omega) h
  | succ n ih =>
    intro sc s bs hn h
    exact step_live_aux (fun hlt => ih (by omega)) h
where
  step_live_aux {R : Reader} {fin : ReadErr} {sc : Scanner} {s : R.State} {bs : List UInt8}
      (ih : ∀ {sc' : Scanner} {s' : R.State} {bs' : List UInt8}, bs'.length < bs.length → Live R fin sc' s' bs' → Step R fin sc' s' bs') (h : Live R fin sc s bs) : Step R fin sc s bs := by
    by_cases hn : 10 ∈ sc.data
    · exact step_newline h hn
    rcases h.rest with ⟨he, hd⟩ | ⟨he, _⟩
    case inr => exact step_ended h he
    have h3 := split_none hn (sc.err ≠ none)
    have h4 : (if 0 < sc.data.length ∨ sc.err ≠ none then Scanner.scanLinesSplit sc.data (sc.err ≠ none) else (0, none)) = (0, none) := by
      split
      · rw [h3, if_neg (by simp [he])]
      · rfl
    have key : ∀ fuel, Scanner.scan R (fuel + 1) sc s = match sc.room with
          | none => .ok (none, { sc with err := some .tooLong }, s)
          | some sc => Scanner.scan R fuel (Scanner.fill R 101 sc s).1 (Scanner.fill R 101 sc s).2 := by
      intro fuel
      rw [scan_succ R fuel sc s 0 none h4]
      simp only
      rw [if_neg (by simp [he])]
      rfl
    rcases room_spec h.fits h.small with ⟨r1, r2⟩ | ⟨sc1, r1, r2, r3, r4, r5⟩
    · rw [r1] at key
      refine ⟨1, .inl ⟨{ sc with err := some .tooLong }, s, fun fuel hf => ?_, scanLoop_long sc.data bs [] hn (by simp) (by simp [r2]), .inr ⟨rfl, [], sc.data, bs, rfl, hn, r2⟩⟩⟩
      obtain ⟨fuel, rfl⟩ : ∃ k, fuel = k + 1 := ⟨fuel - 1, by omega⟩
      exact key fuel
    · rw [r1] at key
      simp only at key
      obtain ⟨s', f⟩ := fill_delivers 101 (sc := sc1) hd (by omega) (by omega) (r3.trans he) r4
      have lift : ∀ {sc2 : Scanner} {bs2 : List UInt8}, Step R fin sc2 s' bs2 → sc2.data ++ bs2 = sc.data ++ bs → Scanner.fill R 101 sc1 s = (sc2, s') → Step R fin sc s bs := by
        intro sc2 bs2 hs heq hfill
        rw [hfill] at key
        obtain ⟨N, hs⟩ := hs
        rw [heq] at hs
        refine ⟨N + 1, ?_⟩
        have hfuel : ∀ {r}, (∀ fuel, N ≤ fuel → Scanner.scan R fuel sc2 s' = r) → ∀ fuel, N + 1 ≤ fuel → Scanner.scan R fuel sc s = r := by
          intro r hr fuel hf
          obtain ⟨fuel, rfl⟩ : ∃ k, fuel = k + 1 := ⟨fuel - 1, by omega⟩
          rw [key fuel]
          exact hr fuel (by omega)
        rcases hs with ⟨sc', s'', k1, k2⟩ | ⟨t, sc', s'', bs', k1, k2⟩
        · exact .inl ⟨sc', s'', hfuel k1, k2⟩
        · exact .inr ⟨t, sc', s'', bs', hfuel k1, k2⟩
      rcases f with ⟨f1, f2, f3⟩ | ⟨c, rest, f1, f2, f3, f4, f5⟩
      · have hdat : sc1.data ++ bs = sc.data ++ bs := by rw [r2]
        have hL : Live R fin { sc1 with data := sc1.data ++ bs, err := some fin } s' [] := by
          refine ⟨f2, r5, ?_, .inr ⟨rfl, rfl, ?_⟩⟩
          · simp only [List.append_nil]; rw [hdat]; exact h.fine
          · simp only
            rw [hdat]
            refine h.fine.imp (fun ha => ?_) id
            have := f3 ha
            subst this
            rw [List.append_nil, ← r2]
            omega
        exact lift (step_ended hL rfl) (by simp only [List.append_nil]; exact hdat) f1
      · have hc := List.length_pos_iff.2 f1
        have hL : Live R fin { sc1 with data := sc1.data ++ c } s' rest := by
          refine ⟨f4, r5, h.fine.imp id (fun k => ?_), .inl ⟨r3.trans he, f5⟩⟩
          simp only
          rw [List.append_assoc, ← f2, r2]
          exact k
        exact lift (ih (by rw [f2, List.length_append]; omega) hL) (by rw [f2, ← r2]; simp) f3

theorem Over.append {fin : ReadErr} {bs : List UInt8} {sc : Scanner} (h : Over fin bs sc) (pre : List UInt8) : Over fin (pre ++ bs) sc := by
  rcases h with h | ⟨h, p, l, r, h1, h2⟩
  · exact .inl h
  · exact .inr ⟨h, pre ++ p, l, r, by rw [h1]; simp, h2⟩

theorem lines_live {R : Reader} {fin : ReadErr} : ∀ (n : Nat) {sc : Scanner} {s : R.State} {bs : List UInt8}, (sc.data ++ bs).length ≤ n → Live R fin sc s bs →
    ∃ N sc', (∀ fuel, N ≤ fuel → Scanner.lines R fuel sc s = .ok (scanLoop (sc.data ++ bs) [], sc')) ∧ Over fin (sc.data ++ bs) sc' := by
  intro n
  induction n with
  | zero =>
    intro sc s bs hn h
    exact aux (fun hlt => by omega) h
  | succ n ih =>
    intro sc s bs hn h
    exact aux (fun hlt => ih (by omega)) h
where
  aux {R : Reader} {fin : ReadErr} {sc : Scanner} {s : R.State} {bs : List UInt8}
      (ih : ∀ {sc' : Scanner} {s' : R.State} {bs' : List UInt8}, (sc'.data ++ bs').length < (sc.data ++ bs).length → Live R fin sc' s' bs' →
        ∃ N sc'', (∀ fuel, N ≤ fuel → Scanner.lines R fuel sc' s' = .ok (scanLoop (sc'.data ++ bs') [], sc'')) ∧ Over fin (sc'.data ++ bs') sc'') (h : Live R fin sc s bs) :
      ∃ N sc', (∀ fuel, N ≤ fuel → Scanner.lines R fuel sc s = .ok (scanLoop (sc.data ++ bs) [], sc')) ∧ Over fin (sc.data ++ bs) sc' := by
    obtain ⟨N, ⟨sc', s', k1, k2, k3⟩ | ⟨t, sc', s', bs', k1, k2, k3, k4, pre, k5⟩⟩ := step_live bs.length (Nat.le_refl _) h
    · refine ⟨N + 1, sc', fun fuel hf => ?_, k3⟩
      obtain ⟨fuel, rfl⟩ : ∃ k, fuel = k + 1 := ⟨fuel - 1, by omega⟩
      rw [Scanner.lines, k1 fuel (by omega), k2]
      rfl
    · obtain ⟨N', sc'', m1, m2⟩ := ih k4 k3
      refine ⟨N + N' + 1, sc'', fun fuel hf => ?_, by rw [k5]; exact m2.append pre⟩
      obtain ⟨fuel, rfl⟩ : ∃ k, fuel = k + 1 := ⟨fuel - 1, by omega⟩
      rw [Scanner.lines, k1 fuel (by omega), k2, ok_bind]
      simp only
      rw [m1 fuel (by omega)]
      rfl

/-- **The lines** do not depend on the pieces nor on the error at the end. -/
theorem lines_delivers {R : Reader} {fin : ReadErr} {s : R.State} {bs : List UInt8} (ha : Alone R ∨ Short bs) (h : Delivers R 100 fin 0 s bs) :
    ∃ N sc', (∀ fuel, N ≤ fuel → Scanner.lines R fuel Scanner.new s = .ok (scanLines bs, sc')) ∧ Over fin bs sc' := by
  obtain ⟨N, sc', h1⟩ := lines_live bs.length (sc := Scanner.new) (s := s) (bs := bs) (by simp [Scanner.new]) ⟨by simp [Scanner.new], by simp [Scanner.new], by simpa [Scanner.new] using ha, .inl ⟨rfl, h⟩⟩
  exact ⟨N, sc', h1⟩

end Dawg.Stream
