import Verif.Model.UtfcPar
import Verif.Props.Compact
/-! # C75, C76: the variables that all UTF-C calls share -/
namespace Dawg.Props
open Dawg Dawg.Utfc

/-! ## C75: calls within a call -/

theorem commit_apply (st : State) (cp : Nat) : (commit st cp).apply st = (encodeChar st cp).2 := by
  unfold commit encodeChar
  repeat' (first | split | rfl)
  all_goals simp_all [Commit.apply]
  all_goals repeat' (first | split | rfl)
  all_goals simp_all

/-- The full claim C75: a follower may call `UtfcEncode` while it handles a byte; it gets the same bytes. -/
def C75_statement : Prop := ∀ (σ : Type) (f : σ → UInt8 → σ × Bool) (inner : σ → UInt8 → Option (List Char)) (str : List Char) (s : σ) (st : State),
  (utfcFollowShared (calling f inner) str (s, st)).1.1 = (utfcFollow f str s).1 ∧ (utfcFollowShared (calling f inner) str (s, st)).2 = (utfcFollow f str s).2

/-- **C75 is false**: a follower that collects the bytes of "ab" and calls `UtfcEncode("α")` at the first one gets 0x61 0xDB (without that call: 0x61 0x62). -/
theorem C75_nested_false : ¬ C75_statement ∧
    (utfcFollowShared (calling (σ := List UInt8) (fun s b => (s ++ [b], true)) (fun s _ => if s = [] then some ['α'] else none)) ['a', 'b'] ([], State.init)).1.1 = [0x61, 0xDB] := by
  have h : (utfcFollowShared (calling (σ := List UInt8) (fun s b => (s ++ [b], true)) (fun s _ => if s = [] then some ['α'] else none)) ['a', 'b'] ([], State.init)).1.1 = [0x61, 0xDB] := by decide +kernel
  refine ⟨fun hs => ?_, h⟩
  have := (hs (List UInt8) (fun s b => (s ++ [b], true)) (fun s _ => if s = [] then some ['α'] else none) ['a', 'b'] [] State.init).1
  rw [h] at this
  exact absurd this (by decide +kernel)

theorem feed_calling {σ : Type} (f : σ → UInt8 → σ × Bool) (inner : σ → UInt8 → Option (List Char)) (st : State) (h : ∀ s b, (calling f inner (s, st) b).1.2 = st) :
    ∀ (bs : List UInt8) (s : σ), feed (calling f inner) (s, st) bs = (((feed f s bs).1, st), (feed f s bs).2)
  | [], s => rfl
  | b :: bs, s => by
    have h1 : calling f inner (s, st) b = (((f s b).1, st), (f s b).2) := by
      have := h s b
      unfold calling at this ⊢
      simp only at this ⊢
      rw [this]
    unfold feed
    rw [h1]
    rcases hf : f s b with ⟨s', ok⟩
    cases ok
    · rfl
    · exact feed_calling f inner st h bs s'

/-- Inner calls that leave the states as they are do not matter. -/
theorem loop_calling {σ : Type} (f : σ → UInt8 → σ × Bool) (inner : σ → UInt8 → Option (List Char)) : ∀ (str : List Char) (st : State) (s : σ),
    (∀ p, p <+: str → ∀ s b, (calling f inner (s, run st p) b).1.2 = run st p) →
    (followSharedLoop (calling f inner) str (s, st)).1.1 = (followLoop f st str s).1 ∧ (followSharedLoop (calling f inner) str (s, st)).2 = (followLoop f st str s).2
  | [], st, s, _ => ⟨rfl, rfl⟩
  | c :: str, st, s, h => by
    have h1 := feed_calling f inner st (h [] (List.nil_prefix)) (encodeChar st c.toNat).1 s
    unfold followSharedLoop followShared followLoop follow
    simp only
    rw [h1]
    rcases hf : feed f s (encodeChar st c.toNat).1 with ⟨s', ok⟩
    cases ok
    · exact ⟨rfl, rfl⟩
    · simp only
      rw [commit_apply]
      refine loop_calling f inner str _ s' (fun p hp => ?_)
      have := h (c :: p) (List.cons_prefix_cons.2 ⟨rfl, hp⟩)
      exact this

/-- The characters U+0001 to U+007F. -/
def Ascii (str : List Char) : Prop := ∀ c ∈ str, 1 ≤ c.toNat ∧ c.toNat < 128

theorem run_ascii {str : List Char} (h : Ascii str) : run State.init str = State.init := by
  induction str with
  | nil => rfl
  | cons c str ih =>
    rw [run]
    have hc := h c List.mem_cons_self
    have : (encodeChar State.init c.toNat).2 = State.init := by rw [encodeChar_ascii hc]
    rw [this]
    exact ih (fun d hd => h d (List.mem_cons_of_mem _ hd))

theorem loop_state (str : List Char) : ∀ (s : List UInt8) (st : State), (followSharedLoop (σ := List UInt8) (fun s b => ((s.1 ++ [b], s.2), true)) str (s, st)).1.2 = run st str := by
  have hfeed : ∀ (bs s : List UInt8) (st : State), feed (fun (s : List UInt8 × State) b => ((s.1 ++ [b], s.2), true)) (s, st) bs = ((s ++ bs, st), true) := by
    intro bs
    induction bs with
    | nil => intro s st; simp [feed]
    | cons b bs ih => intro s st; unfold feed; simp only; rw [ih]; simp
  induction str with
  | nil => intro s st; rfl
  | cons c str ih =>
    intro s st
    unfold followSharedLoop followShared
    simp only
    rw [hfeed]
    simp only
    rw [ih, commit_apply, run]

/-- **C75**, what is true: without inner calls (this is what Model/Utfc.lean takes for granted), and when the string and the strings of the inner calls consist of the characters U+0001 to U+007F. -/
theorem C75_nested_partial {σ : Type} (f : σ → UInt8 → σ × Bool) (inner : σ → UInt8 → Option (List Char)) (str : List Char) (s : σ) (st : State)
    (h : (∀ s b, inner s b = none) ∨ (Ascii str ∧ ∀ s b t, inner s b = some t → Ascii t)) :
    (utfcFollowShared (calling f inner) str (s, st)).1.1 = (utfcFollow f str s).1 ∧ (utfcFollowShared (calling f inner) str (s, st)).2 = (utfcFollow f str s).2 := by
  refine loop_calling f inner str State.init s (fun p hp s b => ?_)
  unfold calling
  simp only
  rcases h with h | ⟨h1, h2⟩
  · rw [h]
  · rw [run_ascii (fun c hc => h1 c (hp.subset hc))]
    cases hi : inner s b with
    | none => rfl
    | some t =>
      simp only
      unfold encodeShared utfcFollowShared
      rw [loop_state]
      exact run_ascii (h2 s b t hi)

example : Ascii ['a', 'b'] ∧ (utfcFollowShared (calling (σ := List UInt8) (fun s b => (s ++ [b], true)) (fun _ _ => some ['x', 'y'])) ['a', 'b'] ([], State.init)).1.1 = [97, 98] := by
  have : Ascii ['a', 'b'] := by unfold Ascii; decide
  refine ⟨this, (C75_nested_partial _ _ _ _ _ (.inr ⟨this, fun _ _ t ht => ?_⟩)).1.trans (by decide +kernel)⟩
  cases ht
  unfold Ascii; decide

/-! ## C76: calls at the same time -/

open Utfc.Par

/-- The full claim C76: each of several calls of `UtfcEncode` that run at the same time returns a slice with the encoding of its string. -/
def C76_statement : Prop := ∀ (grow : Nat → Nat) (strs : List (List Char)) (schedule : List Nat) (i : Nat) (str : List Char) (slice : Slice) (shown : List UInt8),
  strs[i]? = some str → (execute grow strs schedule).calls[i]? = some (.done slice shown) → shown = encode str

/-- **C76 is false**: calls for "a" and "b" can both return a slice with "ab". -/
theorem C76_concurrent_false : ¬ C76_statement := by
  intro hs
  have := hs (fun n => n) [['a'], ['b']] [0, 1, 0, 1, 0, 1, 0, 1] 0 ['a'] ⟨0, 2⟩ [97, 98] rfl (by decide +kernel)
  exact absurd this (by decide +kernel)

/-- A call as the specification sees it. -/
inductive Call
  | ready (str : List Char)
  | emptied (str : List Char)
  | running (todo : List Char)
  | done (shown : List UInt8)
  deriving DecidableEq

/-- What can be seen of a call. -/
def seen : Phase → Call
  | .ready str => .ready str
  | .emptied str => .emptied str
  | .running str => .running str
  | .done _ shown => .done shown

/-- The specification: all calls use one variable for the state and one for a list of bytes. -/
structure Vars where
  buf : List UInt8
  state : State
  calls : List Call

def Vars.step (w : Vars) (i : Nat) : Vars :=
  match w.calls[i]? with
  | some (.ready str) => ⟨[], w.state, w.calls.set i (.emptied str)⟩
  | some (.emptied str) => ⟨w.buf, State.init, w.calls.set i (.running str)⟩
  | some (.running (c :: cs)) => ⟨w.buf ++ (encodeChar w.state c.toNat).1, (encodeChar w.state c.toNat).2, w.calls.set i (.running cs)⟩
  | some (.running []) => ⟨w.buf, w.state, w.calls.set i (.done w.buf)⟩
  | _ => w

/-- The memory holds the list `bs` in the shared buffer. -/
def Holds (m : Mem) (bs : List UInt8) : Prop := ∃ m0, Mem.OK m0 ∧ Mem.Fill m0 bs m

theorem Holds.view {m bs} (h : Holds m bs) : m.view ⟨m.cur, m.len⟩ = bs := by
  obtain ⟨m0, _, h⟩ := h
  unfold Mem.view
  rw [h.len]
  exact h.now

theorem Holds.ok {m bs} (h : Holds m bs) : Mem.OK m := by
  obtain ⟨m0, _, h⟩ := h
  exact ⟨h.cur, by rw [h.len]; exact h.cap⟩

theorem step_calls {w : World} {v : Vars} (hc : w.calls.map seen = v.calls) (i : Nat) : v.calls[i]? = (w.calls[i]?).map seen := by
  rw [← hc, List.getElem?_map]

theorem step_spec (grow : Nat → Nat) {w : World} {v : Vars} (hm : Holds w.mem v.buf) (hst : w.state = v.state) (hc : w.calls.map seen = v.calls) (i : Nat) :
    Holds (step grow w i).mem (v.step i).buf ∧ (step grow w i).state = (v.step i).state ∧ (step grow w i).calls.map seen = (v.step i).calls := by
  have hi := step_calls hc i
  unfold step Vars.step
  rw [hi]
  cases hp : w.calls[i]? with
  | none => exact ⟨hm, hst, hc⟩
  | some p =>
    cases p with
    | ready str => exact ⟨⟨w.mem, hm.ok, Mem.Fill.start _ hm.ok⟩, hst, by simp only [List.map_set, hc]; rfl⟩
    | emptied str => exact ⟨hm, rfl, by simp only [List.map_set, hc]; rfl⟩
    | done s b => exact ⟨hm, hst, hc⟩
    | running todo =>
      cases todo with
      | nil => exact ⟨hm, hst, by simp only [List.map_set, hc, seen, hm.view, Option.map_some]⟩
      | cons c cs =>
        refine ⟨?_, ?_, ?_⟩
        · obtain ⟨m0, h0, hf⟩ := hm
          simp only [Option.map_some, seen]
          rw [hst]
          exact ⟨m0, h0, hf.foldl h0 grow _⟩
        · simp only [Option.map_some, seen]
          rw [hst]
        · simp only [Option.map_some, List.map_set, hc, seen]

theorem steps_spec (grow : Nat → Nat) (schedule : List Nat) : ∀ {w : World} {v : Vars}, Holds w.mem v.buf → w.state = v.state → w.calls.map seen = v.calls →
    Holds (schedule.foldl (step grow) w).mem (schedule.foldl Vars.step v).buf ∧ (schedule.foldl (step grow) w).state = (schedule.foldl Vars.step v).state ∧
    (schedule.foldl (step grow) w).calls.map seen = (schedule.foldl Vars.step v).calls := by
  induction schedule with
  | nil => exact fun h1 h2 h3 => ⟨h1, h2, h3⟩
  | cons i schedule ih =>
    intro w v h1 h2 h3
    obtain ⟨k1, k2, k3⟩ := step_spec grow h1 h2 h3 i
    exact ih k1 k2 k3

theorem Holds.init : Holds Mem.init [] := ⟨Mem.init, Mem.OK.init, Mem.Fill.start _ Mem.OK.init⟩

/-- **C76**, what the results are: for every schedule, and however Go grows slices, all calls behave as if they used one variable that holds a state and one that holds a list of bytes. -/
theorem C76_shared_partial (grow : Nat → Nat) (strs : List (List Char)) (schedule : List Nat) :
    (execute grow strs schedule).calls.map seen = (schedule.foldl Vars.step ⟨[], ⟨0, 0, false⟩, strs.map Call.ready⟩).calls :=
  (steps_spec grow schedule Holds.init rfl (by simp [Function.comp_def, seen])).2.2

/-- The calls for "a" and "b" of the counterexample return "ab" both, for every `grow`. -/
example (grow : Nat → Nat) : (execute grow [['a'], ['b']] [0, 1, 0, 1, 0, 1, 0, 1]).calls.map seen = [.done [97, 98], .done [97, 98]] := by
  rw [C76_shared_partial]
  decide +kernel

theorem run_alone (i : Nat) : ∀ (todo : List Char) (v : Vars), v.calls[i]? = some (.running todo) →
    ((List.replicate (todo.length + 1) i).foldl Vars.step v).calls[i]? = some (.done (v.buf ++ encFrom v.state todo))
  | [], v, h => by
    have hl : i < v.calls.length := by
      rcases Nat.lt_or_ge i v.calls.length with h' | h'
      · exact h'
      · rw [List.getElem?_eq_none h'] at h; cases h
    simp only [List.length_nil, Nat.zero_add, List.replicate_one, List.foldl_cons, List.foldl_nil]
    unfold Vars.step
    rw [h]
    simp only [List.getElem?_set_self hl, encFrom, List.append_nil]
  | c :: cs, v, h => by
    have hl : i < v.calls.length := by
      rcases Nat.lt_or_ge i v.calls.length with h' | h'
      · exact h'
      · rw [List.getElem?_eq_none h'] at h; cases h
    rw [List.length_cons, List.replicate_succ, List.foldl_cons]
    have e : v.step i = ⟨v.buf ++ (encodeChar v.state c.toNat).1, (encodeChar v.state c.toNat).2, v.calls.set i (.running cs)⟩ := by
      unfold Vars.step
      rw [h]
    rw [e, run_alone i cs _ (by simp only [List.getElem?_set_self hl]), encFrom]
    simp only [List.append_assoc]

/-- **C76**, when no other call makes a step between the beginning of a call and its return (a lock around each call has this effect): it returns a slice with the encoding. -/
theorem C76_alone_partial (grow : Nat → Nat) (strs : List (List Char)) (before : List Nat) (i : Nat) (str : List Char) (h : (execute grow strs before).calls[i]? = some (.ready str)) :
    ∃ slice, (execute grow strs (before ++ List.replicate (str.length + 3) i)).calls[i]? = some (.done slice (encode str)) := by
  have h1 := C76_shared_partial grow strs before
  have h2 := C76_shared_partial grow strs (before ++ List.replicate (str.length + 3) i)
  rw [List.foldl_append] at h2
  generalize hv : before.foldl Vars.step ⟨[], ⟨0, 0, false⟩, strs.map Call.ready⟩ = v at h1 h2
  have h3 : v.calls[i]? = some (.ready str) := by rw [← h1, List.getElem?_map, h]; rfl
  have hl : i < v.calls.length := by
    rcases Nat.lt_or_ge i v.calls.length with h' | h'
    · exact h'
    · rw [List.getElem?_eq_none h'] at h3; cases h3
  have e1 : v.step i = ⟨[], v.state, v.calls.set i (.emptied str)⟩ := by unfold Vars.step; rw [h3]
  have e2 : (v.step i).step i = ⟨[], State.init, v.calls.set i (.running str)⟩ := by
    rw [e1]
    unfold Vars.step
    simp only [List.getElem?_set_self hl, List.set_set]
  rw [show List.replicate (str.length + 3) i = i :: i :: List.replicate (str.length + 1) i from rfl, List.foldl_cons, List.foldl_cons, e2] at h2
  have h4 := run_alone i str ⟨[], State.init, v.calls.set i (.running str)⟩ (by simp only [List.getElem?_set_self hl])
  rw [← h2, List.getElem?_map] at h4
  cases hp : (execute grow strs (before ++ i :: i :: List.replicate (str.length + 1) i)).calls[i]? with
  | none => rw [hp] at h4; cases h4
  | some p =>
    rw [hp] at h4
    cases p with
    | done slice shown =>
      simp only [Option.map_some, seen, List.nil_append, Option.some.injEq, Call.done.injEq] at h4
      rw [h4, ← encode_eq] at hp
      exact ⟨slice, hp⟩
    | ready => cases h4
    | emptied => cases h4
    | running => cases h4

/-- The call for "b" after the call for "αa" and a half of another one. -/
example (grow : Nat → Nat) : ∃ slice, (execute grow [['α', 'a'], ['x', 'y'], ['b']] ([0, 0, 1, 1, 0, 1, 0, 0] ++ [2, 2, 2, 2])).calls[2]? = some (.done slice [98]) := by
  refine C76_alone_partial grow _ [0, 0, 1, 1, 0, 1, 0, 0] 2 ['b'] ?_
  have h := C76_shared_partial grow [['α', 'a'], ['x', 'y'], ['b']] [0, 0, 1, 1, 0, 1, 0, 0]
  have h1 : ((execute grow [['α', 'a'], ['x', 'y'], ['b']] [0, 0, 1, 1, 0, 1, 0, 0]).calls.map seen)[2]? = some (.ready ['b']) := by rw [h]; decide +kernel
  rw [List.getElem?_map] at h1
  cases hp : (execute grow [['α', 'a'], ['x', 'y'], ['b']] [0, 0, 1, 1, 0, 1, 0, 0]).calls[2]? with
  | none => rw [hp] at h1; cases h1
  | some p =>
    rw [hp] at h1
    cases p <;> cases h1
    rfl

end Dawg.Props
