import Verif.Model.UtfcMem
/-! # The variables that all calls of the UTF-C functions share (utfc.go:126-130)

`UtfcFollow` and `UtfcEncode` keep their state in the global variables `sharedState` and `sharedBuffer`.  Model/Utfc.lean and Model/UtfcMem.lean are about calls one after the other.  Here:

* calls within a call: the follower given to `UtfcFollow` calls `UtfcEncode` itself;
* calls of `UtfcEncode` that run at the same time in several goroutines (nothing is locked). -/
namespace Dawg
namespace Utfc

/-! ## Calls within a call -/

/-- The assignments at the end of a branch of `Follow`; they read `st.offs` again, after all bytes have been handed over. -/
inductive Commit
  /-- none -/
  | keep
  /-- utfc.go:190-192, 271-277 -/
  | short (offs : Nat)
  /-- utfc.go:243-245 -/
  | long (offs : Nat)
  deriving DecidableEq, Repr

/-- What the assignments do to the state. -/
def Commit.apply : Commit → State → State
  | .keep, st => st
  | .short offs, st => { offs := offs, auxOffs := getAuxOffset st.offs, is21Bit := false }
  | .long offs, st => { offs := offs, auxOffs := st.offs, is21Bit := true }

/-- utfc.go:152-285 `Follow`: the assignments of the branch that is taken. -/
def commit (st : State) (cp : Nat) : Commit :=
  if st.auxOffs = 0 ∧ inRanges cp rangesLatin then .keep
  else if st.auxOffs ≠ 0 ∧ cp ≥ st.auxOffs ∧ cp ≤ st.auxOffs + 0x3F then .keep
  else if inRanges cp rangesExtra then
    if !st.is21Bit ∧ cp &&& offsMask13Bit = st.offs then .keep
    else if inHK cp then .short (cp &&& offsMask13Bit) else .keep
  else if cp ≥ min21BitCp then
    if st.is21Bit ∧ (cp - min21BitCp) &&& offsMask21Bit = st.offs then .keep else .long ((cp - min21BitCp) &&& offsMask21Bit)
  else if !st.is21Bit ∧ cp &&& offsMask13Bit = st.offs then .keep
  else .short (if cp ≤ maxLatinCp then 0 else cp &&& offsMask13Bit)

/-- utfc.go:152-285 `sharedState.Follow`, for a follower that may change `sharedState` while it handles a byte.  The bytes depend on the state at the beginning only. -/
def followShared {σ : Type} (f : σ × State → UInt8 → (σ × State) × Bool) (ch : Char) (s : σ × State) : (σ × State) × Bool :=
  match feed f s (encodeChar s.2 ch.toNat).1 with
  | (s', true) => ((s'.1, (commit s.2 ch.toNat).apply s'.2), true)
  | (s', false) => (s', false)

/-- utfc.go:293-297: the loop of `UtfcFollow`. -/
def followSharedLoop {σ : Type} (f : σ × State → UInt8 → (σ × State) × Bool) : List Char → σ × State → (σ × State) × Bool
  | [], s => (s, true)
  | ch :: str, s =>
    match followShared f ch s with
    | (s, true) => followSharedLoop f str s
    | (s, false) => (s, false)

/-- utfc.go:291-299 `UtfcFollow`, with `sharedState` as the second part of the state. -/
def utfcFollowShared {σ : Type} (f : σ × State → UInt8 → (σ × State) × Bool) (str : List Char) (s : σ × State) : (σ × State) × Bool :=
  followSharedLoop f str (s.1, s.2.clear)

/-- What a call of `UtfcEncode` does to `sharedState`. -/
def encodeShared (str : List Char) (st : State) : State :=
  (utfcFollowShared (σ := List UInt8) (fun s b => ((s.1 ++ [b], s.2), true)) str ([], st)).1.2

/-- A follower that handles bytes as `f` does, and first calls `UtfcEncode` when `inner` gives it a string. -/
def calling {σ : Type} (f : σ → UInt8 → σ × Bool) (inner : σ → UInt8 → Option (List Char)) (s : σ × State) (b : UInt8) : (σ × State) × Bool :=
  let st := match inner s.1 b with
    | some t => encodeShared t s.2
    | none => s.2
  (((f s.1 b).1, st), (f s.1 b).2)

/-! ## Calls at the same time

A step of a goroutine that calls `UtfcEncode` is: to set the length of the buffer to 0 (utfc.go:303), to clear the state (utfc.go:292), to handle one character (utfc.go:294, with the bytes appended), or
to return the buffer (utfc.go:305).  Simplification: a step is not interrupted.  (In Go it can be, so that more can go wrong; every execution of this model is one of the program.) -/
namespace Par

/-- Where a call of `UtfcEncode` is. -/
inductive Phase
  /-- before utfc.go:303 -/
  | ready (str : List Char)
  /-- before utfc.go:292 -/
  | emptied (str : List Char)
  /-- these characters are still to be handled -/
  | running (todo : List Char)
  /-- it has returned this slice, which showed these bytes then -/
  | done (slice : Slice) (shown : List UInt8)
  deriving DecidableEq, Repr

/-- The shared variables and the calls. -/
structure World where
  mem : Mem
  state : State
  calls : List Phase

/-- The next step of call `i`, see above. -/
def step (grow : Nat → Nat) (w : World) (i : Nat) : World :=
  match w.calls[i]? with
  | some (.ready str) => ⟨{ w.mem with len := 0 }, w.state, w.calls.set i (.emptied str)⟩
  | some (.emptied str) => ⟨w.mem, w.state.clear, w.calls.set i (.running str)⟩
  | some (.running (c :: cs)) =>
    ⟨(encodeChar w.state c.toNat).1.foldl (Mem.append grow) w.mem, (encodeChar w.state c.toNat).2, w.calls.set i (.running cs)⟩
  | some (.running []) => ⟨w.mem, w.state, w.calls.set i (.done ⟨w.mem.cur, w.mem.len⟩ (w.mem.view ⟨w.mem.cur, w.mem.len⟩))⟩
  | _ => w

/-- Calls for the given strings that run at the same time, from the start of the program; the schedule tells which call makes the next step. -/
def execute (grow : Nat → Nat) (strs : List (List Char)) (schedule : List Nat) : World :=
  schedule.foldl (step grow) ⟨Mem.init, ⟨0, 0, false⟩, strs.map Phase.ready⟩

end Par
end Utfc
end Dawg
