import Verif.Model.Tool
import Verif.Spec
/-! # Client programs used to state the properties -/
namespace Dawg.Client
open Dawg.Spec

/-- A loop of `InsertStringValue` calls; collects the returned booleans. -/
def insertAll : Builder → List (Key × Int) → Go (Builder × List Bool)
  | b, [] => .ok (b, [])
  | b, (k, v) :: rest => do
    let (b, ok) ← b.insertStringValue k v
    let (b, oks) ← insertAll b rest
    return (b, ok :: oks)

/-- Insertions into a new builder, then `Finish`. -/
def build (size : Nat) (hist : List (Key × Int)) : Go (List Bool × Builder × Dawg) := do
  let (b, oks) ← insertAll (Builder.newWithSize size) hist
  let (b, d) ← b.finish
  return (oks, b, d)

/-- Listing the entries below a chain of sibling transitions starting at `i`, in sibling order, with the
accessors `IsLeaf`, `Value`, `Child`, `Label`, `Sibling`; `p` is the string spelled so far. -/
def dump (d : Dawg) : Nat → Nat → Key → Go (List (Key × Nat))
  | 0, _, _ => .error .hang
  | fuel + 1, i, p => do
    let leaf ← d.isLeaf i
    let here ← if leaf then (fun v => [(p, v)]) <$> d.value i
      else d.child i >>= fun c => d.label i >>= fun l => dump d fuel c (p ++ [l])
    let s ← d.sibling i
    if s = 0 then return here
    let rest ← dump d fuel s p
    return here ++ rest

/-- Listing the whole Dawg from `Root()`. -/
def dumpAll (d : Dawg) (fuel : Nat) : Go (List (Key × Nat)) := do
  let c ← d.child d.root
  if c = 0 then return [] else dump d fuel c []

end Dawg.Client

namespace Dawg.Client

/-- The transitions that can be reached from `Root()` with `Child` and `Sibling`. -/
inductive Trans (d : Dawg) : Nat → Prop
  | root : Trans d d.root
  | child {i c} : Trans d i → d.isLeaf i = .ok false → d.child i = .ok c → c ≠ 0 → Trans d c
  | sibling {i s} : Trans d i → d.sibling i = .ok s → s ≠ 0 → Trans d s

/-- A state, named by the index of its first transition. -/
def IsState (d : Dawg) (s : Nat) : Prop := ∃ i, Trans d i ∧ d.isLeaf i = .ok false ∧ d.child i = .ok s ∧ s ≠ 0

/-- Unit `i` of the dictionary belongs to key `k`: it is reached with a prefix of `k`, or it is the unit that
`Value` reads for `k` (dictionary.go:45-47). -/
def PartOf (D : Dictionary) (k : Spec.Key) (i : Nat) : Prop :=
  (∃ p n, p <+: k ∧ D.followString p D.root = .ok (true, i, n)) ∨
  (∃ u n w, D.followString k D.root = .ok (true, u, n) ∧ D.units[u]? = some w ∧ i = u ^^^ dictOffset w)

/-- `d` is the Dawg and `D` the dictionary of a history of insertions: the insertions are made into a new
builder (of any size), then `Finish` and `Build` are called, and `Build` does not return `nil`. -/
def Made (hist : List (Spec.Key × Int)) (d : Dawg) (D : Dictionary) : Prop :=
  Spec.Admissible hist ∧ ∃ n oks b, 1 ≤ n ∧ n < 4294967296 ∧ build n hist = .ok (oks, b, d) ∧ d.build = .ok (some D)

end Dawg.Client

namespace Dawg.Client

/-- Calling `Next` until it returns false, at most `n` times; collects what `Key()`, `Length()` and `Value()` return after each success. -/
def listing (D : Dictionary) (gd : Guide) : Nat → Completer → Go (List (Spec.Key × Int × Nat) × Completer)
  | 0, _ => .error .hang
  | n + 1, c => do
    let (c, ok) ← Completer.next D gd c
    if !ok then return ([], c)
    let v ← c.value D
    let (rest, c') ← listing D gd n c
    return ((c.key, c.length, v) :: rest, c')

/-- `n` calls of `Next`: each time the result, `Key()`, `Length()` and, after a success, `Value()`. -/
def observe (D : Dictionary) (gd : Guide) : Nat → Completer → Go (List (Bool × Spec.Key × Int × Option Nat))
  | 0, _ => .ok []
  | n + 1, c => do
    let (c, ok) ← Completer.next D gd c
    let v ← if ok then some <$> c.value D else pure none
    let rest ← observe D gd n c
    return (ok, c.key, c.length, v) :: rest

/-- The completer after `n` calls of `Next`, and the last result. -/
def nextN (D : Dictionary) (gd : Guide) : Nat → Completer → Go (Completer × Bool)
  | 0, c => .ok (c, true)
  | n + 1, c => do
    let (c, ok) ← Completer.next D gd c
    if n = 0 then return (c, ok)
    nextN D gd n c

end Dawg.Client

namespace Dawg.Client

/-- Calling `Next` of a ranked completer until it returns false, at most `n` times; collects what `Key()`, `Length()` and `Value()` return after each
success. -/
def rlisting (D : Dictionary) (gd : Guide) : Nat → RankedCompleter → Go (List (Spec.Key × Int × Int) × RankedCompleter)
  | 0, _ => .error .hang
  | n + 1, rc => do
    let (rc, ok) ← RankedCompleter.next D gd rc
    if !ok then return ([], rc)
    let (rest, rc') ← rlisting D gd n rc
    return ((rc.key, rc.length, rc.value) :: rest, rc')

end Dawg.Client

namespace Dawg.Client

/-- The follower (utfc.go:3-5) that a client makes of a dictionary: `Follow(b)` calls `dict.Follow(b, &index)`.  A panic in it ends everything. -/
def dictFollower (D : Dictionary) (s : Go Nat) (b : UInt8) : Go Nat × Bool :=
  match s with
  | .error e => (.error e, false)
  | .ok i =>
    match D.follow b i with
    | .ok (some j) => (.ok j, true)
    | .ok none => (.ok i, false)
    | .error e => (.error e, false)

/-- A loop of `UtfcState.Follow` calls over the characters of a string, until one is refused. -/
def spell {σ : Type} (f : σ → UInt8 → σ × Bool) : Utfc.State → List Char → σ → Utfc.State × σ × Bool
  | st, [], s => (st, s, true)
  | st, c :: cs, s =>
    match Utfc.follow f st c s with
    | (st, s, true) => spell f st cs s
    | (st, s, false) => (st, s, false)

end Dawg.Client
