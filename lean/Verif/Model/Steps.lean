import Verif.Model.Guide
/-! # How many transitions a completer follows

`FindTerminal` and `Next` of `Model/Guide.lean` once more, with a count of the transitions followed and of the rounds of the climbing loop. -/
namespace Dawg
namespace Completer

/-- completer.go:115-129 `FindTerminal`, with the number of calls of `Dictionary.Follow`. -/
def findTerminalLoopN (dict : Dictionary) (guide : Guide) : Nat → Completer → Nat → Go ((Completer × Bool) × Nat)
  | 0, _, _ => .error .hang
  | fuel + 1, c, index => do
    if ← dict.hasValue index then return (({ c with lastIndex := index }, true), 0)
    let label ← guide.child index
    match ← follow dict c label index with
    | none => return ((c, false), 1)
    | some (c, index) =>
      let (r, n) ← findTerminalLoopN dict guide fuel c index
      return (r, n + 1)

/-- completer.go:73-94: climbs until a sibling is found, with the number of calls of `Dictionary.Follow` and the number of rounds. -/
def climbN (dict : Dictionary) (guide : Guide) : Nat → Completer → Nat → Go ((Completer × Option Nat) × Nat × Nat)
  | 0, _, _ => .error .hang
  | fuel + 1, c, index => do
    let sl ← guide.sibling index
    let path ← if c.path.length > 1 then setLast c.path.dropLast 0 else pure c.path
    match c.indexStack with
    | [] => .error .panic
    | _ :: stack =>
      let c := { c with path := path, indexStack := stack }
      match stack with
      | [] => return ((c, none), 0, 1)
      | index :: _ =>
        if sl ≠ 0 then
          match ← follow dict c sl index with
          | none => return ((c, none), 1, 1)
          | some (c, i) => return ((c, some i), 1, 1)
        else
          let (r, n, m) ← climbN dict guide fuel c index
          return (r, n, m + 1)

/-- completer.go:58-99 `Next`, with the number of calls of `Dictionary.Follow` and the number of rounds of the climbing loop. -/
def nextC (dict : Dictionary) (guide : Guide) (c : Completer) : Go ((Completer × Bool) × Nat × Nat) := do
  match c.indexStack with
  | [] => return ((c, false), 0, 0)
  | index :: _ =>
    if c.lastIndex ≠ dict.root then
      let cl ← guide.child index
      if cl ≠ 0 then
        match ← follow dict c cl index with
        | none => return ((c, false), 1, 0)
        | some (c, i) =>
          let (r, n) ← findTerminalLoopN dict guide (dict.size + 1) c i
          return (r, n + 1, 0)
      else
        match ← climbN dict guide (c.indexStack.length + 1) c index with
        | ((c, none), n, m) => return ((c, false), n, m)
        | ((c, some i), n, m) =>
          let (r, k) ← findTerminalLoopN dict guide (dict.size + 1) c i
          return (r, n + k, m)
    else
      let (r, n) ← findTerminalLoopN dict guide (dict.size + 1) c index
      return (r, n, 0)

end Completer
end Dawg
