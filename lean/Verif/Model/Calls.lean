import Verif.Model.Ranked
import Verif.Model.Index
/-! # How many calls it takes to build guides and indices

The functions of `Model/Guide.lean`, `Model/Ranked.lean` and `Model/Index.lean` that build guides and indices, once more, with a count of the calls of `buildIndices`. -/
namespace Dawg

namespace GuideBuilder

/-- guide_builder.go:62-83: the loop over the children, with the number of calls. -/
def kidsLoopN (dawg : Dawg) (dict : Dictionary) (rec : GuideBuilder → Nat → Nat → Go ((GuideBuilder × Bool) × Nat)) (dictIndex : Nat) :
    List Nat → GuideBuilder → Go ((GuideBuilder × Bool) × Nat)
  | [], gb => .ok ((gb, true), 0)
  | c :: rest, gb => do
    let l ← dawg.label c
    match ← dict.follow l dictIndex with
    | none => return ((gb, false), 0)
    | some dictChild =>
      let ((gb, ok), n) ← rec gb c dictChild
      if !ok then return ((gb, false), n)
      let s ← dawg.sibling c
      let sl ← dawg.label s
      let gb ← if s ≠ 0 then do
          let us ← setSibling gb.units dictChild sl
          pure { gb with units := us }
        else pure gb
      let (r, m) ← kidsLoopN dawg dict rec dictIndex rest gb
      return (r, n + m)

/-- guide_builder.go:46-84 `buildIndices`, with the number of calls, this one included. -/
def buildIndicesN (dawg : Dawg) (dict : Dictionary) : Nat → GuideBuilder → Nat → Nat → Go ((GuideBuilder × Bool) × Nat)
  | 0, _, _, _ => .error .hang
  | fuel + 1, gb, dawgIndex, dictIndex => do
    if ← isFixed gb.isFixedTable dictIndex then return ((gb, true), 1)
    let t ← setIsFixed gb.isFixedTable dictIndex
    let gb := { gb with isFixedTable := t }
    let c ← dawg.child dawgIndex
    let l ← dawg.label c
    let c' ← if l = 0 then dawg.sibling c else pure c
    if l = 0 ∧ c' = 0 then return ((gb, true), 1)
    let l' ← dawg.label c'
    let us ← setChild gb.units dictIndex l'
    let kids ← dawg.chain (dawg.size + 1) c'
    let (r, n) ← kidsLoopN dawg dict (fun gb i x => buildIndicesN dawg dict fuel gb i x) dictIndex kids { gb with units := us }
    return (r, n + 1)

/-- guide_builder.go:28-43 `Build`, with the number of calls of `buildIndices`. -/
def buildN (dawg : Dawg) (dict : Dictionary) : Go (Option Guide × Nat) := do
  let gb : GuideBuilder := { units := List.replicate dict.size ⟨0, 0⟩, isFixedTable := List.replicate (dict.size / 8) 0 }
  if dawg.size ≤ 1 then return (some Guide.new, 0)
  let ((gb, ok), n) ← buildIndicesN dawg dict (dawg.size + 1) gb dawg.root dict.root
  return (if ok then some { units := gb.units } else none, n)

end GuideBuilder

namespace RankedBuilder

/-- ranked_guide_builder.go:96-122 `enumerateLinks`, with the number of calls. -/
def enumerateLinksN (dawg : Dawg) (dict : Dictionary) (rec : RankedBuilder → Nat → Nat → Go ((RankedBuilder × Option Int) × Nat)) (dictIndex : Nat) :
    List Nat → RankedBuilder → Go ((RankedBuilder × Option (List Link)) × Nat)
  | [], rb => .ok ((rb, some []), 0)
  | c :: rest, rb => do
    let l ← dawg.label c
    let ((rb, v), n) ←
      if l = 0 then do
        if !(← dict.hasValue dictIndex) then pure ((rb, none), 0)
        else pure ((rb, some (Int.ofNat (← dict.value dictIndex))), 0)
      else
        match ← dict.follow l dictIndex with
        | none => pure ((rb, none), 0)
        | some x => rec rb c x
    match v with
    | none => return ((rb, none), n)
    | some v =>
      let ((rb, ks), m) ← enumerateLinksN dawg dict rec dictIndex rest rb
      return ((rb, ks.map ({ label := l, value := v } :: ·)), n + m)

/-- ranked_guide_builder.go:51-78 `buildIndices`, with the number of calls, this one included. -/
def buildIndicesN (sorter : Sorter) (dawg : Dawg) (dict : Dictionary) (valuesCmp : Int → Int → Bool) :
    Nat → RankedBuilder → Nat → Nat → Go ((RankedBuilder × Option Int) × Nat)
  | 0, _, _, _ => .error .hang
  | fuel + 1, rb, dawgIndex, dictIndex => do
    if ← GuideBuilder.isFixed rb.isFixedTable dictIndex then
      return ((rb, ← findMaxValue dict rb.units (dict.size + 1) dictIndex), 1)
    let t ← GuideBuilder.setIsFixed rb.isFixedTable dictIndex
    let rb := { rb with isFixedTable := t }
    let kids ← DictBuilder.dawgKids dawg dawgIndex
    let ((rb, links), n) ← enumerateLinksN dawg dict
      (fun rb i x => buildIndicesN sorter dawg dict valuesCmp fuel rb i x) dictIndex kids rb
    match links with
    | none => return ((rb, none), n + 1)
    | some links =>
      let links := sorter (linkCmp valuesCmp) links
      let us ← turnLinksToUnits dict dictIndex links rb.units
      let rb := { rb with units := us }
      let first ← rd links 0
      return ((rb, some first.value), n + 1)

/-- ranked_guide_builder.go:32-48 `Build`, with the number of calls of `buildIndices`. -/
def buildN (sorter : Sorter) (dawg : Dawg) (dict : Dictionary) (valuesCmp : Int → Int → Bool) : Go (Option Guide × Nat) := do
  let rb : RankedBuilder := { units := List.replicate dict.size ⟨0, 0⟩, isFixedTable := List.replicate (dict.size / 8) 0 }
  if dawg.size ≤ 1 then return (some Guide.new, 0)
  let ((rb, ok), n) ← buildIndicesN sorter dawg dict valuesCmp (dawg.size + 1) rb dawg.root dict.root
  return (if ok.isSome then some { units := rb.units } else none, n)

end RankedBuilder

namespace IndexBuilder

/-- index_builder.go:36-48: the loop over the children, with the number of calls. -/
def loopN (dict : Dictionary) (guide : Guide) (rec : List Nat → Nat → Go ((List Nat × Bool) × Nat)) (index : Nat) :
    Nat → List Nat → UInt8 → Go ((List Nat × Bool) × Nat)
  | 0, _, _ => .error .hang
  | fuel + 1, us, child =>
    if child = 0 then .ok ((us, true), 0) else do
      match ← dict.follow child index with
      | none => return ((us, false), 0)
      | some childIndex =>
        let n ← rd us childIndex
        let ((us, ok), k) ← if n = 0 then rec us childIndex else pure ((us, true), 0)
        if !ok then return ((us, false), k)
        let us ← addTo us index (← rd us childIndex)
        let s ← guide.sibling childIndex
        let (r, m) ← loopN dict guide rec index fuel us s
        return (r, k + m)

/-- index_builder.go:30-51 `buildIndices`, with the number of calls, this one included. -/
def buildIndicesN (dict : Dictionary) (guide : Guide) : Nat → List Nat → Nat → Go ((List Nat × Bool) × Nat)
  | 0, _, _ => .error .hang
  | fuel + 1, us, index => do
    let us ← if ← dict.hasValue index then addTo us index 1 else pure us
    let child ← guide.child index
    let (r, n) ← loopN dict guide (fun us i => buildIndicesN dict guide fuel us i) index 257 us child
    return (r, n + 1)

/-- index_builder.go:25-28 `Build`, with the number of calls of `buildIndices`. -/
def buildN (dict : Dictionary) (guide : Guide) : Go (Option Index × Nat) := do
  let ((us, ok), n) ← buildIndicesN dict guide (dict.size + 1) (List.replicate dict.size 0) guide.root
  return (if ok then some { units := us } else none, n)

end IndexBuilder
end Dawg
