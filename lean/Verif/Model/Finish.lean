import Verif.Model.DawgBuilder
/-! # `Finish` with the object that it is given (dawg_builder.go:331-351) -/
namespace Dawg

/-- dawg.go:3-11: the variable that `Finish` gets a pointer to.  `flagPool` is a pointer: `none` is nil, as in `Dawg{}` or `new(Dawg)`. -/
structure DawgVar where
  basePool : List Nat := []
  labelPool : List UInt8 := []
  flagPool : Option BitPool := none
  numOfStates : Nat := 0
  numOfMergedTransitions : Nat := 0
  numOfMergedStates : Int := 0
  numOfMergingStates : Nat := 0
  deriving DecidableEq, Repr

/-- A Dawg as a variable. -/
def Dawg.var (d : Dawg) : DawgVar :=
  { basePool := d.basePool, labelPool := d.labelPool, flagPool := some d.flagPool, numOfStates := d.numOfStates,
    numOfMergedTransitions := d.numOfMergedTransitions, numOfMergedStates := d.numOfMergedStates, numOfMergingStates := d.numOfMergingStates }

namespace Builder

/-- dawg_builder.go:333-348: everything but the last line.  Result: the builder, with the flag pool that it got (nil or not), and the variable. -/
def finishFill (db : Builder) (dawg : DawgVar) : Go (Builder × Option BitPool × DawgVar) := do
  let db ← if db.hashTable.length = 0 then db.init else .ok db
  let db ← db.fixUnits 0
  let u ← rd db.unitPool 0
  let bp ← wr db.basePool 0 u.base
  let lp ← wr db.labelPool 0 u.label
  let dawg' := { dawg with
    numOfStates := db.numOfStates, numOfMergedTransitions := db.numOfMergedTransitions
    numOfMergedStates := { db with basePool := bp, labelPool := lp : Builder }.numOfMergedStates, numOfMergingStates := db.numOfMergingStates
    basePool := bp, labelPool := lp, flagPool := some db.flagPool }
  return ({ db with basePool := dawg.basePool, labelPool := dawg.labelPool }, dawg.flagPool, dawg')

/-- dawg_builder.go:331-351 `Finish`: line 350 clears the pools that were in the variable (dawg_builder.go:249-262); `flagPool.clear` (bit_pool.go:17-20) writes to its receiver and panics for nil. -/
def finishInto (db : Builder) (dawg : DawgVar) : Go (Builder × DawgVar) := do
  let (db, flag, dawg) ← db.finishFill dawg
  match flag with
  | none => .error .panic
  | some p => return ({ db with flagPool := p }.clear, dawg)

end Builder
end Dawg
