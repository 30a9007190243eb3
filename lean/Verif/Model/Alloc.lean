import Verif.Model.Tool
/-! # The memory that reading asks for (dictionary.go:66, guide.go:77, ranked_guide.go:63, index.go:62)

Memory is unlimited in the other parts of the model.  Here the sizes of the slices that the `Read` methods make are counted, in bytes.  `encoding/binary` makes a buffer of the same size, which is not
counted. -/
namespace Dawg

/-- dictionary.go:59-66, guide.go:70-77, ranked_guide.go:56-63, index.go:55-62: as soon as the size has been read, a slice of so many units of `k` bytes is made. -/
def readAsks (k : Nat) (r : List UInt8) : Nat :=
  match readFull 4 r with
  | (some [a, b, c, d], _) => k * getU32 a b c d
  | _ => 0

/-- dictionary.go:58-74 `Read`, 49-55 `ReadDictionary` (dictionary_unit.go: units of 4 bytes). -/
def Dictionary.readAsks (r : List UInt8) : Nat := Dawg.readAsks 4 r
/-- guide.go:60-86 and ranked_guide.go:46-72 (guide_unit.go:3-8: units of 2 bytes). -/
def Guide.readAsks (r : List UInt8) : Nat := Dawg.readAsks 2 r
/-- index.go:45-68 (index.go:8-10: units of 4 bytes). -/
def Index.readAsks (r : List UInt8) : Nat := Dawg.readAsks 4 r

/-- main.go:198-229 `handleLoadDict`, the loading part: the sum of what is asked for until it ends or stops. -/
def Tool.loadAsks (o : Tool.Opts) (file : List UInt8) : Nat :=
  Dictionary.readAsks file +
    match Dictionary.readNew file with
    | (none, _) => 0
    | (some _, rest) =>
      if o.ranked || o.guide then
        Guide.readAsks rest +
          match Guide.readNew rest with
          | (none, _) => 0
          | (some _, rest) => if o.index then Index.readAsks rest else 0
      else 0

end Dawg
