import Verif.Model.Text
import Verif.Model.Connection
/-! Model of `lindera-dictionary-builder/src/cost_matrix.rs`, from the decoded text of `matrix.def` to the contents of
`matrix.mtx` (before compression). -/
namespace Verif.Model

/-- The integers of one line, `cost_matrix.rs` lines 35-39. -/
def parseMatrixLine (line : Str) : R (List Int32) :=
  match (splitWhitespace line).mapM parseI32 with
  | some fields => .ok fields
  | none => .error (.err .parse)

/-- All lines, `cost_matrix.rs` lines 33-41. -/
def parseMatrix (text : Str) : R (List (List Int32)) := (lines text).mapM parseMatrixLine

/-- One iteration of the loop over cost lines, `cost_matrix.rs` lines 52-57. Panics if a field is missing or the index is out of range; `u32`
arithmetic wraps, `as u16 as i16` keeps the low 16 bits. -/
def matrixStep (backwardSize : UInt32) (costs : List Int16) (fields : List Int32) : R (List Int16) := do
  let f ← orPanic fields[0]?
  let b ← orPanic fields[1]?
  let c ← orPanic fields[2]?
  let i := 2 + (b.toUInt32 + f.toUInt32 * backwardSize).toNat
  if i < costs.length then return costs.set i c.toUInt32.toUInt16.toInt16 else .error .panic

/-- `CostMatrixBuilder::build`, `cost_matrix.rs` lines 42-69, from the parsed lines. `costs[0]` is the forward and `costs[1]` the backward size,
as the low 16 bits. -/
def matrixBytes (rows : List (List Int32)) : R (List UInt8) :=
  match rows with
  | [] => .error (.err .content)
  | header :: rest => do
    let f ← orPanic header[0]?
    let b ← orPanic header[1]?
    let forwardSize := f.toUInt32
    let backwardSize := b.toUInt32
    let len := 2 + (forwardSize * backwardSize).toNat
    let costs := forwardSize.toUInt16.toInt16 :: backwardSize.toUInt16.toInt16 :: List.replicate (len - 2) 32767
    let costs ← rest.foldlM (init := costs) (matrixStep backwardSize)
    return costs.flatMap leI16

/-- `CostMatrixBuilder::build`, `cost_matrix.rs` lines 28-82 (without reading the file and compressing the result). -/
def buildMatrix (text : Str) : R (List UInt8) := do
  let rows ← parseMatrix text
  matrixBytes rows

end Verif.Model
