import Verif.Model.Basic
/-! Model of `lindera-core/src/connection.rs`. -/
namespace Verif.Model

/-- `ConnectionCostMatrix`, `lindera-core/src/connection.rs` lines 6-10. -/
structure ConnMatrix where
  costsData : List UInt8
  backwardSize : UInt32
  deriving DecidableEq, Repr

/-- `ConnectionCostMatrix::load` and `load_static`, `connection.rs` lines 13-27: the size is read as a *signed* 16-bit integer and
cast to `u32` (sign extension). -/
def ConnMatrix.load (data : List UInt8) : R ConnMatrix := do
  let sz ← orPanic (byteSlice data 2 4)
  let n ← orPanic (readI16 sz)
  let rest ← orPanic (byteDrop data 4)
  return ⟨rest, n.toInt32.toUInt32⟩

/-- `ConnectionCostMatrix::cost`, `connection.rs` lines 29-32 (`u32` arithmetic wraps, as in the release profile). -/
def ConnMatrix.cost (m : ConnMatrix) (forwardId backwardId : UInt32) : R Int32 := do
  let costId := (backwardId + forwardId * m.backwardSize).toNat
  let bs ← orPanic (byteDrop m.costsData (costId * 2))
  let v ← orPanic (readI16 bs)
  return v.toInt32

end Verif.Model
