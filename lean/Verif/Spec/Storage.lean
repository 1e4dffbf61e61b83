import Verif.Model.Compress
/-! What is assumed of values and external crates when dictionaries are written to and read from files. -/
namespace Verif.Spec
open Verif.Model

/-- A `usize`. -/
def Usize (n : Nat) : Prop := n < 2 ^ 64

/-- The value exists in Rust: lengths and category ids are `usize`, boundaries are `u32` (the model uses unbounded numbers for them). -/
structure CharDefsTyped (d : CharDefs) : Prop where
  definitions : Usize d.definitions.length
  names : Usize d.names.length ∧ ∀ n ∈ d.names, Usize (blen n)
  boundaries : Usize d.mapping.boundaries.length ∧ ∀ b ∈ d.mapping.boundaries, b < 2 ^ 32
  values : Usize d.mapping.values.length ∧ ∀ v ∈ d.mapping.values, Usize v.length ∧ ∀ c ∈ v, Usize c

/-- The value exists in Rust. -/
structure UnkDictTyped (u : UnkDict) : Prop where
  references : Usize u.categoryReferences.length ∧ ∀ v ∈ u.categoryReferences, Usize v.length
  costs : Usize u.costs.length

/-- The value exists in Rust. -/
structure UserDictTyped (f : DaFormat) (u : UserDictionary) : Prop where
  da : Usize (f.store u.dict.da).length
  vals : Usize u.dict.valsData.length
  wordsIdx : Usize u.wordsIdxData.length
  words : Usize u.wordsData.length

/-- A double array is its bytes. -/
def Faithful (f : DaFormat) : Prop := ∀ d, f.view (f.store d) = d

/-- The contract of `flate2`: each decoder inverts its encoder. -/
structure FlateContract (fl : Flate) : Prop where
  deflate : ∀ x, fl.inflate (fl.deflate x) = some x
  zlib : ∀ x, fl.unzlib (fl.zlib x) = some x
  gzip : ∀ x, fl.gunzip (fl.gzip x) = some x

/-- A strict prefix of a file: what a crash while writing it sequentially leaves behind. -/
def StrictPrefix (p whole : List UInt8) : Prop := ∃ rest, whole = p ++ rest ∧ rest ≠ []

end Verif.Spec
