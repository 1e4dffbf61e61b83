import Verif.Model.WordEntry
/-! Model of `lindera-core/src/prefix_dict.rs` and the contract of the `yada` double array. -/
namespace Verif.Model

/-- `yada::DoubleArray` by contract (external crate): the finite map from byte keys to `u32`
values it was built from. The byte layout of the array is not modelled. -/
structure DoubleArray where
  keys : List (List UInt8 × UInt32)
  deriving DecidableEq, Repr

/-- The value stored for a key (`yada::DoubleArray::exact_match_search`, by contract). -/
def DoubleArray.exactMatch (da : DoubleArray) (k : List UInt8) : Option UInt32 :=
  (da.keys.find? (fun p => p.1 == k)).map (·.2)

/-- `yada::DoubleArray::common_prefix_search` by contract: the keys that are non-empty byte prefixes of
`s`, by increasing length, each with its value and length. -/
def DoubleArray.commonPrefixSearch (da : DoubleArray) (s : List UInt8) : List (UInt32 × Nat) :=
  (List.range s.length).filterMap fun i => (da.exactMatch (s.take (i + 1))).map (·, i + 1)

/-- `PrefixDict`, `lindera-core/src/prefix_dict.rs` lines 14-21. -/
structure PrefixDict where
  da : DoubleArray
  valsData : List UInt8
  isSystem : Bool
  deriving DecidableEq, Repr

/-- The closure that decodes the `len` homographs at an offset, `prefix_dict.rs` lines 40-52 and 60-71
(the same code in `prefix` and `find_surface`). The iterator is lazy in Rust; the model decodes all entries. -/
def PrefixDict.entriesAt (d : PrefixDict) (offsetLen : UInt32) : R (List WordEntry) := do
  let len := (offsetLen &&& (((1 : UInt32) <<< 5) - 1)).toNat
  let offset := (offsetLen >>> (5 : UInt32)).toNat
  let data ← orPanic (byteDrop d.valsData (offset * serializedLen))
  (List.range len).mapM fun i => do
    let chunk ← orPanic (byteDrop data (serializedLen * i))
    WordEntry.deserialize chunk d.isSystem

/-- `PrefixDict::prefix`, `prefix_dict.rs` lines 36-54. -/
def PrefixDict.prefix (d : PrefixDict) (s : Str) : R (List (Nat × WordEntry)) := do
  let groups ← (d.da.commonPrefixSearch (utf8 s)).mapM fun (offsetLen, prefixLen) => do
    let es ← d.entriesAt offsetLen
    return es.map fun e => (prefixLen, e)
  return groups.flatten

/-- `PrefixDict::find_surface`, `prefix_dict.rs` lines 57-75. -/
def PrefixDict.findSurface (d : PrefixDict) (surface : Str) : R (List WordEntry) :=
  match d.da.exactMatch (utf8 surface) with
  | some offsetLen => d.entriesAt offsetLen
  | none => .ok []

end Verif.Model
