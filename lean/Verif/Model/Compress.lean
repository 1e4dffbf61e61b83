import Verif.Model.Bincode
/-!
Model of `lindera-compress/src/lib.rs`, `lindera-decompress/src/lib.rs`, `compress_write` in `lindera-dictionary-builder/src/utils.rs` and the
`decompress_data!` loader. The compression library `flate2` is a parameter.
-/
namespace Verif.Model

/-- `Algorithm`, `lindera-decompress/src/lib.rs` lines 6-12. -/
inductive Algorithm where
  | deflate | zlib | gzip | raw
  deriving DecidableEq, Repr

/-- `CompressedData`, `lindera-decompress/src/lib.rs` lines 14-18. -/
structure CompressedData where
  algorithm : Algorithm
  data : List UInt8
  deriving DecidableEq, Repr

/-- The encoders and decoders of `flate2` (external crate): each takes a complete byte string; a decoder can fail. -/
structure Flate where
  deflate : List UInt8 → List UInt8
  inflate : List UInt8 → Option (List UInt8)
  zlib : List UInt8 → List UInt8
  unzlib : List UInt8 → Option (List UInt8)
  gzip : List UInt8 → List UInt8
  gunzip : List UInt8 → Option (List UInt8)

/-- `compress`, `lindera-compress/src/lib.rs` lines 14-36. Writing to a `Vec` does not fail. -/
def compress (fl : Flate) (data : List UInt8) : Algorithm → CompressedData
  | .deflate => ⟨.deflate, fl.deflate data⟩
  | .zlib => ⟨.zlib, fl.zlib data⟩
  | .gzip => ⟨.gzip, fl.gzip data⟩
  | .raw => ⟨.raw, data⟩

/-- `decompress`, `lindera-decompress/src/lib.rs` lines 26-48; `none`: error. -/
def decompress (fl : Flate) (c : CompressedData) : Option (List UInt8) :=
  match c.algorithm with
  | .deflate => fl.inflate c.data
  | .zlib => fl.unzlib c.data
  | .gzip => fl.gunzip c.data
  | .raw => some c.data

/-- The index of a variant, as serialized. -/
def Algorithm.index : Algorithm → Nat
  | .deflate => 0
  | .zlib => 1
  | .gzip => 2
  | .raw => 3

/-- bincode: an enum without fields is the `u32` index of its variant; other numbers are errors. -/
def Codec.algorithm : Codec Algorithm :=
  Codec.u32Nat.via Algorithm.index fun
    | 0 => some .deflate
    | 1 => some .zlib
    | 2 => some .gzip
    | 3 => some .raw
    | _ => none

/-- derived for `CompressedData`. -/
def Codec.compressedData : Codec CompressedData :=
  (algorithm.pair (vec u8)).via (fun c => (c.algorithm, c.data)) fun p => some ⟨p.1, p.2⟩

/-- `compress_write`, `lindera-dictionary-builder/src/utils.rs` lines 14-38: the bytes written, with or without the feature `compress`. -/
def compressWrite (feature : Bool) (fl : Flate) (buffer : List UInt8) (a : Algorithm) : List UInt8 :=
  if feature then Codec.compressedData.enc (compress fl buffer a) else buffer

/-- The macro `decompress_data!`, `lindera-ipadic/src/lib.rs` lines 13-25 (the same in the four other dictionary crates): the bytes a dictionary crate
reads from an embedded file. Both failures are `expect`s, so panics. -/
def loadEmbedded (feature : Bool) (fl : Flate) (file : List UInt8) : R (List UInt8) :=
  if feature then do
    let p ← orPanic (Codec.compressedData.dec file)
    orPanic (decompress fl p.1)
  else .ok file

end Verif.Model
