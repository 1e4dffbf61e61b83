import Verif.Model.Text
import Verif.Model.Tokenizer
/-!
Model of the `bincode` 1.3 format (external crate, default functions: fixed-width little-endian integers, `u64` lengths, trailing bytes
allowed) and of the derived serializations of the dictionary types. A decoder returns the value and the remaining bytes, or `none` for an error.
-/
namespace Verif.Model

/-- Serialization and deserialization of a type. -/
structure Codec (α : Type) where
  enc : α → List UInt8
  dec : List UInt8 → Option (α × List UInt8)

/-- The `k` lowest base-256 digits, least significant first. -/
def leNat : Nat → Nat → List UInt8
  | 0, _ => []
  | k + 1, n => UInt8.ofNat n :: leNat k (n / 256)

/-- Reads `k` base-256 digits, least significant first; an error at the end of the input. -/
def readLe : Nat → List UInt8 → Option (Nat × List UInt8)
  | 0, bs => some (0, bs)
  | _ + 1, [] => none
  | k + 1, b :: bs => (readLe k bs).map fun p => (b.toNat + 256 * p.1, p.2)

namespace Codec

/-- bincode: an unsigned integer of `k` bytes. -/
def uint (k : Nat) : Codec Nat := ⟨leNat k, readLe k⟩

/-- Transport along a partial inverse (newtypes, structs, checked decoding). -/
def via {α β : Type} (c : Codec α) (g : β → α) (f : α → Option β) : Codec β :=
  ⟨fun b => c.enc (g b), fun bs => (c.dec bs).bind fun p => (f p.1).map fun b => (b, p.2)⟩

/-- bincode: the fields of a struct or tuple one after the other. -/
def pair {α β : Type} (c : Codec α) (d : Codec β) : Codec (α × β) :=
  ⟨fun p => c.enc p.1 ++ d.enc p.2, fun bs => (c.dec bs).bind fun p => (d.dec p.2).map fun q => ((p.1, q.1), q.2)⟩

/-- bincode: `u8`. -/
def u8 : Codec UInt8 := (uint 1).via UInt8.toNat fun n => some (UInt8.ofNat n)
/-- bincode: `u16`. -/
def u16 : Codec UInt16 := (uint 2).via UInt16.toNat fun n => some (UInt16.ofNat n)
/-- bincode: `i16`, the two's complement bits. -/
def i16 : Codec Int16 := u16.via Int16.toUInt16 fun n => some n.toInt16
/-- bincode: `u32`. -/
def u32 : Codec UInt32 := (uint 4).via UInt32.toNat fun n => some (UInt32.ofNat n)
/-- bincode: `u32` as a natural number. -/
def u32Nat : Codec Nat := uint 4
/-- bincode: `usize`, written as `u64`. -/
def usize : Codec Nat := uint 8
/-- bincode: `bool`, one byte 0 or 1, any other byte is an error. -/
def bool : Codec Bool := (uint 1).via (fun b => if b then 1 else 0) fun n => if n = 0 then some false else if n = 1 then some true else none

/-- Reads `n` elements. -/
def decN {α : Type} (c : Codec α) : Nat → List UInt8 → Option (List α × List UInt8)
  | 0, bs => some ([], bs)
  | n + 1, bs => (c.dec bs).bind fun p => (decN c n p.2).map fun q => (p.1 :: q.1, q.2)

/-- bincode: `Vec<T>`, the length as `u64` and the elements. -/
def vec {α : Type} (c : Codec α) : Codec (List α) :=
  ⟨fun xs => leNat 8 xs.length ++ xs.flatMap c.enc, fun bs => (readLe 8 bs).bind fun p => c.decN p.1 p.2⟩

/-- bincode: `String`, as its bytes; invalid UTF-8 is an error. -/
def string : Codec Str := (vec u8).via utf8 decodeUtf8

/-- derived for `CategoryData`, `lindera-core/src/character_definition.rs` lines 32-37. -/
def categoryData : Codec CategoryData :=
  (bool.pair (bool.pair u32)).via (fun d => (d.invoke, d.group, d.length)) fun p => some ⟨p.1, p.2.1, p.2.2⟩

/-- derived for `LookupTable<CategoryId>`, `character_definition.rs` lines 49-53; `CategoryId(usize)` is a newtype. -/
def lookupTable : Codec LookupTable :=
  ((vec u32Nat).pair (vec (vec usize))).via (fun t => (t.boundaries, t.values)) fun p => some ⟨p.1, p.2⟩

/-- derived for `CharacterDefinitions`, `character_definition.rs` lines 42-47. -/
def charDefs : Codec CharDefs :=
  ((vec categoryData).pair ((vec string).pair lookupTable)).via (fun d => (d.definitions, d.names, d.mapping)) fun p => some ⟨p.1, p.2.1, p.2.2⟩

/-- derived for `WordEntry` and `WordId`, `lindera-core/src/word_entry.rs` lines 6-7 and 24-30. -/
def wordEntry : Codec WordEntry :=
  ((u32.pair bool).pair (i16.pair (u16.pair u16))).via (fun e => ((e.wordId.id, e.wordId.sys), e.wordCost, e.leftId, e.rightId))
    fun p => some ⟨⟨p.1.1, p.1.2⟩, p.2.1, p.2.2.1, p.2.2.2⟩

/-- derived for `UnknownDictionary`, `lindera-core/src/unknown_dictionary.rs` lines 13-17. -/
def unkDict : Codec UnkDict :=
  ((vec (vec u32)).pair (vec wordEntry)).via (fun u => (u.categoryReferences, u.costs)) fun p => some ⟨p.1, p.2⟩

end Codec

/-- `UserDictionary` as stored, `lindera-core/src/dictionary.rs` lines 44-49 and `prefix_dict.rs` lines 8-21: the double array is its bytes. -/
structure UserDictData where
  daBytes : List UInt8
  valsData : List UInt8
  isSystem : Bool
  wordsIdxData : List UInt8
  wordsData : List UInt8
  deriving DecidableEq, Repr

/-- derived for `UserDictionary` and `PrefixDict`. -/
def Codec.userDict : Codec UserDictData :=
  (((vec u8).pair ((vec u8).pair bool)).pair ((vec u8).pair (vec u8))).via
    (fun u => ((u.daBytes, u.valsData, u.isSystem), u.wordsIdxData, u.wordsData))
    fun p => some ⟨p.1.1, p.1.2.1, p.1.2.2, p.2.1, p.2.2⟩

/-- The byte representation of a double array (external crate `yada`): in Rust a `DoubleArray` is its bytes; the model keeps the map it was built
from, so the two directions are parameters, see `Spec.DaFormat.Faithful`. -/
structure DaFormat where
  store : DoubleArray → List UInt8
  view : List UInt8 → DoubleArray

/-- The stored fields of a user dictionary. -/
def UserDictionary.toData (f : DaFormat) (u : UserDictionary) : UserDictData :=
  ⟨f.store u.dict.da, u.dict.valsData, u.dict.isSystem, u.wordsIdxData, u.wordsData⟩

/-- A user dictionary from its stored fields. -/
def UserDictionary.ofData (f : DaFormat) (u : UserDictData) : UserDictionary :=
  ⟨⟨f.view u.daBytes, u.valsData, u.isSystem⟩, u.wordsIdxData, u.wordsData⟩

/-- `bincode::deserialize` with the `Deserialize` error, as in `CharacterDefinitions::load` (`character_definition.rs` lines 84-87),
`UnknownDictionary::load` (`unknown_dictionary.rs` lines 20-23) and `UserDictionary::load` (`dictionary.rs` lines 52-55). -/
def Codec.load {α : Type} (c : Codec α) (bs : List UInt8) : R α :=
  match c.dec bs with
  | some p => .ok p.1
  | none => .error (.err .deserialize)

/-- `CharacterDefinitions::load`, `character_definition.rs` lines 84-87. -/
def CharDefs.load (bs : List UInt8) : R CharDefs := Codec.charDefs.load bs
/-- `UnknownDictionary::load`, `unknown_dictionary.rs` lines 20-23. -/
def UnkDict.load (bs : List UInt8) : R UnkDict := Codec.unkDict.load bs
/-- `UserDictionary::load`, `dictionary.rs` lines 52-55. -/
def UserDictionary.load (f : DaFormat) (bs : List UInt8) : R UserDictionary := do
  let u ← Codec.userDict.load bs
  return UserDictionary.ofData f u

/-- The value of `chardef_buffer`, `lindera-dictionary-builder/src/chardef.rs` lines 40-42. -/
def CharDefs.bytes (d : CharDefs) : List UInt8 := Codec.charDefs.enc d
/-- The value of `unk_buffer`, `lindera-dictionary-builder/src/unk.rs` lines 41-43. -/
def UnkDict.bytes (u : UnkDict) : List UInt8 := Codec.unkDict.enc u
/-- What `build_user_dictionary` writes, `lindera-dictionary-builder/src/user_dict.rs` lines 180-181. -/
def UserDictionary.bytes (f : DaFormat) (u : UserDictionary) : List UInt8 := Codec.userDict.enc (u.toData f)

end Verif.Model
