import Verif.Model.Basic
/-! Model of `lindera-core/src/word_entry.rs`. -/
namespace Verif.Model

/-- `WordId(u32, bool)`, `lindera-core/src/word_entry.rs` lines 6-7. -/
structure WordId where
  id : UInt32
  sys : Bool
  deriving DecidableEq, Repr

/-- `WordId::is_unknown`, `word_entry.rs` lines 10-12. -/
def WordId.isUnknown (w : WordId) : Bool := w.id == 0xffffffff

/-- `WordId::is_system`, `word_entry.rs` lines 13-15. -/
def WordId.isSystem (w : WordId) : Bool := w.sys

/-- `WordId::default`, `word_entry.rs` lines 18-22. -/
def WordId.default : WordId := ⟨0xffffffff, true⟩

/-- `WordEntry`, `word_entry.rs` lines 24-30. -/
structure WordEntry where
  wordId : WordId
  wordCost : Int16
  leftId : UInt16
  rightId : UInt16
  deriving DecidableEq, Repr

/-- derived `WordEntry::default`, `word_entry.rs` line 24. -/
def WordEntry.default : WordEntry := ⟨WordId.default, 0, 0, 0⟩

/-- `WordEntry::SERIALIZED_LEN`, `word_entry.rs` line 33. -/
def serializedLen : Nat := 10

/-- `WordEntry::serialize`, `word_entry.rs` lines 43-49. Writing to a `Vec<u8>` cannot fail. -/
def WordEntry.serialize (e : WordEntry) : List UInt8 :=
  leU32 e.wordId.id ++ leI16 e.wordCost ++ leU16 e.leftId ++ leU16 e.rightId

/-- `WordEntry::deserialize`, `word_entry.rs` lines 51-62. -/
def WordEntry.deserialize (data : List UInt8) (isSystem : Bool) : R WordEntry := do
  let idB ← orPanic (byteSlice data 0 4)
  let id ← orPanic (readU32 idB)
  let costB ← orPanic (byteSlice data 4 6)
  let cost ← orPanic (readI16 costB)
  let leftB ← orPanic (byteSlice data 6 8)
  let left ← orPanic (readU16 leftB)
  let rightB ← orPanic (byteSlice data 8 10)
  let right ← orPanic (readU16 rightB)
  return ⟨⟨id, isSystem⟩, cost, left, right⟩

end Verif.Model
