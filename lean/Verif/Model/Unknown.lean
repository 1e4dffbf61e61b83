import Verif.Model.WordEntry
/-! Model of the compiled unknown-word dictionary, `lindera-core/src/unknown_dictionary.rs`. -/
namespace Verif.Model

/-- `UnknownDictionary`, `lindera-core/src/unknown_dictionary.rs` lines 13-17. -/
structure UnkDict where
  categoryReferences : List (List UInt32)
  costs : List WordEntry
  deriving DecidableEq, Repr

/-- `UnknownDictionary::word_entry`, `unknown_dictionary.rs` lines 25-27. -/
def UnkDict.wordEntry (u : UnkDict) (wordId : UInt32) : R WordEntry := orPanic u.costs[wordId.toNat]?

/-- `UnknownDictionary::lookup_word_ids`, `unknown_dictionary.rs` lines 29-31. -/
def UnkDict.lookupWordIds (u : UnkDict) (cat : Nat) : R (List UInt32) := orPanic u.categoryReferences[cat]?

end Verif.Model
