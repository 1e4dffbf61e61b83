import Verif.Spec.Builder
import Verif.Model.UserDictBuilder
/-! What a user dictionary must contain, stated from the rows of the CSV alone. -/
namespace Verif.Spec
open Verif.Model

/-- The number of columns of the detailed format: 4 + the number of details of the dictionary. -/
def detailedColumns : DictionaryKind → Nat
  | .ipadic => 4 + 9
  | .ipadicNeologd => 4 + 9
  | .unidic => 4 + 17
  | .koDic => 4 + 8
  | .ccCedict => 4 + 8

/-- The details of the simple format `surface, part of speech, reading`: placed in the dictionary's columns, the others are `*`. -/
def simpleDetails (kind : DictionaryKind) (surface pos reading : Str) : List Str :=
  let blank := List.replicate (detailedColumns kind - 4) ['*']
  match kind with
  | .ipadic => ((blank.set 0 pos).set 6 surface).set 7 reading
  | .ipadicNeologd => ((blank.set 0 pos).set 6 surface).set 7 reading
  | .unidic => (blank.set 0 pos).set 6 reading
  | .koDic => (blank.set 0 pos).set 3 reading
  | .ccCedict => (blank.set 0 pos).set 4 reading

/-- What a row of a user dictionary says. Three columns: surface, part of speech, reading, with cost -10000 and context ids 0. At least as many columns
as the dictionary's detailed format: surface, left id, right id, cost, details. `none`: another number of columns, or a number that cannot be read. -/
def readUserRow (kind : DictionaryKind) (row : Row) : Option SourceWord :=
  match row.fields with
  | [surface, pos, reading] => some ⟨surface, -10000, 0, 0, simpleDetails kind surface pos reading⟩
  | surface :: left :: right :: cost :: details =>
    if detailedColumns kind ≤ 4 + details.length then
      match parseU16 left, parseU16 right, parseI16 cost with
      | some l, some r, some c => some ⟨surface, c, l, r, details⟩
      | _, _, _ => none
    else none
  | _ => none

/-- The words of the source with a given surface, in file order. -/
def userWordsFor (kind : DictionaryKind) (rows : List Row) (surface : Str) : List SourceWord :=
  (rows.filterMap (readUserRow kind)).filter (·.surface = surface)

/-- UniDic, ko-dic and CC-CEDICT user dictionaries must have the same number of columns in all rows. -/
def SameColumns (kind : DictionaryKind) (rows : List Row) : Prop :=
  kind = .ipadic ∨ kind = .ipadicNeologd ∨ ∀ r ∈ rows, ∀ r' ∈ rows, r.fields.length = r'.fields.length

/-- The size of the stored details of a word. -/
def storedSize (w : SourceWord) : Nat := 8 + (w.details.map fun d => 8 + blen d).sum

/-- The source respects the limits of the compiled format. -/
structure UserFits (kind : DictionaryKind) (rows : List Row) : Prop where
  nonempty : rows ≠ []
  numRows : rows.length < 2 ^ 26
  homographs : ∀ s, (userWordsFor kind rows s).length < 32
  surfaces : ∀ row ∈ rows, row.first ≠ [] ∧ '\x00' ∉ row.first
  detailBytes : ((rows.filterMap (readUserRow kind)).map storedSize).sum < 2 ^ 32

/-- The source respects the limits of the compiled format, but any number of words may share a surface. -/
structure UserFitsApart (kind : DictionaryKind) (rows : List Row) : Prop where
  nonempty : rows ≠ []
  numRows : rows.length < 2 ^ 26
  surfaces : ∀ row ∈ rows, row.first ≠ [] ∧ '\x00' ∉ row.first
  detailBytes : ((rows.filterMap (readUserRow kind)).map storedSize).sum < 2 ^ 32

/-- The number of words of the source with a surface smaller than `s`. -/
def userWordsBefore (kind : DictionaryKind) (rows : List Row) (s : Str) : Nat := (rows.filterMap (readUserRow kind)).countP fun w => strLe w.surface s && w.surface != s

/-- An entry found by a lookup carries the numbers of the source word, is flagged as a user word, and its word id selects the source word's details. -/
def UserDescribes (lookup : Nat → R (Option (List Str))) (e : WordEntry) (w : SourceWord) : Prop :=
  e.wordId.sys = false ∧ e.wordCost = w.cost ∧ e.leftId = w.leftId ∧ e.rightId = w.rightId ∧
    lookup e.wordId.id.toNat = .ok (some w.details)

end Verif.Spec
