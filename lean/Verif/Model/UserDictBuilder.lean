import Verif.Model.DictBuilder
import Verif.Model.Bincode
/-!
Model of `lindera-dictionary-builder/src/user_dict.rs` (user dictionary compiler), of its settings in the five dictionary builders, and of
`UserDictionary::word_details` in `lindera-core/src/dictionary.rs`. The model starts from the split CSV records.
-/
namespace Verif.Model

/-- `DictionaryKind`, `lindera-dictionary/src/lib.rs` lines 24-36. -/
inductive DictionaryKind where
  | ipadic | ipadicNeologd | unidic | koDic | ccCedict
  deriving DecidableEq, Repr

/-- The options of `UserDictBuilder`, `user_dict.rs` lines 24-38. -/
structure UserCfg where
  simpleFields : Nat
  detailedFields : Nat
  simpleCost : Int16
  simpleContextId : UInt16
  flexible : Bool
  handler : Option (Row → R (List Str))

/-- The defaults of the options, `user_dict.rs` lines 25-36. -/
def UserCfg.default : UserCfg := ⟨3, 4, -10000, 0, true, none⟩

/-- The csv reader (external crate) on split records, `user_dict.rs` lines 44-55: unless `flexible`, a record with another number of fields than the
first is an error. -/
def UserCfg.readRows (cfg : UserCfg) (rows : List Row) : R (List Row) :=
  match rows with
  | [] => .ok []
  | r :: rs =>
    if cfg.flexible || rs.all (fun r' => r'.fields.length == r.fields.length) then .ok rows else .error (.err .content)

/-- `.map_err(|_| Parse)?` on a parsed number, `user_dict.rs` lines 65-67, 73-76, 77-80. -/
def orParse {α : Type} : Option α → R α
  | some a => .ok a
  | none => .error (.err .parse)

/-- The word cost and context ids of a row, `user_dict.rs` lines 62-82; `row[i]` panics if the column is missing. The numbers are not trimmed. -/
def UserCfg.numbers (cfg : UserCfg) (row : Row) : R (Int16 × UInt16 × UInt16) :=
  if row.fields.length = cfg.simpleFields then .ok (cfg.simpleCost, cfg.simpleContextId, cfg.simpleContextId)
  else do
    let f3 ← orPanic row.fields[3]?
    let cost ← orParse (parseI16 f3)
    let f1 ← orPanic row.fields[1]?
    let left ← orParse (parseU16 f1)
    let f2 ← orPanic row.fields[2]?
    let right ← orParse (parseU16 f2)
    return (cost, left, right)

/-- The loop that fills `word_entry_map`, `user_dict.rs` lines 58-90. `row_id as u32` truncates. -/
def UserCfg.entryMap (cfg : UserCfg) (rows : List Row) : R EntryMap :=
  rows.zipIdx.foldlM (init := []) fun m (row, rowId) => do
    let (cost, left, right) ← cfg.numbers row
    return mapPush row.first ⟨⟨UInt32.ofNat rowId, false⟩, cost, left, right⟩ m

/-- The details of a row, `user_dict.rs` lines 95-116. -/
def UserCfg.rowDetails (cfg : UserCfg) (row : Row) : R (List Str) :=
  if row.fields.length = cfg.simpleFields then
    match cfg.handler with
    | some h => h row
    | none => .ok (row.fields.drop 1)
  else if row.fields.length ≥ cfg.detailedFields then .ok (row.fields.drop 4)
  else .error (.err .content)

/-- One iteration of the loop over rows, `user_dict.rs` lines 94-124, on `(words_data, words_idx_data)`. `offset as u32` truncates. -/
def UserCfg.pushDetails (cfg : UserCfg) (st : List UInt8 × List UInt8) (row : Row) : R (List UInt8 × List UInt8) := do
  let ds ← cfg.rowDetails row
  return (st.1 ++ (Codec.vec Codec.string).enc ds, st.2 ++ leU32 (UInt32.ofNat st.1.length))

/-- `UserDictBuilder::build`, `user_dict.rs` lines 41-161. -/
def buildUserDict (yada : DaBuilder) (cfg : UserCfg) (records : List Row) : R UserDictionary := do
  let rows ← cfg.readRows records
  let rows := sortByKey Row.first rows
  let m ← cfg.entryMap rows
  let (words, wordsIdx) ← rows.foldlM (init := ([], [])) cfg.pushDetails
  match yada (keyset 0 m) with
  | none => .error (.err .io)
  | some da => .ok ⟨⟨da, valsBuffer m, false⟩, wordsIdx, words⟩

/-- `UserDictionary::word_details`, `lindera-core/src/dictionary.rs` lines 57-67. -/
def UserDictionary.wordDetails (u : UserDictionary) (wordId : Nat) : R (Option (List Str)) :=
  if 4 * wordId ≥ u.wordsIdxData.length then .ok none
  else do
    let idxBytes ← orPanic (byteSlice u.wordsIdxData (4 * wordId) (4 * wordId + 4))
    let idx ← orPanic (readU32 idxBytes)
    let data ← orPanic (byteDrop u.wordsData idx.toNat)
    return ((Codec.vec Codec.string).dec data).map (·.1)

/-- `row[1], row[0], row[2]` of a simple row, for the handlers below. -/
def simpleColumns (row : Row) : R (Str × Str × Str) := do
  let pos ← orPanic row.fields[1]?
  let reading ← orPanic row.fields[2]?
  return (row.first, pos, reading)

/-- `"*".to_string()`. -/
def star : Str := ['*']

/-- The handlers of the dictionary builders: `lindera-ipadic-builder/src/ipadic_builder.rs` lines 108-120,
`lindera-ipadic-neologd-builder/src/ipadic_neologd_builder.rs` lines 103-115, `lindera-unidic-builder/src/unidic_builder.rs` lines 103-123,
`lindera-ko-dic-builder/src/ko_dic_builder.rs` lines 102-113, `lindera-cc-cedict-builder/src/cc_cedict_builder.rs` lines 103-114. -/
def DictionaryKind.handler (k : DictionaryKind) (row : Row) : R (List Str) := do
  let (surface, pos, reading) ← simpleColumns row
  return match k with
  | .ipadic | .ipadicNeologd => [pos, star, star, star, star, star, surface, reading, star]
  | .unidic => [pos, star, star, star, star, star, reading, star, star, star, star, star, star, star, star, star, star]
  | .koDic => [pos, star, star, reading, star, star, star, star]
  | .ccCedict => [pos, star, star, star, reading, star, star, star]

/-- `build_user_dict` of the dictionary builders: constants in `ipadic_builder.rs` lines 13-16, 101-124 and likewise in the four other crates. -/
def UserCfg.ofKind (k : DictionaryKind) : UserCfg where
  simpleFields := 3
  detailedFields := match k with
    | .ipadic => 13
    | .ipadicNeologd => 13
    | .unidic => 21
    | .koDic => 12
    | .ccCedict => 12
  simpleCost := -10000
  simpleContextId := 0
  flexible := match k with
    | .ipadic => true
    | .ipadicNeologd => true
    | .unidic => false
    | .koDic => false
    | .ccCedict => false
  handler := some k.handler

/-- The static `UNK`, `lindera-tokenizer/src/token.rs` line 7. -/
def unkDetails : List Str := [['U', 'N', 'K']]

/-- `Token::set_details`, `token.rs` lines 99-102. -/
def Token.setDetails (t : Token) (d : Option (List Str)) : Token := { t with details := d }

/-- The dictionary lookup inside `Token::get_details`, `token.rs` lines 88-95. -/
def Token.lookupDetails (dict : Dictionary) (user : Option UserDictionary) (t : Token) : R (Option (List Str)) :=
  if t.wordId.isSystem then dict.wordDetails t.wordId.id.toNat
  else match user with
    | some u => u.wordDetails t.wordId.id.toNat
    | none => .ok none

/-- `Token::get_details`, `token.rs` lines 78-97, returning the answer and the token after the call. The dictionaries are those the token refers to. -/
def Token.getDetails (dict : Dictionary) (user : Option UserDictionary) (t : Token) : R (Option (List Str) × Token) :=
  if t.details.isSome then .ok (t.details, t)
  else if t.wordId.isUnknown then
    let t := t.setDetails (some unkDetails)
    .ok (t.details, t)
  else do
    let d ← t.lookupDetails dict user
    let t := { t with details := d }
    return (t.details, t)

end Verif.Model
