import Verif.Model.Text
import Verif.Model.Tokenizer
/-!
Model of `lindera-dictionary-builder/src/dict.rs` (system dictionary compiler), of the part it shares with
`user_dict.rs`, and of `Dictionary::word_details` in `lindera-core/src/dictionary.rs`.
Reading files, text encodings and CSV syntax are not modelled: the model starts from the parsed CSV records.
-/
namespace Verif.Model

/-- A CSV record (`csv::StringRecord`). The reader never yields a record without fields. -/
structure Row where
  first : Str
  rest : List Str
  deriving DecidableEq, Repr

/-- All fields of the record (`StringRecord::iter`). -/
def Row.fields (r : Row) : List Str := r.first :: r.rest

/-- The options of `DictBuilder` that matter after CSV parsing, `dict.rs` lines 23-41. -/
structure DictCfg where
  normalizeDetails : Bool
  skipInvalid : Bool
  deriving DecidableEq, Repr

/-- `str::replace(char, &str)` with a one-character replacement (Rust core). -/
def replaceChar (a b : Char) (s : Str) : Str := s.map fun c => if c = a then b else c

/-- `normalize`, `dict.rs` lines 260-262: U+2015 to U+2014, then U+FF5E to U+301C. -/
def normalize (s : Str) : Str := replaceChar '～' '〜' (replaceChar '―' '—' s)

/-- The key of a row, `dict.rs` lines 102-106 and 159-163. -/
def DictCfg.rowKey (cfg : DictCfg) (row : Row) : Str :=
  if cfg.normalizeDetails then normalize row.first else row.first

/-- `BTreeMap<String, Vec<WordEntry>>` as the association list in key order. -/
abbrev EntryMap := List (Str × List WordEntry)

/-- `map.entry(key).or_default().push(e)`, `dict.rs` line 164 and `user_dict.rs` line 84. -/
def mapPush (k : Str) (e : WordEntry) : EntryMap → EntryMap
  | [] => [(k, [e])]
  | (k', es) :: m =>
    if k = k' then (k', es ++ [e]) :: m
    else if strLe k k' then (k, [e]) :: (k', es) :: m
    else (k', es) :: mapPush k e m

/-- `match .. { Ok(v) => v, Err(_) => if skip { continue } else { return Err(Parse) } }`, `dict.rs` lines 123-134, 135-146, 147-158. -/
def DictCfg.parsedOr {α β : Type} (cfg : DictCfg) (o : Option α) (k : α → R (Option β)) : R (Option β) :=
  match o with
  | some a => k a
  | none => if cfg.skipInvalid then .ok none else .error (.err .parse)

/-- The body of the loop over rows, `dict.rs` lines 122-170: the key and entry of a row, or `none` if it is skipped. Panics if
the row has fewer than four fields. `row_id as u32` truncates. -/
def DictCfg.rowEntry (cfg : DictCfg) (rowId : Nat) (row : Row) : R (Option (Str × WordEntry)) := do
  let f3 ← orPanic row.fields[3]?
  cfg.parsedOr (parseI16 (trim f3)) fun cost => do
    let f1 ← orPanic row.fields[1]?
    cfg.parsedOr (parseU16 (trim f1)) fun left => do
      let f2 ← orPanic row.fields[2]?
      cfg.parsedOr (parseU16 (trim f2)) fun right =>
        .ok (some (cfg.rowKey row, ⟨⟨UInt32.ofNat rowId, true⟩, cost, left, right⟩))

/-- Push the entry of a row unless the row was skipped, `dict.rs` lines 164-169. -/
def pushEntry (m : EntryMap) : Option (Str × WordEntry) → EntryMap
  | some (k, e) => mapPush k e m
  | none => m

/-- The loop that fills `word_entry_map`, `dict.rs` lines 120-170. -/
def DictCfg.entryMap (cfg : DictCfg) (rows : List Row) : R EntryMap :=
  rows.zipIdx.foldlM (init := []) fun m (row, rowId) => do
    let e ← cfg.rowEntry rowId row
    return pushEntry m e

/-- `<[String]>::join("\0")` (Rust alloc). -/
def joinNul : List Str → Str
  | [] => []
  | [s] => s
  | s :: t :: ts => s ++ '\x00' :: joinNul (t :: ts)

/-- The detail columns as stored, `dict.rs` lines 192-200. -/
def DictCfg.joinedDetails (cfg : DictCfg) (row : Row) : Str :=
  joinNul (if cfg.normalizeDetails then (row.fields.drop 4).map normalize else row.fields.drop 4)

/-- One iteration of the loop over rows, `dict.rs` lines 186-209, on `(words_buffer, words_idx_buffer)`. `offset as u32` truncates,
`u32::try_from` fails for details of 4 GiB and more. -/
def DictCfg.pushDetails (cfg : DictCfg) (st : List UInt8 × List UInt8) (row : Row) :
    R (List UInt8 × List UInt8) :=
  let bytes := utf8 (cfg.joinedDetails row)
  if bytes.length < 2 ^ 32 then
    .ok (st.1 ++ leU32 (UInt32.ofNat bytes.length) ++ bytes, st.2 ++ leU32 (UInt32.ofNat st.1.length))
  else .error (.err .serialize)

/-- The keys with their packed values, `dict.rs` lines 225-233 and `user_dict.rs` lines 126-135: `(id << 5) | len` in `u32` arithmetic (which wraps,
as in the release profile). -/
def keyset : UInt32 → EntryMap → List (List UInt8 × UInt32)
  | _, [] => []
  | id, (k, es) :: m =>
    let len := UInt32.ofNat es.length
    (utf8 k, (id <<< (5 : UInt32)) ||| len) :: keyset (id + len) m

/-- The entries in key order, `dict.rs` lines 241-248 and `user_dict.rs` lines 141-148. -/
def valsBuffer (m : EntryMap) : List UInt8 := (m.flatMap (·.2)).flatMap WordEntry.serialize

/-- `yada::builder::DoubleArrayBuilder::build` (external crate), a parameter of the model: see `Spec.YadaContract`. -/
abbrev DaBuilder := List (List UInt8 × UInt32) → Option DoubleArray

/-- The contents of the files `dict.da`, `dict.vals`, `dict.words`, `dict.wordsidx` written by the compiler (before compression). -/
structure DictFiles where
  da : DoubleArray
  vals : List UInt8
  words : List UInt8
  wordsIdx : List UInt8
  deriving DecidableEq, Repr

/-- `DictBuilder::build`, `dict.rs` lines 102-257, from the parsed records to the contents of the four files. -/
def buildDict (yada : DaBuilder) (cfg : DictCfg) (rows : List Row) : R DictFiles := do
  let rows := sortByKey cfg.rowKey rows
  let m ← cfg.entryMap rows
  let (words, wordsIdx) ← rows.foldlM (init := ([], [])) cfg.pushDetails
  match yada (keyset 0 m) with
  | none => .error (.err .io)
  | some da => .ok ⟨da, valsBuffer m, words, wordsIdx⟩

/-- `PrefixDict::from_static_slice`, `lindera-core/src/prefix_dict.rs` lines 24-32, on the files. -/
def DictFiles.prefixDict (f : DictFiles) : PrefixDict := ⟨f.da, f.vals, true⟩

/-- The part of `Dictionary::word_details`, `lindera-core/src/dictionary.rs` lines 36-40: split at NUL bytes, decode each piece. -/
def decodeDetails (bytes : List UInt8) : Option (List Str) :=
  (splitAll (· == 0) bytes).mapM decodeUtf8

/-- `Dictionary::word_details`, `dictionary.rs` lines 24-41, on the two data blocks it uses. -/
def wordDetails (wordsIdxData wordsData : List UInt8) (wordId : Nat) : R (Option (List Str)) :=
  if 4 * wordId ≥ wordsIdxData.length then .ok none
  else do
    let idxBytes ← orPanic (byteSlice wordsIdxData (4 * wordId) (4 * wordId + 4))
    let idx ← orPanic (readU32 idxBytes)
    let data ← orPanic (byteDrop wordsData idx.toNat)
    let len ← orPanic (readU32 data)
    let bytes ← orPanic (byteSlice wordsData (idx.toNat + 4) (idx.toNat + 4 + len.toNat))
    return decodeDetails bytes

/-- `Dictionary::word_details`, `dictionary.rs` lines 24-41. -/
def Dictionary.wordDetails (d : Dictionary) (wordId : Nat) : R (Option (List Str)) :=
  Verif.Model.wordDetails d.wordsIdxData d.wordsData wordId

end Verif.Model
