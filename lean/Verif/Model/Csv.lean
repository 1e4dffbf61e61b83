import Verif.Model.BuildDir
import Verif.Model.Loader
/-!
Model of the crate `csv` 1.3 (not part of `/repo`) with the options that `lindera-dictionary-builder/src/dict.rs` lines 90-99 and `user_dict.rs` lines 44-55 set: no headers,
`flexible`, and the defaults otherwise (comma, double quotes that are doubled inside of quoted fields, CR, LF or CRLF, no comments, no trimming). The automaton is the documented one of `csv-core`; its
states that only differ by epsilon transitions are merged.
-/
namespace Verif.Model

/-- What the automaton distinguishes. -/
inductive CsvSym where
  | comma | quote | term | other
  deriving DecidableEq, Repr

/-- The default dialect, `csv::ReaderBuilder::new()`. -/
def csvSym (b : UInt8) : CsvSym :=
  if b = 44 then .comma else if b = 34 then .quote else if b = 13 ∨ b = 10 then .term else .other

/-- Where the reader is: at the start of a record (`StartRecord`, `CRLF`), at the start of another field (`StartField`), in a field without quotes (`InField`), in quotes (`InQuotedField`),
or after a quote in a quoted field (`InDoubleEscapedQuote`). -/
inductive CsvPos where
  | startRecord | startField | inField | quoted | quoteEnd
  deriving DecidableEq, Repr

/-- The state of the reader: the field and the record under way and the records read. Generic in the alphabet. -/
structure CsvState (α : Type) where
  pos : CsvPos
  field : List α
  fields : List (List α)
  records : List (List (List α))

def CsvState.push {α : Type} (s : CsvState α) (pos : CsvPos) (c : α) : CsvState α := { s with pos := pos, field := s.field ++ [c] }

/-- `EndFieldDelim`. -/
def CsvState.endField {α : Type} (s : CsvState α) : CsvState α := { s with pos := .startField, field := [], fields := s.fields ++ [s.field] }

/-- `EndFieldTerm`, `InRecordTerm`, `EndRecord`. -/
def CsvState.endRecord {α : Type} (s : CsvState α) : CsvState α := ⟨.startRecord, [], [], s.records ++ [s.fields ++ [s.field]]⟩

/-- One transition. -/
def CsvState.step {α : Type} (sym : α → CsvSym) (s : CsvState α) (c : α) : CsvState α :=
  match s.pos with
  | .startRecord =>
    match sym c with
    | .term => s
    | .quote => { s with pos := .quoted }
    | .comma => s.endField
    | .other => s.push .inField c
  | .startField =>
    match sym c with
    | .term => s.endRecord
    | .quote => { s with pos := .quoted }
    | .comma => s.endField
    | .other => s.push .inField c
  | .inField =>
    match sym c with
    | .term => s.endRecord
    | .comma => s.endField
    | .quote | .other => s.push .inField c
  | .quoted =>
    match sym c with
    | .quote => { s with pos := .quoteEnd }
    | .term | .comma | .other => s.push .quoted c
  | .quoteEnd =>
    match sym c with
    | .quote => s.push .quoted c
    | .term => s.endRecord
    | .comma => s.endField
    | .other => s.push .inField c

/-- The end of the input: a record that has begun ends, also inside of quotes. -/
def CsvState.finish {α : Type} (s : CsvState α) : List (List (List α)) :=
  match s.pos with
  | .startRecord => s.records
  | _ => s.endRecord.records

/-- All records of the input. -/
def csvRecords {α : Type} (sym : α → CsvSym) (input : List α) : List (List (List α)) :=
  (input.foldl (CsvState.step sym) ⟨.startRecord, [], [], []⟩).finish

/-- A byte order mark at the start is dropped. -/
def stripBom : List UInt8 → List UInt8
  | 0xEF :: 0xBB :: 0xBF :: bytes => bytes
  | bytes => bytes

/-- `ByteRecord` to `StringRecord`: every field must be UTF-8. -/
def csvRow (fields : List (List UInt8)) : Option Row :=
  match fields.mapM decodeUtf8 with
  | some (f :: fs) => some ⟨f, fs⟩
  | _ => none

/-- `UnequalLengths`: unless `flexible`, all records must have as many fields as the first. -/
def sameLengths : List Row → Bool
  | [] => true
  | r :: rs => rs.all fun r' => r'.fields.length == r.fields.length

/-- Reading all records; `none` if an error occurs. -/
def readCsv (flexible : Bool) (bytes : List UInt8) : Option (List Row) :=
  match (csvRecords csvSym (stripBom bytes)).mapM csvRow with
  | some rows => if flexible || sameLengths rows then some rows else none
  | none => none

/-- The reader of `dict.rs` lines 79-99: UTF-8 files are read as they are, others are decoded first (crate `encoding_rs_io`, a parameter). -/
def readCsvFile (decode : List UInt8 → Str) (flexible : Bool) : Encoding → List UInt8 → Option (List Row)
  | .utf8, bytes => readCsv flexible bytes
  | .eucJp, bytes => readCsv flexible (utf8 (decode bytes))

end Verif.Model
