import Verif.Model.Csv
/-! CSV files. -/
namespace Verif.Spec
open Verif.Model

/-- How a field may be written: as it is, if it has no comma and no line end and does not start with a quote; or in quotes, with its quotes doubled. -/
inductive FieldText : Str → Str → Prop
  | plain {v : Str} : (∀ c ∈ v, c ≠ ',' ∧ c ≠ '\r' ∧ c ≠ '\n') → v.head? ≠ some '"' → FieldText v v
  | quoted (v : Str) : FieldText v ('"' :: v.flatMap (fun c => if c = '"' then ['"', '"'] else [c]) ++ ['"'])

/-- Fields separated by commas. -/
inductive FieldsText : List Str → Str → Prop
  | one {v t : Str} : FieldText v t → FieldsText [v] t
  | more {v t : Str} {vs : List Str} {ts : Str} : FieldText v t → FieldsText vs ts → FieldsText (v :: vs) (t ++ ',' :: ts)

/-- How a record may be written: its fields separated by commas. A record must not be an empty line. -/
def RecordText (r : List Str) (t : Str) : Prop := t ≠ [] ∧ FieldsText r t

def LineEnd (c : Char) : Prop := c = '\r' ∨ c = '\n'

/-- How the records of a file may be written: each on a line of its own (fields in quotes may contain line ends), with any line ends and empty lines between; the last line end may be missing. -/
inductive CsvText : List (List Str) → Str → Prop
  | nil : CsvText [] []
  | blank {rs t c} : LineEnd c → CsvText rs t → CsvText rs (c :: t)
  | record {r rs t t'} : RecordText r t → (∀ c, t'.head? = some c → LineEnd c) → CsvText rs t' → CsvText (r :: rs) (t ++ t')

/-- All records have the same number of fields. -/
def Rectangular (rows : List Row) : Prop := ∀ r ∈ rows, ∀ r' ∈ rows, r.fields.length = r'.fields.length

/-- The text of a file without quotes: its lines that are not empty, cut at commas. -/
def plainRecords (t : Str) : List (List Str) :=
  ((splitAll (fun c => c = '\r' ∨ c = '\n') t).filter (· ≠ [])).map (splitAll (· = ','))

/-- A byte order mark. -/
def bom : List UInt8 := [0xEF, 0xBB, 0xBF]

/-- The UTF-8 file has this text, after a byte order mark if there is one. -/
def FileText (bytes : List UInt8) (t : Str) : Prop := bytes = bom ++ utf8 t ∨ (bytes = utf8 t ∧ t.head? ≠ some '\uFEFF')

/-- The CSV file has these records, and as many fields in each as the kind of dictionary demands. Files that are not in UTF-8 are decoded first. -/
def CsvFile (decode : List UInt8 → Str) (flexible : Bool) (encoding : Encoding) (bytes : List UInt8) (rows : List Row) : Prop :=
  (∃ t, FileText (if encoding = .utf8 then bytes else utf8 (decode bytes)) t ∧ CsvText (rows.map Row.fields) t) ∧ (flexible = true ∨ Rectangular rows)

end Verif.Spec
