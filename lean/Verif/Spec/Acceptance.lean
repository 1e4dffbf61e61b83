import Verif.Spec.Language
/-! Which source directories a dictionary can be built from. -/
namespace Verif.Spec
open Verif.Model

/-- Every CSV file can be read and parsed; `rows` are the records of all files, in order. -/
def SourceRows (env : BuildEnv) (kind : DictionaryKind) (src : SourceDir) (rows : List Row) : Prop :=
  ∃ files : List (List UInt8 × List Row), src.csvs = files.map (fun f => some f.1) ∧
    (∀ f ∈ files, env.csv (sourceFormat kind).flexible (sourceFormat kind).encoding f.1 = some f.2) ∧ rows = files.flatMap (·.2)

/-- Every file of the directory exists and can be read. The context ids need not fit to the matrix, nor the unknown words to the categories. -/
structure Buildable (env : BuildEnv) (kind : DictionaryKind) (src : SourceDir) : Prop where
  charDef : ∃ bytes file, src.charDef = some bytes ∧ DefRead (env.decode (sourceFormat kind).encoding bytes) file
  unk : ∃ bytes ls, src.unk = some bytes ∧ UnkRead (sourceFormat kind).unkColumns (env.decode (sourceFormat kind).encoding bytes) ls
  rows : ∃ rows, SourceRows env kind src rows ∧ Acceptable (sourceFormat kind).unify (sourceFormat kind).skip rows
  matrix : ∃ bytes forward backward junk costs, src.matrix = some bytes ∧
    NumberLines (env.decode (sourceFormat kind).encoding bytes) ((forward :: backward :: junk) :: costs) ∧ ∀ row ∈ costs, Stored forward backward row

/-- Some CSV record has less than four columns. -/
def ShortRecord (env : BuildEnv) (kind : DictionaryKind) (src : SourceDir) : Prop :=
  ∃ rows, SourceRows env kind src rows ∧ ∃ row ∈ rows, row.fields.length < 4

/-- `matrix.def` consists of numbers, but the header has less than two of them or some other line cannot be stored. -/
def BadMatrix (env : BuildEnv) (kind : DictionaryKind) (src : SourceDir) : Prop :=
  ∃ bytes header costs, src.matrix = some bytes ∧ NumberLines (env.decode (sourceFormat kind).encoding bytes) (header :: costs) ∧
    (header.length < 2 ∨ ∃ f b junk, header = f :: b :: junk ∧ ∃ row ∈ costs, ¬ Stored f b row)

end Verif.Spec
