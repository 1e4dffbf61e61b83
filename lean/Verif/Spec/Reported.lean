import Verif.Spec.AnalyzerConfig
/-! Calls that end with a value or with a returned error, and the files on which loading does. -/
namespace Verif.Spec
open Verif.Model

/-- The call returns a value or an error: it neither panics nor runs forever. -/
def Reported {α : Type} (r : R α) : Prop := (∃ a, r = .ok a) ∨ ∃ k, r = .error (.err k)

/-- Whatever else they contain: connection matrices have a header, and the rows of word lists have at least three columns. The built-in dictionaries can be loaded or give an error. -/
structure Presentable (env : LoadEnv) : Prop where
  builtin : ∀ kind, Reported (env.builtin kind)
  matrix : ∀ (dir : Path) (data : List UInt8), env.files (dir.join (utf8 "matrix.mtx".toList)) = some data → 4 ≤ data.length
  rows : ∀ (path : Path) (data : List UInt8) (rows : List Row), path.extension = some (utf8 "csv".toList) → env.files path = some data → env.csv data = some rows → ∀ row ∈ rows, 3 ≤ row.fields.length

end Verif.Spec
