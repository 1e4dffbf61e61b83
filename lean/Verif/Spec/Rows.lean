import Verif.Spec.UserDict
import Verif.Spec.AnalyzerConfig
/-! The rows of a user dictionary that cannot be read, and the order in which rows are read. -/
namespace Verif.Spec
open Verif.Model

/-- A row in the detailed format with a context id or a cost that is not a number in range. -/
def BadNumber (row : Row) : Prop :=
  ∃ surface left right cost details, row.fields = surface :: left :: right :: cost :: details ∧ (parseU16 left = none ∨ parseU16 right = none ∨ parseI16 cost = none)

/-- Row `j` is read before row `i`: rows are taken in the order of the bytes of their first columns, and those with the same first column as they stand in the file. -/
def Sooner (rows : List Row) (j i : Nat) : Prop :=
  ∃ r r', rows[j]? = some r ∧ rows[i]? = some r' ∧ (List.Lex (· < ·) (utf8 r.first) (utf8 r'.first) ∨ r.first = r'.first ∧ j < i)

/-- Loading the user dictionary of a configuration panics: it is a `csv` file, the kind is given, the rows are not rejected for differing in their number of columns, and some row with one or two columns is
read before all rows with a bad number. -/
def UserPanics (env : LoadEnv) (c : UserDictionaryConfig) : Prop :=
  HasExtension c.path (utf8 "csv".toList) ∧ ∃ k data rows, c.kind = some k ∧ env.files c.path = some data ∧ env.csv data = some rows ∧ SameColumns k rows ∧
    ∃ i row, rows[i]? = some row ∧ row.fields.length < 3 ∧ ∀ j r, rows[j]? = some r → Sooner rows j i → ¬ BadNumber r

/-- Loading the dictionary of a configuration panics: the matrix of a directory is shorter than its header, or a built-in dictionary does so. -/
def DictionaryPanics (env : LoadEnv) (c : DictionaryConfig) : Prop :=
  (∃ k, c.kind = some k ∧ CompiledIn env.features k ∧ env.builtin k = .error .panic) ∨
  (c.kind = none ∧ ∃ dir, c.path = some dir ∧ (∃ da, env.files (dir.join (utf8 "dict.da".toList)) = some da) ∧ (∃ vals, env.files (dir.join (utf8 "dict.vals".toList)) = some vals) ∧
    ∃ m, env.files (dir.join (utf8 "matrix.mtx".toList)) = some m ∧ m.length < 4)

/-- Making a tokenizer panics. The user dictionary is loaded after the dictionary. -/
def TokenizerPanics (env : LoadEnv) (c : TokenizerConfig) : Prop :=
  DictionaryPanics env c.dictionary ∨ (∃ d, env.loadFromConfig c.dictionary = .ok d) ∧ ∃ u, c.userDictionary = some u ∧ UserPanics env u

/-- An entry for a filter with a Japanese part-of-speech tag that has more than four parts. -/
def LongTags (e : Str × Json) : Prop := ∃ s, TokenSetting e.1 e.2 s ∧ ¬ ShortTags s

end Verif.Spec
