import Verif.Spec.EndToEnd
import Verif.Spec.NumberLimits
/-! The tokens on which a token filter returns, and the details it needs. -/
namespace Verif.Spec
open Verif.Model

/-- The filter looks at the details of every token. -/
def LooksAtDetails : TokenFilterSetting → Prop
  | .japaneseBaseForm _ | .japaneseReadingForm _ | .koreanReadingForm | .japaneseCompoundWord .. | .japaneseKeepTags _ | .japaneseStopTags _ | .koreanKeepTags _ | .koreanStopTags _
  | .japaneseNumber _ => True
  | _ => False

/-- The filter reads the detail with this number (counted from 0) of every known word. -/
def Reads (env : FilterEnv) (s : TokenFilterSetting) (i : Nat) : Prop :=
  match s with
  | .japaneseBaseForm kind => baseColumn env.features kind i
  | .japaneseReadingForm kind => readingColumn env.features kind i
  | .koreanReadingForm => i = 3
  | _ => False

/-- What the filter needs of a token: that it has the details which the filter looks at; for the katakana stem filter, that the first character that is not katakana, if there is one, is in
some Unicode block; for the number filter, that the units of the text fit if the token is one to be converted. -/
structure Handles (env : FilterEnv) (s : TokenFilterSetting) (t : FToken) : Prop where
  details : LooksAtDetails s → t.details ≠ []
  column : ∀ i, Reads env s i → t.details.head? = some "UNK".toList ∨ i < t.details.length
  blocks : ∀ min, s = .japaneseKatakanaStem min → ∀ p c q, t.text = p ++ c :: q → (∀ d ∈ p, 0x30A0 ≤ d.toNat ∧ d.toNat ≤ 0x30FF) → env.block c ≠ none
  numbers : ∀ tags, s = .japaneseNumber tags → (∀ ts, tags = some ts → HasTag ts t) → UnitsFit t.text

/-- The analyzer with only the first `i` of its token filters. -/
def firstFilters (a : Analyzer) (i : Nat) : Analyzer := ⟨a.characterFilters, a.tokenizer, a.tokenFilters.take i⟩

/-- The contract of the `regex` crate: the matches in a text come in order, do not overlap and lie on character boundaries. -/
def RegexContract (regex : Str → Option (Str → List RegexMatch)) : Prop :=
  ∀ pattern find, regex pattern = some find → ∀ text, ∃ ps, Matches (fun _ => []) 0 (find text) text ps

end Verif.Spec
