import Verif.Spec.FilterEffect
import Verif.Model.Analyzer
/-! Character filters that find nothing to do in a text. -/
namespace Verif.Spec
open Verif.Model

/-- There is nothing in the text that a character filter with these settings would change: no key of the mapping occurs in it, the regular expression does not match, all its grapheme clusters are in
normal form, or it has no iteration mark of the configured sorts. -/
def NothingToDo (env : FilterEnv) (s : CharFilterSetting) (text : Str) : Prop :=
  match s with
  | .mapping m => ∀ k v, (k, v) ∈ m → ¬ k <:+: text
  | .regex pattern _ => ∀ find, env.regex pattern = some find → find text = []
  | .unicodeNormalize kind => (env.graphemes text).flatten = text ∧ ∀ g ∈ env.graphemes text, env.normalForm kind g = g
  | .iterationMark kanji kana => ('々' ∈ text → kanji = false) ∧ ((∃ c ∈ ['ゝ', 'ゞ', 'ヽ', 'ヾ'], c ∈ text) → kana = false)

/-- The text that is left after the character filters were applied in order. -/
inductive Passes : List CharFilter → Str → Str → Prop
  | nil (text) : Passes [] text text
  | cons {f fs text mid out table} : f text = .ok (mid, table) → Passes fs mid out → Passes (f :: fs) text out

end Verif.Spec
