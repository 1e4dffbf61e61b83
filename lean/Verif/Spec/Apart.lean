import Verif.Spec.TokenFilter
import Verif.Spec.Analyzer
import Verif.Model.AnalyzerConfig
/-! Specification of texts that can be analyzed in parts. -/
namespace Verif.Spec
open Verif.Model

/-- The token of a part of a text as a token of the whole text: `bytes` is the length of the text before the part, `positions` the number of words before it. Nothing else changes. -/
def moved (bytes positions : Nat) (t : FToken) : FToken :=
  { t with byteStart := bytes + t.byteStart, byteEnd := bytes + t.byteEnd, position := positions + t.position }

/-- The character filters treat the two parts of a text separately: each cuts the whole text as it cuts the parts, nothing at the beginning of the second part is removed, and in the end the first part
still ends in the delimiter. -/
inductive CutApart (d : Char) : List CharFilter → Str → Str → Prop
  | nil {left right} : left.getLast? = some d → CutApart d [] left right
  | cons {f fs left right ps qs} : Filtered f left ps → Filtered f right qs → Filtered f (left ++ right) (ps ++ qs) → (∀ q, qs.head? = some q → q.dst ≠ []) →
      CutApart d fs (target ps) (target qs) → CutApart d (f :: fs) left right

/-- A match of a regular expression in a text that has `bytes` more bytes at the beginning. -/
def movedMatch (bytes : Nat) (m : RegexMatch) : RegexMatch := ⟨bytes + m.start, bytes + m.stop, m.group⟩

/-- No compound word reaches across the border between two lists of tokens, on the way through the filters: whenever a filter for compound words is reached, the last token on the left and the first one
on the right do not both have one of its tags. -/
def Apart (env : FilterEnv) : List TokenFilterSetting → List FToken → List FToken → Prop
  | [], _, _ => True
  | s :: settings, left, right =>
    (∀ kind tags newTag, s = .japaneseCompoundWord kind tags newTag → ∀ a b, left.getLast? = some a → right.head? = some b → ¬ (HasTag tags a ∧ HasTag tags b)) ∧
    ∀ f left' right', s.new env = .ok f → f left = .ok left' → f right = .ok right' → Apart env settings left' right'

end Verif.Spec
