import Verif.Model.AnalyzerConfig
/-! Which words an analyzed token stands for: C105. -/
namespace Verif.Spec
open Verif.Model

/-- The token stands for these words, which are not none: it starts with the first and ends with the last one, counts as many positions as there are words, and with one word it has the details of that
word. -/
structure StandsFor (words : List FToken) (t : FToken) : Prop where
  ends : ∃ first last, words.head? = some first ∧ words.getLast? = some last ∧ t.byteStart = first.byteStart ∧ t.byteEnd = last.byteEnd ∧ t.position = first.position ∧ t.wordId = first.wordId
  count : t.positionLength = words.length
  single : ∀ w, words = [w] → t.details = w.details

/-- The configured filters that select tokens. -/
def Drops : TokenFilterSetting → Prop
  | .japaneseKeepTags _ | .japaneseStopTags _ | .koreanKeepTags _ | .koreanStopTags _ | .keepWords _ | .stopWords _ | .length _ _ => True
  | _ => False

/-- The configured filters that rewrite the text of tokens. -/
def Rewrites : TokenFilterSetting → Prop
  | .japaneseBaseForm _ | .japaneseReadingForm _ | .koreanReadingForm | .japaneseKana _ | .japaneseKatakanaStem _ | .japaneseNumber _ | .mapping _ | .lowercase | .uppercase => True
  | _ => False

/-- The configured filters that put tokens together. -/
def Merges : TokenFilterSetting → Prop
  | .japaneseCompoundWord _ _ _ => True
  | _ => False

end Verif.Spec
