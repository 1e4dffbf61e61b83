import Verif.Model.TokenFilter
/-! Applying token filters twice and in another order. -/
namespace Verif.Spec
open Verif.Model

/-- Where the filter returns, applying it again to what it returned changes nothing. -/
def Idempotent (f : TokenFilter) : Prop := ∀ tokens out, f tokens = .ok out → f out = .ok out

/-- On tokens both filters accept, applying one after the other gives the same in both orders. -/
def Interchangeable (f g : TokenFilter) : Prop :=
  ∀ tokens a b, f tokens = .ok a → g tokens = .ok b → ∃ out, g a = .ok out ∧ f b = .ok out

/-- The filters that only select tokens, with any configuration. -/
inductive SelectFilter : TokenFilter → Prop
  | keepWords (words) : SelectFilter (keepWords words)
  | stopWords (words) : SelectFilter (stopWords words)
  | length (min max) : SelectFilter (lengthFilter min max)
  | japaneseKeepTags (tags) : SelectFilter (japaneseKeepTags tags)
  | japaneseStopTags (tags) : SelectFilter (japaneseStopTags tags)
  | koreanKeepTags (tags) : SelectFilter (koreanKeepTags tags)
  | koreanStopTags (tags) : SelectFilter (koreanStopTags tags)

/-- The filters that select tokens by part of speech. -/
inductive TagFilter : TokenFilter → Prop
  | japaneseKeepTags (tags) : TagFilter (japaneseKeepTags tags)
  | japaneseStopTags (tags) : TagFilter (japaneseStopTags tags)
  | koreanKeepTags (tags) : TagFilter (koreanKeepTags tags)
  | koreanStopTags (tags) : TagFilter (koreanStopTags tags)

/-- The filters that replace the text by a detail. -/
inductive FormFilter : TokenFilter → Prop
  | baseForm (features kind) : FormFilter (japaneseBaseForm features kind)
  | readingForm (features kind) : FormFilter (japaneseReadingForm features kind)
  | koreanReadingForm : FormFilter koreanReadingForm

end Verif.Spec
