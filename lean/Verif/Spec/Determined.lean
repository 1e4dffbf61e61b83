import Verif.Spec.EndToEnd
/-! When two analyses are the same for a user. -/
namespace Verif.Spec
open Verif.Model

/-- A token without its word id: its text, byte range, position, position length and details. -/
def FToken.shown (t : FToken) : Str × Nat × Nat × Nat × Nat × List Str := (t.text, t.byteStart, t.byteEnd, t.position, t.positionLength, t.details)

/-- The costs of the sentences of the text that is left after the character filters lie in the range of `i32`. -/
def Settings.Fits (S : Settings) (text : Str) : Prop :=
  ∀ stages final ss, CharChain S.env S.charFilters text stages final → Sentences final ss → ∀ s ∈ ss, S.lexicon.CostsFit S.mode s

end Verif.Spec
