import Verif.Spec.FilterEffect
/-! What can be said of the order of analyzed tokens when offsets may be wrong: C96. -/
namespace Verif.Spec
open Verif.Model

/-- The tokens come in order, do not overlap and do not share positions; nothing is said about where the text ends. -/
structure InSequence (tokens : List FToken) : Prop where
  range : ∀ t ∈ tokens, t.byteStart ≤ t.byteEnd
  positions : ∀ t ∈ tokens, 0 < t.positionLength
  order : ∀ (i j : Nat) (a b : FToken), i < j → tokens[i]? = some a → tokens[j]? = some b → a.byteEnd ≤ b.byteStart ∧ a.position + a.positionLength ≤ b.position

/-- What configured character filters need so that offsets keep their order: mappings that can be built, patterns that never match the empty text, texts that are cut into nonempty clusters. -/
def KeepsOrder (env : FilterEnv) : CharFilterSetting → Prop
  | .iterationMark _ _ => True
  | .mapping m => MappingOk m
  | .regex pattern _ => ∀ find, env.regex pattern = some find → ∀ text, ∀ m ∈ find text, m.start < m.stop
  | .unicodeNormalize _ => ∀ text, (env.graphemes text).flatten = text ∧ ∀ g ∈ env.graphemes text, g ≠ []

end Verif.Spec
