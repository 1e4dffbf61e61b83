import Verif.Model.Analyzer
/-! What analyzed tokens look like as a sequence: C96. -/
namespace Verif.Spec
open Verif.Model

/-- The tokens have byte ranges inside a text of `length` bytes and take at least one position each; they come in the order of the text, do not overlap, and do not share positions. -/
structure InOrder (length : Nat) (tokens : List FToken) : Prop where
  range : ∀ t ∈ tokens, t.byteStart ≤ t.byteEnd ∧ t.byteEnd ≤ length
  positions : ∀ t ∈ tokens, 0 < t.positionLength
  order : ∀ (i j : Nat) (a b : FToken), i < j → tokens[i]? = some a → tokens[j]? = some b → a.byteEnd ≤ b.byteStart ∧ a.position + a.positionLength ≤ b.position

end Verif.Spec
