import Verif.Model.Analyzer
import Verif.Spec.CharFilter
/-! What the analyzer does with offsets, from the pieces of each filter. -/
namespace Verif.Spec
open Verif.Model

/-- On `text` the filter cuts the text into the non-empty pieces `ps`, replaces them, and its offset table leads every byte of the result
to the byte it comes from. -/
structure Filtered (f : CharFilter) (text : Str) (ps : List Piece) : Prop where
  nonempty : ∀ p ∈ ps, p.src ≠ []
  cut : source ps = text
  result : ∃ t, f text = .ok (target ps, t) ∧ ∀ o, t.correct o (blen (target ps)) = .ok (sourceOffset ps o)

/-- The filters, applied in order, cut and replace the text as listed; `final` is what remains. -/
inductive FilterChain : List CharFilter → Str → List (List Piece) → Str → Prop where
  | nil (text : Str) : FilterChain [] text [] text
  | cons (f : CharFilter) (fs : List CharFilter) (text : Str) (ps : List Piece) (stages : List (List Piece)) (final : Str)
      (first : Filtered f text ps) (rest : FilterChain fs (target ps) stages final) : FilterChain (f :: fs) text (ps :: stages) final

/-- Offset `o` of the final text is a piece boundary at every stage and comes from offset `i` of the original text. -/
inductive Traced : List (List Piece) → Nat → Nat → Prop where
  | nil (o : Nat) : Traced [] o o
  | cons (ps : List Piece) (stages : List (List Piece)) (o mid i : Nat) (later : Traced stages o mid) (here : Boundary ps mid i) :
      Traced (ps :: stages) o i

/-- Where byte `o` of the final text comes from, stage by stage from the last to the first. -/
def sourceThrough : List (List Piece) → Nat → Nat
  | [], o => o
  | ps :: stages, o => sourceOffset ps (sourceThrough stages o)

/-- The token with its byte range replaced. -/
def FToken.withRange (t : FToken) (s e : Nat) : FToken :=
  ⟨t.text, s, e, t.position, t.positionLength, t.wordId, t.details⟩

/-- Offset `n` lies on a character boundary of the text. -/
def OnBoundary (text : Str) (n : Nat) : Prop := ∃ a b, text = a ++ b ∧ n = blen a

end Verif.Spec
