import Verif.Spec.Tokens
/-! What a tokenizer over a sound dictionary promises for every text, without conditions on the dictionary's compiled form. -/
namespace Verif.Spec
open Verif.Model

/-- The promises that hold for every text. -/
structure Dependable (t : Tokenizer) : Prop where
  /-- Every text is answered. -/
  answers : ∀ text, ∃ toks, t.tokenize text = .ok toks
  /-- Nothing is lost. -/
  lossless : ∀ text toks, t.tokenize text = .ok toks → (toks.map (·.text)).flatten = text
  /-- Every token is a non-empty part of the text, at the place its offsets say. -/
  places : ∀ text toks, t.tokenize text = .ok toks → ∀ tok ∈ toks, tok.byteStart < tok.byteEnd ∧ sliceBytes text tok.byteStart tok.byteEnd = some tok.text
  /-- Every token begins where the one before it ends; the first begins at 0. -/
  adjacent : ∀ text toks, t.tokenize text = .ok toks → (∀ tok : Token, toks.head? = some tok → tok.byteStart = 0) ∧
    ∀ i (a b : Token), toks[i]? = some a → toks[i + 1]? = some b → a.byteEnd = b.byteStart
  /-- Positions count the tokens. -/
  positions : ∀ text toks, t.tokenize text = .ok toks → ∀ i (tok : Token), toks[i]? = some tok → tok.position = i ∧ tok.positionLength = 1
  /-- What follows a delimiter does not matter for what precedes it, and vice versa. -/
  sentences : ∀ a d b, d ∈ delimiters → ∀ ta tb, t.tokenize (a ++ [d]) = .ok ta → t.tokenize b = .ok tb →
    t.tokenize (a ++ [d] ++ b) = .ok (ta ++ tb.map fun tok =>
      { tok with byteStart := blen (a ++ [d]) + tok.byteStart, byteEnd := blen (a ++ [d]) + tok.byteEnd, position := ta.length + tok.position })

end Verif.Spec
