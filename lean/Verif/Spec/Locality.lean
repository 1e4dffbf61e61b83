import Verif.Spec.Language
/-! What a tokenization depends on. -/
namespace Verif.Spec
open Verif.Model

/-- Compiling the sources and the optional user dictionary and tokenizing a text gives tokens with these texts, byte ranges, positions and details. -/
def Tokenizes (env : BuildEnv) (kind : DictionaryKind) (src : SourceDir) (user : Option (DictionaryKind × List Row)) (mode : Mode) (text : Str)
    (shown : List (Str × Nat × Nat × Nat × Option (List Str))) : Prop :=
  ∃ parts m u toks, compile env kind src = .ok parts ∧ ConnMatrix.load parts.matrix = .ok m ∧ compileUser env.yada user = .ok u ∧
    Tokenizer.tokenize ⟨parts.dictionary m, u, mode⟩ text = .ok toks ∧ Lexicon.visible ⟨parts.dictionary m, u, mode⟩ toks = .ok shown

/-- `w` is a non-empty part of a sentence of the text. -/
def OccursIn (w text : Str) : Prop := ∃ ss s, Sentences text ss ∧ s ∈ ss ∧ w ≠ [] ∧ w <:+: s

/-- The words of an optional user dictionary with a given surface, in file order. -/
def userWordsOf (user : Option (DictionaryKind × List Row)) (surface : Str) : List SourceWord := (userWords user).filter (·.surface = surface)

/-- Two builds read the same definition files in the same encodings. Everything else of the environment may differ: the double-array builder, the order of hash maps, ... -/
structure SameDefinitions (env env' : BuildEnv) (src src' : SourceDir) : Prop where
  decode : env'.decode = env.decode
  charDef : src'.charDef = src.charDef
  unk : src'.unk = src.unk
  matrix : src'.matrix = src.matrix

end Verif.Spec
