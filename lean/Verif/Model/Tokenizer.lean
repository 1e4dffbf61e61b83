import Verif.Model.Viterbi
/-! Model of `lindera-tokenizer/src/tokenizer.rs` (tokenization) and the `Token` record of `lindera-tokenizer/src/token.rs`. -/
namespace Verif.Model

/-- `Token`, `lindera-tokenizer/src/token.rs` lines 10-38, without its references to the dictionaries. -/
structure Token where
  text : Str
  byteStart : Nat
  byteEnd : Nat
  position : Nat
  positionLength : Nat
  wordId : WordId
  details : Option (List Str)
  deriving DecidableEq, Repr

/-- `Token::new`, `token.rs` lines 41-61. -/
def Token.new (text : Str) (byteStart byteEnd position : Nat) (wordId : WordId) : Token :=
  ⟨text, byteStart, byteEnd, position, 1, wordId, none⟩

/-- `Dictionary`, `lindera-core/src/dictionary.rs` lines 13-21. -/
structure Dictionary where
  dict : PrefixDict
  costMatrix : ConnMatrix
  charDefinitions : CharDefs
  unknownDictionary : UnkDict
  wordsIdxData : List UInt8
  wordsData : List UInt8
  deriving DecidableEq, Repr

/-- `UserDictionary`, `dictionary.rs` lines 44-49. -/
structure UserDictionary where
  dict : PrefixDict
  wordsIdxData : List UInt8
  wordsData : List UInt8
  deriving DecidableEq, Repr

/-- `Tokenizer`, `lindera-tokenizer/src/tokenizer.rs` lines 157-166. -/
structure Tokenizer where
  dictionary : Dictionary
  userDictionary : Option UserDictionary
  mode : Mode

/-- The sentence delimiters, `tokenizer.rs` line 231. -/
def isDelimiter (c : Char) : Bool := c == '。' || c == '、' || c == '\n' || c == '\t'

/-- `str::split_inclusive` (Rust core), as used in `tokenizer.rs` line 231. -/
def splitInclusive (p : Char → Bool) : Str → List Str
  | [] => []
  | c :: cs =>
    if p c then [c] :: splitInclusive p cs
    else match splitInclusive p cs with
      | [] => [[c]]
      | s :: ss => (c :: s) :: ss

/-- The arguments of `set_text`, `tokenizer.rs` lines 236-243. -/
def Tokenizer.env (t : Tokenizer) : LatticeEnv :=
  ⟨t.dictionary.dict, t.userDictionary.map (·.dict), t.dictionary.charDefinitions,
   t.dictionary.unknownDictionary, t.mode⟩

/-- The mutable variables of `Tokenizer::tokenize`, `tokenizer.rs` lines 224-228. -/
structure TokState where
  tokens : List Token
  lattice : Lattice
  position : Nat
  bytePosition : Nat

/-- The end of a token's text in its sentence: the start of the next offset, or the end of the sentence, `tokenizer.rs` lines 250-255. -/
def tokenStop (sentence : Str) : List (Nat × WordId) → Nat
  | [] => blen sentence
  | (nextStart, _) :: _ => nextStart

/-- The loop over the offsets of one sentence, `tokenizer.rs` lines 248-276. `next_start` of the last token is the sentence's length. -/
def emitTokens (sentence : Str) : TokState → List (Nat × WordId) → R TokState
  | st, [] => .ok st
  | st, (byteStart, wordId) :: rest => do
    let byteEnd := tokenStop sentence rest
    let surface ← orPanic (sliceBytes sentence byteStart byteEnd)
    let tokenStart := st.bytePosition
    let tokenEnd := st.bytePosition + blen surface
    emitTokens sentence
      { st with
        tokens := st.tokens ++ [Token.new surface tokenStart tokenEnd st.position wordId]
        position := st.position + 1
        bytePosition := tokenEnd }
      rest

/-- One iteration of the loop over sentences, `tokenizer.rs` lines 232-276 (`text.is_empty()` is false inside the loop: the empty text
has no sentences). -/
def Tokenizer.sentenceStep (t : Tokenizer) (st : TokState) (sentence : Str) : R TokState := do
  let lattice ← st.lattice.setText t.env sentence
  let lattice ← lattice.calculatePathCosts t.dictionary.costMatrix t.mode
  let offsets ← lattice.tokensOffset
  emitTokens sentence { st with lattice } offsets

/-- `Tokenizer::tokenize`, `tokenizer.rs` lines 223-280. -/
def Tokenizer.tokenize (t : Tokenizer) (text : Str) : R (List Token) := do
  let st ← (splitInclusive isDelimiter text).foldlM (init := ⟨[], Lattice.default, 0, 0⟩) t.sentenceStep
  return st.tokens

end Verif.Model
