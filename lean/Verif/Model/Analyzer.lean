import Verif.Model.CharFilter
import Verif.Model.UserDictBuilder
/-! Model of `lindera-analyzer/src/analyzer.rs` (the analysis; reading the configuration is in `Verif.Model.AnalyzerConfig`). -/
namespace Verif.Model

/-- `lindera_filter::token::Token`, `lindera-filter/src/token.rs` lines 5-28. -/
structure FToken where
  text : Str
  byteStart : Nat
  byteEnd : Nat
  position : Nat
  positionLength : Nat
  wordId : WordId
  details : List Str
  deriving DecidableEq, Repr

/-- `BoxCharacterFilter`, `lindera-filter/src/character_filter.rs` lines 28-40: a filter is its `apply` method. -/
abbrev CharFilter := Str → R (Str × OffsetTable)

/-- `BoxTokenFilter`, `lindera-filter/src/token_filter.rs`: a filter is its `apply` method on the token vector. -/
abbrev TokenFilter := List FToken → R (List FToken)

/-- `Analyzer`, `analyzer.rs` lines 33-42. -/
structure Analyzer where
  characterFilters : List CharFilter
  tokenizer : Tokenizer
  tokenFilters : List TokenFilter

/-- The state of the character filter loop: the text, and the tables with the text lengths, newest first. -/
structure Filtering where
  text : Str
  tables : List (OffsetTable × Nat)

/-- One iteration of the character filter loop, `analyzer.rs` lines 110-125. -/
def Filtering.step (st : Filtering) (f : CharFilter) : R Filtering := do
  let (newText, t) ← f st.text
  return ⟨newText, if t.offsets.isEmpty then st.tables else (t, blen newText) :: st.tables⟩

/-- Making an analyzed token, `analyzer.rs` lines 133-149. -/
def Token.analyzed (dict : Dictionary) (user : Option UserDictionary) (t : Token) : R FToken := do
  let (details, _) ← t.getDetails dict user
  match details with
  | some d => .ok ⟨t.text, t.byteStart, t.byteEnd, t.position, t.positionLength, t.wordId, d⟩
  | none => .error (.err .content)

/-- The loop body that corrects a token, `analyzer.rs` lines 160-167. -/
def FToken.correctBy (t : FToken) (table : OffsetTable × Nat) : R FToken := do
  let s ← table.1.correct t.byteStart table.2
  let e ← table.1.correct t.byteEnd table.2
  return { t with byteStart := s, byteEnd := e }

/-- Everything after tokenization up to the token filters, `analyzer.rs` lines 128-154: the tokens of a (filtered) text before offset correction. -/
def Analyzer.tokens (a : Analyzer) (text : Str) : R (List FToken) := do
  let tmp ← a.tokenizer.tokenize text
  let tokens ← tmp.mapM (Token.analyzed a.tokenizer.dictionary a.tokenizer.userDictionary)
  a.tokenFilters.foldlM (fun ts f => f ts) tokens

/-- `Analyzer::analyze`, `analyzer.rs` lines 102-171. -/
def Analyzer.analyze (a : Analyzer) (text : Str) : R (List FToken) := do
  let st ← a.characterFilters.foldlM Filtering.step ⟨text, []⟩
  let tokens ← a.tokens st.text
  tokens.mapM fun t => st.tables.foldlM FToken.correctBy t

/-- `MappingCharacterFilter` in an analyzer. -/
def Mapping.filter (f : Mapping) : CharFilter := f.apply

/-- `RegexCharacterFilter` in an analyzer. -/
def RegexFilter.filter (f : RegexFilter) : CharFilter := f.apply

/-- `UnicodeNormalizeCharacterFilter` in an analyzer. -/
def UnicodeNormalize.filter (f : UnicodeNormalize) : CharFilter := f.apply

/-- `JapaneseIterationMarkCharacterFilter` in an analyzer. -/
def IterationMark.filter (f : IterationMark) : CharFilter := f.apply

end Verif.Model
