import Verif.Spec.Language
import Verif.Spec.FilterEffect
import Verif.Spec.Storage
import Verif.Spec.Cli
import Verif.Spec.Config
/-!
What an analyzer makes of a text, in terms of the dictionary's source files and the filters' settings alone: the character filters rewrite the text, the result is segmented into
words of the lexicon, the token filters change the tokens, and the byte ranges are led back to the original text.
-/
namespace Verif.Spec
open Verif.Model

/-- The character filters with these settings, applied in order, cut and replace the text as listed; `final` is what remains. -/
inductive CharChain (env : FilterEnv) : List CharFilterSetting → Str → List (List Piece) → Str → Prop
  | nil (text) : CharChain env [] text [] text
  | cons {s ss text ps stages final} : source ps = text → CharCut env s text ps → CharChain env ss (target ps) stages final →
      CharChain env (s :: ss) text (ps :: stages) final

/-- Every character filter gets a text that it is made for. -/
def CharOk (env : FilterEnv) : List CharFilterSetting → Str → Prop
  | [], _ => True
  | s :: ss, text => CharAccepts env s text ∧ ∀ ps, source ps = text → CharCut env s text ps → CharOk env ss (target ps)

/-- The token filters with these settings, applied in order, make `out` of the tokens. -/
inductive TokenChain (env : FilterEnv) : List TokenFilterSetting → List FToken → List FToken → Prop
  | nil (tokens) : TokenChain env [] tokens tokens
  | cons {s ss tokens mid out} : TokenEffect env s tokens mid → TokenChain env ss mid out → TokenChain env (s :: ss) tokens out

/-- Every token filter gets tokens that it is made for. -/
def TokenOk (env : FilterEnv) : List TokenFilterSetting → List FToken → Prop
  | [], _ => True
  | s :: ss, tokens => TokenAccepts env s tokens ∧ ∀ mid, TokenEffect env s tokens mid → TokenOk env ss mid

/-- The words of a segmentation as tokens: contiguous byte ranges from `byte`, positions counted from `pos`, each one position long, with the details of the words. -/
inductive Shown : Nat → Nat → List Item → List FToken → Prop
  | nil (byte pos) : Shown byte pos [] []
  | cons {byte pos w ws t ts} : t.text = w.surface → t.byteStart = byte → t.byteEnd = byte + blen w.surface → t.position = pos → t.positionLength = 1 →
      t.details = w.details → Shown (byte + blen w.surface) (pos + 1) ws ts → Shown byte pos (w :: ws) (t :: ts)

/-- The tokens are those of a segmentation of each sentence of the text into words of the lexicon; it is the chosen one, cheapest and by the rule for ties (for a sentence whose costs cannot overflow). -/
def Segmented (L : Lexicon) (mode : Mode) (text : Str) (tokens : List FToken) : Prop :=
  ∃ ss segs, Sentences text ss ∧ Shown 0 0 segs.flatten tokens ∧
    List.Forall₂ (fun s ws => L.Segmentation mode s ws ∧ (L.CostsFit mode s → L.Chosen mode s ws)) ss segs

/-- What the analysis of a text is. -/
structure Settings where
  env : FilterEnv
  lexicon : Lexicon
  mode : Mode
  charFilters : List CharFilterSetting
  tokenFilters : List TokenFilterSetting

/-- The filters get texts and tokens that they are made for. -/
structure Settings.Accepts (S : Settings) (text : Str) : Prop where
  chars : CharOk S.env S.charFilters text
  tokens : ∀ stages final tokens, CharChain S.env S.charFilters text stages final → Segmented S.lexicon S.mode final tokens → TokenOk S.env S.tokenFilters tokens

/-- `out` is the result of the analysis of `text`. -/
def Settings.Analyzes (S : Settings) (text : Str) (out : List FToken) : Prop :=
  ∃ stages final tokens tokens', CharChain S.env S.charFilters text stages final ∧ Segmented S.lexicon S.mode final tokens ∧ TokenChain S.env S.tokenFilters tokens tokens' ∧
    out = tokens'.map fun t => FToken.withRange t (sourceThrough stages t.byteStart) (sourceThrough stages t.byteEnd)

/-- The settings can be used: mappings are well-formed, regular expressions are valid and part-of-speech tags have at most four parts. -/
structure Settings.Valid (S : Settings) : Prop where
  charMappings : ∀ m, .mapping m ∈ S.charFilters → MappingOk m
  patterns : ∀ p r, .regex p r ∈ S.charFilters → S.env.regex p ≠ none
  tokenMappings : ∀ m, .mapping m ∈ S.tokenFilters → MappingOk m
  tags : ∀ s ∈ S.tokenFilters, ShortTags s

/-- The document lists filters with these settings, and its tokenizer is configured with `c`. -/
structure DocSays (doc : Json) (charFilters : List CharFilterSetting) (tokenFilters : List TokenFilterSetting) (c : TokenizerConfig) : Prop where
  characterFilters : ∃ es, Listed doc "character_filters" es ∧ List.Forall₂ (fun e s => CharSetting e.1 e.2 s) es charFilters
  tokenizer : ∃ kvs, HasMember doc "tokenizer" (.obj kvs) ∧ ConfigMembers kvs c
  tokenFilters : ∃ es, Listed doc "token_filters" es ∧ List.Forall₂ (fun e s => TokenSetting e.1 e.2 s) es tokenFilters

/-- The user dictionary of a configuration: there is none, or it is a CSV file with these records that is read by the rules of this kind, or a file with the compiled form of such records. -/
def UserFile (load : LoadEnv) (c : Option UserDictionaryConfig) : Option (DictionaryKind × List Row) → Prop
  | none => c = none
  | some (kind, rows) =>
    (∃ p data, c = some ⟨p, some kind⟩ ∧ HasExtension p (utf8 "csv".toList) ∧ load.files p = some data ∧ load.csv data = some rows) ∨
    (∃ p k u, c = some ⟨p, k⟩ ∧ HasExtension p (utf8 "bin".toList) ∧ load.files p = some (u.bytes load.format) ∧ compileUser load.yada (some (kind, rows)) = .ok (some u) ∧
      UserDictTyped load.format u)

/-- The program has a built-in dictionary of this kind: the files that the builder left in `dir` are embedded into it, and read with the builder's setting of the feature `compress`. -/
structure Embeds (load : LoadEnv) (build : BuildEnv) (kind : DictionaryKind) (files : Path → Option (List UInt8)) (dir : Path) (d : DictData) : Prop where
  feature : CompiledIn load.features kind
  reads : load.builtin kind = d.loadBuiltin build.feature build.flate build.format
  charDef : files (inDir dir "char_def.bin") = some d.charDef
  unk : files (inDir dir "unk.bin") = some d.unk
  da : files (inDir dir "dict.da") = some d.da
  vals : files (inDir dir "dict.vals") = some d.vals
  words : files (inDir dir "dict.words") = some d.words
  wordsIdx : files (inDir dir "dict.wordsidx") = some d.wordsIdx
  matrix : files (inDir dir "matrix.mtx") = some d.matrix

/-- What the command line prints for the tokens of a line. In the wakati format nothing at all is printed if there are no tokens (C53). -/
def Printed (pretty : Json → Str) (tokens : List FToken) (o : Str) : Format → Prop
  | .mecab => o = mecabText tokens
  | .wakati => (tokens = [] ∧ o = []) ∨ (tokens ≠ [] ∧ o = wakatiText tokens)
  | .json => ∃ docs, o = pretty (.arr docs) ++ "\n".toList ∧
      List.Forall₂ (fun (t : FToken) doc => doc.get "text".toList = some (.str t.text) ∧ doc.get "details".toList = some (.arr (t.details.map .str)) ∧
        doc.get "byte_start".toList = some (.int t.byteStart) ∧ doc.get "byte_end".toList = some (.int t.byteEnd) ∧
        doc.get "word_id".toList = some (.arr [.int t.wordId.id.toNat, .bool t.wordId.sys])) tokens docs

end Verif.Spec
