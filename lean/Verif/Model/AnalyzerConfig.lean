import Verif.Model.Cli
import Verif.Model.TokenFilter
import Verif.Model.JsonText
/-!
Model of how analyzers are configured: the filter configurations and loaders of `lindera-filter/src/`, `AnalyzerConfig` and `Analyzer::from_config` in
`lindera-analyzer/src/analyzer.rs`, and the command `tokenize` of `lindera-cli/src/main.rs`.
-/
namespace Verif.Model

/-- `UnicodeNormalizeKind`, `character_filter/unicode_normalize.rs` lines 13-23. -/
inductive NormalForm where
  | nfc | nfd | nfkc | nfkd
  deriving DecidableEq, Repr

/-- What the filters depend on: the features compiled into `lindera-filter`, and the external crates `yada`, `regex` (compiling a pattern fails or gives the function that lists the
matches), `unicode-segmentation`, `unicode-normalization`, `kanaria`, `unicode-blocks` and the case mappings of the standard library. -/
structure FilterEnv where
  features : Features
  yada : DaBuilder
  regex : Str → Option (Str → List RegexMatch)
  graphemes : Str → List Str
  normalForm : NormalForm → Str → Str
  toUppercase : Str → Str
  toLowercase : Str → Str
  hiragana : Str → Str
  katakana : Str → Str
  block : Char → Option (Nat × Nat)

/-! ### Character filters -/

/-- The configurations of the character filters: `JapaneseIterationMarkCharacterFilterConfig`, `MappingCharacterFilterConfig`, `RegexCharacterFilterConfig` and
`UnicodeNormalizeCharacterFilterConfig`. -/
inductive CharFilterSetting where
  | iterationMark (normalizeKanji normalizeKana : Bool)
  | mapping (mapping : StrMap)
  | regex (pattern replacement : Str)
  | unicodeNormalize (kind : NormalForm)

/-- The variant of `UnicodeNormalizeKind` with a `serde` name, `unicode_normalize.rs` lines 15-22. -/
def NormalForm.named (s : Str) : Option NormalForm :=
  if s = "nfc".toList then some .nfc
  else if s = "nfd".toList then some .nfd
  else if s = "nfkc".toList then some .nfkc
  else if s = "nfkd".toList then some .nfkd
  else none

/-- Derived `Deserialize` of a struct with one field that must be present. -/
def De.struct1 {α : Type} (name : Str) (d : De α) : De α := fun j => do
  let fs ← De.fields [name] j
  match fs with
  | [a] => De.required d a
  | _ => none

/-- `JapaneseIterationMarkCharacterFilterConfig::from_value`, `japanese_iteration_mark.rs` lines 61-65 and 80-83. -/
def De.iterationMark : De CharFilterSetting := fun j => do
  let fs ← De.fields ["normalize_kanji".toList, "normalize_kana".toList] j
  match fs with
  | [a, b] => return .iterationMark (← De.required De.bool a) (← De.required De.bool b)
  | _ => none

/-- `RegexCharacterFilterConfig::from_value`, `regex.rs` lines 12-16 and 31-34. -/
def De.regex : De CharFilterSetting := fun j => do
  let fs ← De.fields ["pattern".toList, "replacement".toList] j
  match fs with
  | [a, b] => return .regex (← De.required De.string a) (← De.required De.string b)
  | _ => none

/-- `CharacterFilterLoader::load_from_value`, `character_filter.rs` lines 110-132: the selected configuration's `from_value` (`mapping.rs` lines 15-18 and 30-33, `unicode_normalize.rs` lines
25-28 and 40-43). `none`: the error `Deserialize`, which is also that of an unknown filter. -/
def readCharFilter (kind : Str) (args : Json) : Option CharFilterSetting :=
  if kind = "japanese_iteration_mark".toList then De.iterationMark args
  else if kind = "mapping".toList then (De.struct1 "mapping".toList (De.map De.string) args).map .mapping
  else if kind = "regex".toList then De.regex args
  else if kind = "unicode_normalize".toList then (De.struct1 "kind".toList (De.unitVariant NormalForm.named) args).map .unicodeNormalize
  else none

/-- The `new` methods of the character filters: `japanese_iteration_mark.rs` lines 97-99, `mapping.rs` lines 48-63, `regex.rs` lines 46-51, `unicode_normalize.rs` lines 54-56. -/
def CharFilterSetting.new (env : FilterEnv) : CharFilterSetting → R CharFilter
  | .iterationMark kanji kana => .ok (IterationMark.filter ⟨kanji, kana⟩)
  | .mapping m => do
    let f ← Mapping.new env.yada m
    return f.filter
  | .regex pattern replacement =>
    match env.regex pattern with
    | some findIter => .ok (RegexFilter.filter ⟨findIter, replacement⟩)
    | none => .error (.err .args)
  | .unicodeNormalize kind => .ok (UnicodeNormalize.filter ⟨env.graphemes, env.normalForm kind⟩)

/-- `CharacterFilterLoader::load_from_value`, `character_filter.rs` lines 109-135. -/
def FilterEnv.charFilter (env : FilterEnv) (kind : Str) (args : Json) : R CharFilter :=
  match readCharFilter kind args with
  | some s => s.new env
  | none => .error (.err .deserialize)

/-! ### Token filters -/

/-- The configurations of the token filters, with the tags as they are configured. -/
inductive TokenFilterSetting where
  | japaneseBaseForm (kind : DictionaryKind)
  | japaneseCompoundWord (kind : DictionaryKind) (tags : List Str) (newTag : Option Str)
  | japaneseKana (kind : KanaKind)
  | japaneseKatakanaStem (min : Nat)
  | japaneseKeepTags (tags : List Str)
  | japaneseNumber (tags : Option (List Str))
  | japaneseReadingForm (kind : DictionaryKind)
  | japaneseStopTags (tags : List Str)
  | keepWords (words : List Str)
  | koreanKeepTags (tags : List Str)
  | koreanReadingForm
  | koreanStopTags (tags : List Str)
  | length (min max : Option Nat)
  | lowercase
  | mapping (mapping : StrMap)
  | stopWords (words : List Str)
  | uppercase

/-- The variant of `KanaKind` with a `serde` name, `japanese_kana.rs` lines 13-21. -/
def KanaKind.named (s : Str) : Option KanaKind :=
  if s = "hiragana".toList then some .hiragana
  else if s = "katakana".toList then some .katakana
  else none

/-- `JapaneseCompoundWordTokenFilterConfig::from_value`, `japanese_compound_word.rs` lines 15-20 and 67-70. -/
def De.compoundWord : De TokenFilterSetting := fun j => do
  let fs ← De.fields ["kind".toList, "tags".toList, "new_tag".toList] j
  match fs with
  | [a, b, c] => return .japaneseCompoundWord (← De.required DictionaryKind.de a) (← De.required (De.set De.string) b) (← De.optional De.string c)
  | _ => none

/-- `JapaneseKatakanaStemTokenFilterConfig::from_value`, `japanese_katakana_stem.rs` lines 16-25 and 37-40: the field has a default, also in an array. -/
def De.katakanaStem : De TokenFilterSetting
  | .obj kvs => (De.field kvs "min".toList).bind fun
    | none => some (.japaneseKatakanaStem 3)
    | some j => (De.nonZeroUsize j).map .japaneseKatakanaStem
  | .arr [] => some (.japaneseKatakanaStem 3)
  | .arr [j] => (De.nonZeroUsize j).map .japaneseKatakanaStem
  | _ => none

/-- The strings of `tags`, `japanese_keep_tags.rs` lines 44-59 and `japanese_stop_tags.rs` lines 44-59. -/
def De.tags : De (List Str) := fun j => do
  let xs ← (j.index "tags".toList).asArray
  xs.mapM Json.asStr

/-- `JapaneseNumberTokenFilterConfig::from_value`, `japanese_number.rs` lines 49-74: `tags` that is not an array counts as missing. -/
def De.numberTags : De (Option (List Str)) := fun j =>
  match j.get "tags".toList with
  | some (.arr xs) => (xs.mapM Json.asStr).map some
  | _ => some none

/-- `LengthTokenFilterConfig::from_value`, `length.rs` lines 11-15 and 27-30. -/
def De.length : De TokenFilterSetting := fun j => do
  let fs ← De.fields ["min".toList, "max".toList] j
  match fs with
  | [a, b] => return .length (← De.optional De.usize a) (← De.optional De.usize b)
  | _ => none

/-- `TokenFilterLoader::load_from_value`, `token_filter.rs` lines 116-182: the selected configuration's `from_value` (the derived ones in `japanese_base_form.rs` lines 13-32, `japanese_kana.rs`
lines 23-41, `japanese_reading_form.rs` lines 12-31, `keep_words.rs` and `stop_words.rs` lines 13-32, `korean_keep_tags.rs` and `korean_stop_tags.rs` lines 13-32, `mapping.rs` lines 15-34), without
formatting the tags. -/
def readTokenFilter (kind : Str) (args : Json) : Option TokenFilterSetting :=
  if kind = "japanese_base_form".toList then (De.struct1 "kind".toList DictionaryKind.de args).map .japaneseBaseForm
  else if kind = "japanese_compound_word".toList then De.compoundWord args
  else if kind = "japanese_kana".toList then (De.struct1 "kind".toList (De.unitVariant KanaKind.named) args).map .japaneseKana
  else if kind = "japanese_katakana_stem".toList then De.katakanaStem args
  else if kind = "japanese_keep_tags".toList then (De.tags args).map .japaneseKeepTags
  else if kind = "japanese_number".toList then (De.numberTags args).map .japaneseNumber
  else if kind = "japanese_reading_form".toList then (De.struct1 "kind".toList DictionaryKind.de args).map .japaneseReadingForm
  else if kind = "japanese_stop_tags".toList then (De.tags args).map .japaneseStopTags
  else if kind = "keep_words".toList then (De.struct1 "words".toList (De.set De.string) args).map .keepWords
  else if kind = "korean_keep_tags".toList then (De.struct1 "tags".toList (De.set De.string) args).map .koreanKeepTags
  else if kind = "korean_reading_form".toList then some .koreanReadingForm
  else if kind = "korean_stop_tags".toList then (De.struct1 "tags".toList (De.set De.string) args).map .koreanStopTags
  else if kind = "length".toList then De.length args
  else if kind = "lowercase".toList then some .lowercase
  else if kind = "mapping".toList then (De.struct1 "mapping".toList (De.map De.string) args).map .mapping
  else if kind = "stop_words".toList then (De.struct1 "words".toList (De.set De.string) args).map .stopWords
  else if kind = "uppercase".toList then some .uppercase
  else none

/-- Formatting the tags (the `new` methods of the configurations) and the `new` methods of the token filters. -/
def TokenFilterSetting.new (env : FilterEnv) : TokenFilterSetting → R TokenFilter
  | .japaneseBaseForm kind => .ok (Model.japaneseBaseForm env.features kind)
  | .japaneseCompoundWord kind tags newTag => do
    let f ← CompoundWord.new env.features kind tags newTag
    return f.apply
  | .japaneseKana kind => .ok (Model.japaneseKana env.hiragana env.katakana kind)
  | .japaneseKatakanaStem min => .ok (katakanaStem env.block min)
  | .japaneseKeepTags tags => do
    let tags ← formatTags tags
    return Model.japaneseKeepTags tags
  | .japaneseNumber tags => do
    let tags ← formatNumberTags tags
    return Model.japaneseNumber tags
  | .japaneseReadingForm kind => .ok (Model.japaneseReadingForm env.features kind)
  | .japaneseStopTags tags => do
    let tags ← formatTags tags
    return Model.japaneseStopTags tags
  | .keepWords words => .ok (Model.keepWords words)
  | .koreanKeepTags tags => .ok (Model.koreanKeepTags tags)
  | .koreanReadingForm => .ok Model.koreanReadingForm
  | .koreanStopTags tags => .ok (Model.koreanStopTags tags)
  | .length min max => .ok (lengthFilter min max)
  | .lowercase => .ok (Model.lowercase env.toLowercase)
  | .mapping m => do
    let f ← Mapping.new env.yada m
    return f.tokenFilter
  | .stopWords words => .ok (Model.stopWords words)
  | .uppercase => .ok (Model.uppercase env.toUppercase)

/-- `TokenFilterLoader::load_from_value`, `token_filter.rs` lines 115-185. -/
def FilterEnv.tokenFilter (env : FilterEnv) (kind : Str) (args : Json) : R TokenFilter :=
  match readTokenFilter kind args with
  | some s => s.new env
  | none => .error (.err .deserialize)

/-! ### Analyzers -/

/-- What making an analyzer depends on: the dictionaries and files, the filters' crates, and which texts of numbers that are not integers of 64 bits `serde_json` accepts. -/
structure AnalyzerEnv where
  load : LoadEnv
  filter : FilterEnv
  finite : Str → Bool

/-- `serde_json::from_slice::<Value>`; `none`: not JSON. The result is the tree of the text, see `Json.value`. -/
def AnalyzerEnv.json (env : AnalyzerEnv) (data : List UInt8) : Option Json := parseJsonBytes env.finite data

/-- One iteration of the filter loops, `analyzer.rs` lines 51-60 and 76-84: an entry without a string `kind` is skipped. -/
def loadEntry {α : Type} (loader : Str → Json → R α) (acc : List α) (entry : Json) : R (List α) :=
  match (entry.index "kind".toList).asStr with
  | some kind => do
    let f ← loader kind (entry.index "args".toList)
    return acc ++ [f]
  | none => .ok acc

/-- The filter loops, `analyzer.rs` lines 48-61 and 73-85: a member that is not an array counts as missing. -/
def loadEntries {α : Type} (loader : Str → Json → R α) (settings : Json) : R (List α) :=
  match settings.asArray with
  | some entries => entries.foldlM (loadEntry loader) []
  | none => .ok []

/-- The tokenizer configuration, `analyzer.rs` lines 63-70. -/
def tokenizerMember (value : Json) : R TokenizerConfig :=
  match (value.index "tokenizer".toList).asObject with
  | some v =>
    match TokenizerConfig.de v with
    | some c => .ok c
    | none => .error (.err .deserialize)
  | none => .error (.err .deserialize)

/-- `Analyzer::from_config`, `analyzer.rs` lines 45-88, on the `Value`. -/
def AnalyzerEnv.fromValue (env : AnalyzerEnv) (value : Json) : R Analyzer := do
  let characterFilters ← loadEntries env.filter.charFilter (value.index "character_filters".toList)
  let config ← tokenizerMember value
  let tokenizer ← env.load.tokenizer config
  let tokenFilters ← loadEntries env.filter.tokenFilter (value.index "token_filters".toList)
  return ⟨characterFilters, tokenizer, tokenFilters⟩

/-- `AnalyzerConfig::from_slice`, `analyzer.rs` lines 25-30. -/
def AnalyzerEnv.configValue (env : AnalyzerEnv) (data : List UInt8) : R Json :=
  match env.json data with
  | some j => .ok j.value
  | none => .error (.err .deserialize)

/-- `AnalyzerConfig::from_file`, `analyzer.rs` lines 19-23, and `Analyzer::from_config`. -/
def AnalyzerEnv.fromFile (env : AnalyzerEnv) (path : Path) : R Analyzer := do
  let data ← env.load.readFile path
  let value ← env.configValue data
  env.fromValue value

/-! ### Command line -/

/-- `str::split_once(':')`, with the default of `parse_cli_flag`, `lindera-filter/src/lib.rs` line 11. -/
def splitFlag (flag : Str) : Str × Str :=
  if ':' ∈ flag then (flag.takeWhile (· ≠ ':'), (flag.dropWhile (· ≠ ':')).drop 1) else (flag, [])

/-- `parse_cli_flag`, `lib.rs` lines 10-17. `from_str` is `from_slice` on the bytes of the text. -/
def AnalyzerEnv.parseFlag (env : AnalyzerEnv) (flag : Str) : R (Str × Json) :=
  match env.json (utf8 (splitFlag flag).2) with
  | some j => .ok ((splitFlag flag).1, j.value)
  | none => .error (.err .content)

/-- `CharacterFilterLoader::load_from_cli_flag`, `character_filter.rs` lines 137-143. -/
def AnalyzerEnv.charFlag (env : AnalyzerEnv) (flag : Str) : R CharFilter := do
  let (kind, args) ← env.parseFlag flag
  env.filter.charFilter kind args

/-- `TokenFilterLoader::load_from_cli_flag`, `token_filter.rs` lines 187-193. -/
def AnalyzerEnv.tokenFlag (env : AnalyzerEnv) (flag : Str) : R TokenFilter := do
  let (kind, args) ← env.parseFlag flag
  env.filter.tokenFilter kind args

/-- `TokenizeArgs`, `main.rs` lines 37-80, as parsed by `clap`. -/
structure TokenizeArgs where
  dicType : Option DictionaryKind
  dicDir : Option Path
  userDicFile : Option Path
  mode : Mode
  outputFormat : Str
  characterFilters : List Str
  tokenFilters : List Str
  inputFile : Option Path

/-- The user dictionary configuration, `main.rs` lines 188-194. -/
def TokenizeArgs.userConfig (args : TokenizeArgs) : Option UserDictionaryConfig := args.userDicFile.map fun path => ⟨path, args.dicType⟩

/-- `tokenize` up to the analyzer, `main.rs` lines 180-229, with the feature `filter`. The output format is checked between the tokenizer and the filters. -/
def AnalyzerEnv.cliAnalyzer (env : AnalyzerEnv) (args : TokenizeArgs) : R (Analyzer × Format) := do
  let dictionary ← env.load.loadFromConfig ⟨args.dicType, args.dicDir⟩
  let user ← env.load.loadUser args.userConfig
  let format ← Format.fromStr args.outputFormat
  let characterFilters ← args.characterFilters.mapM env.charFlag
  let tokenFilters ← args.tokenFilters.mapM env.tokenFlag
  return (⟨characterFilters, ⟨dictionary, user, args.mode⟩, tokenFilters⟩, format)

/-- The input, `main.rs` lines 231-238. -/
def AnalyzerEnv.input (env : AnalyzerEnv) (stdin : List UInt8) (args : TokenizeArgs) : R (List UInt8) :=
  match args.inputFile with
  | some path => env.load.readFile path
  | none => .ok stdin

/-- `tokenize`, `main.rs` lines 180-280. -/
def AnalyzerEnv.cliTokenize (env : AnalyzerEnv) (pretty : Json → Str) (stdin : List UInt8) (args : TokenizeArgs) : Run :=
  match (do let a ← env.cliAnalyzer args; let input ← env.input stdin args; return (a, input) : R ((Analyzer × Format) × List UInt8)) with
  | .ok ((analyzer, format), input) => cliLoop analyzer.analyze format pretty (readLines input)
  | .error e => ([], .error e)

end Verif.Model
