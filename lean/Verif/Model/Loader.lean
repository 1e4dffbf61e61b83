import Verif.Model.Config
import Verif.Model.Tokenizer
import Verif.Model.Compress
/-!
Model of `DictionaryLoader` in `lindera-dictionary/src/lib.rs`, of `load_dictionary` in the dictionary crates and of `Tokenizer::from_config` in
`lindera-tokenizer/src/tokenizer.rs`.
-/
namespace Verif.Model

/-! ### Paths (Rust `std::path`, Unix) -/

/-- `/`. -/
def slash : UInt8 := 0x2F
/-- `.`. -/
def dot : UInt8 := 0x2E

/-- `PathBuf::join` with a relative path. -/
def Path.join (p : Path) (name : Path) : Path :=
  match p.getLast? with
  | none => name
  | some c => if c = slash then p ++ name else p ++ slash :: name

/-- `Path::file_name`: the last component, unless it is the root, `.` or `..`. Empty components and `.` are skipped. -/
def Path.fileName (p : Path) : Option Path :=
  match ((splitAll (· = slash) p).filter fun c => c ≠ [] && c ≠ [dot]).getLast? with
  | some c => if c = [dot, dot] then none else some c
  | none => none

/-- `rsplit_file_at_dot`: the stem and the extension of a file name. -/
def rsplitAtDot (file : Path) : Path × Option Path :=
  if file = [dot, dot] then (file, none)
  else if dot ∉ file then (file, none)
  else
    let before := (file.reverse.dropWhile (· ≠ dot)).tail.reverse
    if before = [] then (file, none) else (before, some (file.reverse.takeWhile (· ≠ dot)).reverse)

/-- `Path::extension`. -/
def Path.extension (p : Path) : Option Path := p.fileName.bind fun f => (rsplitAtDot f).2

/-! ### Loading -/

/-- What loading depends on: the compiled-in features, the dictionaries of the dictionary crates, the files, the double-array crate `yada` and the splitting of CSV
text into records (crate `csv`; `none`: malformed). -/
structure LoadEnv where
  features : Features
  builtin : DictionaryKind → R Dictionary
  files : Path → Option (List UInt8)
  format : DaFormat
  yada : DaBuilder
  csv : List UInt8 → Option (List Row)

/-- `read_file`, `lib.rs` lines 127-129. -/
def LoadEnv.readFile (env : LoadEnv) (p : Path) : R (List UInt8) :=
  match env.files p with
  | some data => .ok data
  | none => .error (.err .io)

/-- `prefix_dict`, `lib.rs` lines 131-142. -/
def LoadEnv.prefixDict (env : LoadEnv) (dir : Path) : R PrefixDict := do
  let da ← env.readFile (dir.join (utf8 "dict.da".toList))
  let vals ← env.readFile (dir.join (utf8 "dict.vals".toList))
  return ⟨env.format.view da, vals, true⟩

/-- `connection`, `lib.rs` lines 144-149. -/
def LoadEnv.connection (env : LoadEnv) (dir : Path) : R ConnMatrix := do
  let data ← env.readFile (dir.join (utf8 "matrix.mtx".toList))
  ConnMatrix.load data

/-- `char_def`, `lib.rs` lines 151-156. -/
def LoadEnv.charDef (env : LoadEnv) (dir : Path) : R CharDefs := do
  let data ← env.readFile (dir.join (utf8 "char_def.bin".toList))
  CharDefs.load data

/-- `unknown_dict`, `lib.rs` lines 158-163. -/
def LoadEnv.unknownDict (env : LoadEnv) (dir : Path) : R UnkDict := do
  let data ← env.readFile (dir.join (utf8 "unk.bin".toList))
  UnkDict.load data

/-- `words_idx_data`, `lib.rs` lines 165-168. -/
def LoadEnv.wordsIdxData (env : LoadEnv) (dir : Path) : R (List UInt8) := env.readFile (dir.join (utf8 "dict.wordsidx".toList))

/-- `words_data`, `lib.rs` lines 170-173. -/
def LoadEnv.wordsData (env : LoadEnv) (dir : Path) : R (List UInt8) := env.readFile (dir.join (utf8 "dict.words".toList))

/-- `load_dictionary`, `lib.rs` lines 175-184. -/
def LoadEnv.loadDictionary (env : LoadEnv) (path : Path) : R Dictionary := do
  let dict ← env.prefixDict path
  let costMatrix ← env.connection path
  let charDefinitions ← env.charDef path
  let unknownDictionary ← env.unknownDict path
  let wordsIdxData ← env.wordsIdxData path
  let wordsData ← env.wordsData path
  return ⟨dict, costMatrix, charDefinitions, unknownDictionary, wordsIdxData, wordsData⟩

/-- `.map_err(|e| kind.with_error(e))`: an error gets another kind; a panic stays a panic. -/
def mapErr {α : Type} (kind : ErrKind) : R α → R α
  | .error (.err _) => .error (.err kind)
  | r => r

/-- `load_dictionary_from_kind`, `lib.rs` lines 186-208. -/
def LoadEnv.loadFromKind (env : LoadEnv) (kind : DictionaryKind) : R Dictionary :=
  if env.features.has kind then mapErr .dictionaryNotFound (env.builtin kind) else .error (.err .args)

/-- `load_dictionary_from_config`, `lib.rs` lines 210-229. -/
def LoadEnv.loadFromConfig (env : LoadEnv) (c : DictionaryConfig) : R Dictionary :=
  match c.kind with
  | some kind => env.loadFromKind kind
  | none =>
    match c.path with
    | some path => env.loadDictionary path
    | none => .error (.err .args)

/-- `UserDictBuilder::build` of a kind's builder on a file, `lindera-dictionary-builder/src/user_dict.rs` lines 41-55, and the rest of `build`. -/
def LoadEnv.buildUserDict (env : LoadEnv) (kind : DictionaryKind) (path : Path) : R UserDictionary := do
  let data ← env.readFile path
  match env.csv data with
  | some rows => Model.buildUserDict env.yada (UserCfg.ofKind kind) rows
  | none => .error (.err .content)

/-- `load_user_dictionary_from_csv`, `lib.rs` lines 231-239 (`resolve_builder`, lines 111-121, selects the kind's builder and does not fail). -/
def LoadEnv.loadUserFromCsv (env : LoadEnv) (kind : DictionaryKind) (path : Path) : R UserDictionary :=
  mapErr .dictionaryBuildError (env.buildUserDict kind path)

/-- `load_user_dictionary_from_bin`, `lib.rs` lines 241-243. -/
def LoadEnv.loadUserFromBin (env : LoadEnv) (path : Path) : R UserDictionary := do
  let data ← env.readFile path
  UserDictionary.load env.format data

/-- `load_user_dictionary_from_config`, `lib.rs` lines 245-264. -/
def LoadEnv.loadUserFromConfig (env : LoadEnv) (c : UserDictionaryConfig) : R UserDictionary :=
  match c.path.extension with
  | some ext =>
    if decodeUtf8 ext = some "csv".toList then
      match c.kind with
      | some kind => env.loadUserFromCsv kind c.path
      | none => .error (.err .args)
    else if decodeUtf8 ext = some "bin".toList then env.loadUserFromBin c.path
    else .error (.err .args)
  | none => .error (.err .args)

/-- The optional user dictionary, `tokenizer.rs` lines 180-185. -/
def LoadEnv.loadUser (env : LoadEnv) : Option UserDictionaryConfig → R (Option UserDictionary)
  | some c => do
    let u ← env.loadUserFromConfig c
    return some u
  | none => .ok none

/-- `Tokenizer::from_config`, `tokenizer.rs` lines 177-188. -/
def LoadEnv.tokenizer (env : LoadEnv) (c : TokenizerConfig) : R Tokenizer := do
  let dictionary ← env.loadFromConfig c.dictionary
  let user ← env.loadUser c.userDictionary
  return ⟨dictionary, user, c.mode⟩

/-! ### The dictionary crates -/

/-- The seven files of a compiled dictionary, as bytes. -/
structure DictData where
  charDef : List UInt8
  unk : List UInt8
  da : List UInt8
  vals : List UInt8
  wordsIdx : List UInt8
  words : List UInt8
  matrix : List UInt8

/-- `load_dictionary` of a dictionary crate, `lindera-ipadic/src/lib.rs` lines 90-99 and 101-150 (the same in the other four), on the embedded files. -/
def DictData.loadBuiltin (d : DictData) (feature : Bool) (fl : Flate) (format : DaFormat) : R Dictionary := do
  let da ← loadEmbedded feature fl d.da
  let vals ← loadEmbedded feature fl d.vals
  let matrix ← loadEmbedded feature fl d.matrix
  let costMatrix ← ConnMatrix.load matrix
  let charDef ← loadEmbedded feature fl d.charDef
  let charDefinitions ← CharDefs.load charDef
  let unk ← loadEmbedded feature fl d.unk
  let unknownDictionary ← UnkDict.load unk
  let wordsIdx ← loadEmbedded feature fl d.wordsIdx
  let words ← loadEmbedded feature fl d.words
  return ⟨⟨format.view da, vals, true⟩, costMatrix, charDefinitions, unknownDictionary, wordsIdx, words⟩

end Verif.Model
