import Verif.Model.Json
import Verif.Model.UserDictBuilder
import Verif.Model.Viterbi
import Verif.Model.TokenFilter
/-!
Model of the configuration types: `DictionaryKind`, `DictionaryConfig` and `UserDictionaryConfig` of `lindera-dictionary/src/lib.rs`, the (de)serialization of
`Mode` in `lindera-core/src/mode.rs` and of `TokenizerConfig` in `lindera-tokenizer/src/tokenizer.rs`.
-/
namespace Verif.Model

/-! ### Names -/

/-- `DictionaryKind::variants`, `lindera-dictionary/src/lib.rs` lines 39-41 (derived `EnumIter`: in the order of declaration). -/
def DictionaryKind.variants : List DictionaryKind := [.ipadic, .ipadicNeologd, .unidic, .koDic, .ccCedict]

/-- `cfg!(feature = ...)` for a kind, `lib.rs` lines 46-52. -/
def Features.has (f : Features) : DictionaryKind → Bool
  | .ipadic => f.ipadic
  | .ipadicNeologd => f.ipadicNeologd
  | .unidic => f.unidic
  | .koDic => f.koDic
  | .ccCedict => f.ccCedict

/-- `DictionaryKind::contained_variants`, `lib.rs` lines 43-54. -/
def DictionaryKind.containedVariants (f : Features) : List DictionaryKind := DictionaryKind.variants.filter f.has

/-- `DictionaryKind::as_str`, `lib.rs` lines 56-64. -/
def DictionaryKind.asStr : DictionaryKind → Str
  | .ipadic => "ipadic".toList
  | .ipadicNeologd => "ipadic-neologd".toList
  | .unidic => "unidic".toList
  | .koDic => "ko-dic".toList
  | .ccCedict => "cc-cedict".toList

/-- `DictionaryKind::from_str`, `lib.rs` lines 67-80. -/
def DictionaryKind.fromStr (s : Str) : R DictionaryKind :=
  if s = "ipadic".toList then .ok .ipadic
  else if s = "ipadic-neologd".toList then .ok .ipadicNeologd
  else if s = "unidic".toList then .ok .unidic
  else if s = "ko-dic".toList then .ok .koDic
  else if s = "cc-cedict".toList then .ok .ccCedict
  else .error (.err .dictionaryKindError)

/-- The `serde` names of the variants, `lib.rs` lines 26-35. -/
def DictionaryKind.serdeName : DictionaryKind → Str
  | .ipadic => "ipadic".toList
  | .ipadicNeologd => "ipadic-neologd".toList
  | .unidic => "unidic".toList
  | .koDic => "ko-dic".toList
  | .ccCedict => "cc-cedict".toList

/-- The variant with a `serde` name. -/
def DictionaryKind.named (s : Str) : Option DictionaryKind := DictionaryKind.variants.find? (fun k => k.serdeName == s)

/-- Derived `Deserialize` of `DictionaryKind`, `lib.rs` line 24. -/
def DictionaryKind.de : De DictionaryKind := De.unitVariant DictionaryKind.named

/-- Derived `Serialize` of `DictionaryKind`, `lib.rs` line 24. -/
def DictionaryKind.ser (k : DictionaryKind) : Json := .str k.serdeName

/-! ### Dictionary configurations -/

/-- A `PathBuf`: the bytes of a Unix path. -/
abbrev Path := List UInt8

/-- `Deserialize` of `PathBuf` (`serde`): a string. -/
def Path.de : De Path := fun j => (De.string j).map utf8

/-- `Serialize` of `PathBuf` (`serde`): an error if the path is not valid UTF-8. -/
def Path.ser (p : Path) : Option Json := (decodeUtf8 p).map .str

/-- `DictionaryConfig`, `lib.rs` lines 88-94. -/
structure DictionaryConfig where
  kind : Option DictionaryKind
  path : Option Path
  deriving DecidableEq, Repr

/-- Derived `Deserialize`, `lib.rs` line 88. -/
def DictionaryConfig.de : De DictionaryConfig := fun j => do
  let fs ← De.fields ["kind".toList, "path".toList] j
  match fs with
  | [kind, path] => return ⟨← De.optional DictionaryKind.de kind, ← De.optional Path.de path⟩
  | _ => none

/-- `Serialize` of `Option<T>`. -/
def serOption {α : Type} (f : α → Option Json) : Option α → Option Json
  | none => some .null
  | some a => f a

/-- Derived `Serialize`, `lib.rs` line 88. -/
def DictionaryConfig.ser (c : DictionaryConfig) : Option Json := do
  return .obj [("kind".toList, ← serOption (fun k => some k.ser) c.kind), ("path".toList, ← serOption Path.ser c.path)]

/-- `UserDictionaryConfig`, `lib.rs` lines 100-106. -/
structure UserDictionaryConfig where
  path : Path
  kind : Option DictionaryKind
  deriving DecidableEq, Repr

/-- Derived `Deserialize`, `lib.rs` line 100. -/
def UserDictionaryConfig.de : De UserDictionaryConfig := fun j => do
  let fs ← De.fields ["path".toList, "kind".toList] j
  match fs with
  | [path, kind] => return ⟨← De.required Path.de path, ← De.optional DictionaryKind.de kind⟩
  | _ => none

/-- Derived `Serialize`, `lib.rs` line 100. -/
def UserDictionaryConfig.ser (c : UserDictionaryConfig) : Option Json := do
  return .obj [("path".toList, ← Path.ser c.path), ("kind".toList, ← serOption (fun k => some k.ser) c.kind)]

/-! ### Mode -/

/-- Derived `Deserialize` of `Penalty`, `mode.rs` line 10. -/
def Penalty.de : De Penalty := fun j => do
  let fs ← De.fields ["kanji_penalty_length_threshold".toList, "kanji_penalty_length_penalty".toList,
    "other_penalty_length_threshold".toList, "other_penalty_length_penalty".toList] j
  match fs with
  | [a, b, c, d] => return ⟨← De.required De.usize a, ← De.required De.i32 b, ← De.required De.usize c, ← De.required De.i32 d⟩
  | _ => none

/-- Derived `Serialize` of `Penalty`, `mode.rs` line 10. -/
def Penalty.ser (p : Penalty) : Json :=
  .obj [("kanji_penalty_length_threshold".toList, .int p.kanjiThreshold), ("kanji_penalty_length_penalty".toList, .int p.kanjiPenalty.toInt),
    ("other_penalty_length_threshold".toList, .int p.otherThreshold), ("other_penalty_length_penalty".toList, .int p.otherPenalty.toInt)]

/-- Derived `Deserialize` of `Mode`, `mode.rs` lines 47-53: `normal` has no data, `decompose` has a `Penalty`. -/
def Mode.de : De Mode
  | .str s => if s = "normal".toList then some .normal else none
  | .obj [(k, v)] =>
    if k = "normal".toList then (match v with | .null => some .normal | _ => none)
    else if k = "decompose".toList then (Penalty.de v).map .decompose
    else none
  | _ => none

/-- Derived `Serialize` of `Mode`, `mode.rs` line 47. -/
def Mode.ser : Mode → Json
  | .normal => .str "normal".toList
  | .decompose p => .obj [("decompose".toList, p.ser)]

/-! ### Tokenizer configuration -/

/-- `TokenizerConfig`, `tokenizer.rs` lines 15-25. -/
structure TokenizerConfig where
  dictionary : DictionaryConfig
  userDictionary : Option UserDictionaryConfig
  mode : Mode
  deriving DecidableEq, Repr

/-- `TokenizerConfig::default`, `tokenizer.rs` lines 27-40. -/
def TokenizerConfig.default : TokenizerConfig := ⟨⟨none, none⟩, none, .normal⟩

/-- The variables of `visit_map`, `tokenizer.rs` lines 114-116. -/
structure ConfigFields where
  dictionary : Option DictionaryConfig
  userDictionary : Option UserDictionaryConfig
  mode : Option Mode

/-- One iteration of the loop of `visit_map`, `tokenizer.rs` lines 117-138 and 67-77 (the field names). `none`: an error. -/
def ConfigFields.step (st : ConfigFields) (kv : Str × Json) : Option ConfigFields :=
  if kv.1 = "dictionary".toList then
    if st.dictionary.isSome then none else (DictionaryConfig.de kv.2).map fun d => { st with dictionary := some d }
  else if kv.1 = "user_dictionary".toList then
    if st.userDictionary.isSome then none else (UserDictionaryConfig.de kv.2).map fun u => { st with userDictionary := some u }
  else if kv.1 = "mode".toList then
    if st.mode.isSome then none else (Mode.de kv.2).map fun m => { st with mode := some m }
  else none

/-- The end of `visit_map`, `tokenizer.rs` lines 139-146. -/
def ConfigFields.finish (st : ConfigFields) : Option TokenizerConfig :=
  st.dictionary.map fun d => ⟨d, st.userDictionary, st.mode.getD .normal⟩

/-- `visit_map`, `tokenizer.rs` lines 110-147. -/
def TokenizerConfig.visitMap (kvs : List (Str × Json)) : Option TokenizerConfig :=
  (kvs.foldlM ConfigFields.step ⟨none, none, none⟩).bind ConfigFields.finish

/-- `visit_seq`, `tokenizer.rs` lines 93-108. `serde_json` rejects further elements. -/
def TokenizerConfig.visitSeq : List Json → Option TokenizerConfig
  | [d] => do return ⟨← DictionaryConfig.de d, none, .normal⟩
  | [d, u] => do return ⟨← DictionaryConfig.de d, ← De.option UserDictionaryConfig.de u, .normal⟩
  | [d, u, m] => do return ⟨← DictionaryConfig.de d, ← De.option UserDictionaryConfig.de u, ← Mode.de m⟩
  | _ => none

/-- `TokenizerConfig::deserialize`, `tokenizer.rs` lines 42-153. -/
def TokenizerConfig.de : De TokenizerConfig
  | .obj kvs => visitMap kvs
  | .arr xs => visitSeq xs
  | _ => none

/-- Derived `Serialize`, `tokenizer.rs` line 15. -/
def TokenizerConfig.ser (c : TokenizerConfig) : Option Json := do
  return .obj [("dictionary".toList, ← c.dictionary.ser), ("user_dictionary".toList, ← serOption UserDictionaryConfig.ser c.userDictionary),
    ("mode".toList, c.mode.ser)]

end Verif.Model
