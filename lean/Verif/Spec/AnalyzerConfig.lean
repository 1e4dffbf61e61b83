import Verif.Model.AnalyzerConfig
import Verif.Spec.Config
import Verif.Spec.JsonText
import Mathlib.Data.List.Forall2
/-! What the JSON configuration of an analyzer and of its filters says, stated independently of the code that reads it. -/
namespace Verif.Spec
open Verif.Model

/-! ### Documents -/

/-- The value of a member of an object: of several members with the same name, the last one counts. -/
def HasMember (j : Json) (name : String) (v : Json) : Prop :=
  ∃ pre post, j = .obj (pre ++ (name.toList, v) :: post) ∧ name.toList ∉ post.map (·.1)

/-- Two documents that differ only in the order of members with different names and in members that are overridden by a later member with the same name. -/
inductive SameDoc : Json → Json → Prop
  | refl (j) : SameDoc j j
  | symm {a b} : SameDoc a b → SameDoc b a
  | trans {a b c} : SameDoc a b → SameDoc b c → SameDoc a c
  | swap (pre p q post) : p.1 ≠ q.1 → SameDoc (.obj (pre ++ p :: q :: post)) (.obj (pre ++ q :: p :: post))
  | overridden (pre p post) : p.1 ∈ post.map (·.1) → SameDoc (.obj (pre ++ p :: post)) (.obj (pre ++ post))
  | elem (pre post) {x y} : SameDoc x y → SameDoc (.arr (pre ++ x :: post)) (.arr (pre ++ y :: post))
  | member (pre k post) {x y} : SameDoc x y → SameDoc (.obj (pre ++ (k, x) :: post)) (.obj (pre ++ (k, y) :: post))

mutual
/-- The members of every object are sorted by their names, which are distinct. -/
def Canonical : Json → Prop
  | .arr xs => CanonicalList xs
  | .obj kvs => (kvs.map (·.1)).Pairwise (fun a b => strLe a b = true ∧ a ≠ b) ∧ CanonicalMembers kvs
  | _ => True
/-- `Canonical` of each element. -/
def CanonicalList : List Json → Prop
  | [] => True
  | x :: xs => Canonical x ∧ CanonicalList xs
/-- `Canonical` of each member's value. -/
def CanonicalMembers : List (Str × Json) → Prop
  | [] => True
  | (_, v) :: rest => Canonical v ∧ CanonicalMembers rest
end

/-! ### Arguments of filters -/

/-- An object whose member `name` is as `P` says (it occurs at most once; other members are ignored), or an array of this one value. -/
def Fields1 (j : Json) (name : String) (P : Option Json → Prop) : Prop :=
  (∃ kvs, j = .obj kvs ∧ Member kvs name P) ∨ ∃ x, j = .arr [x] ∧ P (some x)

/-- The same with two members. -/
def Fields2 (j : Json) (name1 name2 : String) (P1 P2 : Option Json → Prop) : Prop :=
  (∃ kvs, j = .obj kvs ∧ Member kvs name1 P1 ∧ Member kvs name2 P2) ∨ ∃ x y, j = .arr [x, y] ∧ P1 (some x) ∧ P2 (some y)

/-- The same with three members. -/
def Fields3 (j : Json) (name1 name2 name3 : String) (P1 P2 P3 : Option Json → Prop) : Prop :=
  (∃ kvs, j = .obj kvs ∧ Member kvs name1 P1 ∧ Member kvs name2 P2 ∧ Member kvs name3 P3) ∨
  ∃ x y z, j = .arr [x, y, z] ∧ P1 (some x) ∧ P2 (some y) ∧ P3 (some z)

/-- A string. -/
def StrValue (j : Json) (s : Str) : Prop := j = .str s

/-- A truth value. -/
def BoolValue (j : Json) (b : Bool) : Prop := j = .bool b

/-- An array of strings. -/
def StrsValue (j : Json) (ss : List Str) : Prop := j = .arr (ss.map .str)

/-- The pairs that are not overridden by a later pair with the same key. -/
inductive NotOverridden : StrMap → StrMap → Prop
  | nil : NotOverridden [] []
  | keep {k v all m} : k ∉ all.map (·.1) → NotOverridden all m → NotOverridden ((k, v) :: all) ((k, v) :: m)
  | drop {k v all m} : k ∈ all.map (·.1) → NotOverridden all m → NotOverridden ((k, v) :: all) m

/-- An object of strings. -/
def StrMapValue (j : Json) (m : StrMap) : Prop := ∃ all : StrMap, j = .obj (all.map fun p => (p.1, .str p.2)) ∧ NotOverridden all m

/-- One of some names, as a string or as the only key of an object with a null value. -/
def NameValue (name : String) (j : Json) : Prop := j = .str name.toList ∨ j = .obj [(name.toList, .null)]

/-- The names of the normal forms. -/
def normalFormName : NormalForm → String
  | .nfc => "nfc"
  | .nfd => "nfd"
  | .nfkc => "nfkc"
  | .nfkd => "nfkd"

/-- The names of the kana kinds. -/
def kanaName : KanaKind → String
  | .hiragana => "hiragana"
  | .katakana => "katakana"

/-- The character filter `kind` with the arguments `args` is configured with this setting. -/
def CharSetting (kind : Str) (args : Json) : CharFilterSetting → Prop
  | .iterationMark kanji kana => kind = "japanese_iteration_mark".toList ∧
      Fields2 args "normalize_kanji" "normalize_kana" (ReqValue BoolValue · kanji) (ReqValue BoolValue · kana)
  | .mapping m => kind = "mapping".toList ∧ Fields1 args "mapping" (ReqValue StrMapValue · m)
  | .regex pattern replacement => kind = "regex".toList ∧ Fields2 args "pattern" "replacement" (ReqValue StrValue · pattern) (ReqValue StrValue · replacement)
  | .unicodeNormalize form => kind = "unicode_normalize".toList ∧ Fields1 args "kind" (ReqValue (fun j f => NameValue (normalFormName f) j) · form)

/-- The token filter `kind` with the arguments `args` is configured with this setting. -/
def TokenSetting (kind : Str) (args : Json) : TokenFilterSetting → Prop
  | .japaneseBaseForm k => kind = "japanese_base_form".toList ∧ Fields1 args "kind" (ReqValue KindValue · k)
  | .japaneseCompoundWord k tags newTag => kind = "japanese_compound_word".toList ∧
      Fields3 args "kind" "tags" "new_tag" (ReqValue KindValue · k) (ReqValue StrsValue · tags) (OptValue StrValue · newTag)
  | .japaneseKana k => kind = "japanese_kana".toList ∧ Fields1 args "kind" (ReqValue (fun j f => NameValue (kanaName f) j) · k)
  | .japaneseKatakanaStem min => kind = "japanese_katakana_stem".toList ∧ min ≠ 0 ∧
      (Fields1 args "min" (ReqValue NatValue · min) ∨ (min = 3 ∧ ((∃ kvs, args = .obj kvs ∧ "min".toList ∉ kvs.map (·.1)) ∨ args = .arr [])))
  | .japaneseKeepTags tags => kind = "japanese_keep_tags".toList ∧ HasMember args "tags" (.arr (tags.map .str))
  | .japaneseNumber tags => kind = "japanese_number".toList ∧
      ((∃ ts, tags = some ts ∧ HasMember args "tags" (.arr (ts.map .str))) ∨ (tags = none ∧ ∀ xs, ¬ HasMember args "tags" (.arr xs)))
  | .japaneseReadingForm k => kind = "japanese_reading_form".toList ∧ Fields1 args "kind" (ReqValue KindValue · k)
  | .japaneseStopTags tags => kind = "japanese_stop_tags".toList ∧ HasMember args "tags" (.arr (tags.map .str))
  | .keepWords words => kind = "keep_words".toList ∧ Fields1 args "words" (ReqValue StrsValue · words)
  | .koreanKeepTags tags => kind = "korean_keep_tags".toList ∧ Fields1 args "tags" (ReqValue StrsValue · tags)
  | .koreanReadingForm => kind = "korean_reading_form".toList
  | .koreanStopTags tags => kind = "korean_stop_tags".toList ∧ Fields1 args "tags" (ReqValue StrsValue · tags)
  | .length min max => kind = "length".toList ∧ Fields2 args "min" "max" (OptValue NatValue · min) (OptValue NatValue · max)
  | .lowercase => kind = "lowercase".toList
  | .mapping m => kind = "mapping".toList ∧ Fields1 args "mapping" (ReqValue StrMapValue · m)
  | .stopWords words => kind = "stop_words".toList ∧ Fields1 args "words" (ReqValue StrsValue · words)
  | .uppercase => kind = "uppercase".toList

/-- No Japanese part-of-speech tag of the setting has more than four parts. -/
def ShortTags : TokenFilterSetting → Prop
  | .japaneseCompoundWord _ tags newTag => (∀ tag ∈ tags, tag.count ',' ≤ 3) ∧ ∀ tag, newTag = some tag → tag.count ',' ≤ 3
  | .japaneseKeepTags tags => ∀ tag ∈ tags, tag.count ',' ≤ 3
  | .japaneseNumber tags => ∀ ts, tags = some ts → ∀ tag ∈ ts, tag.count ',' ≤ 3
  | .japaneseStopTags tags => ∀ tag ∈ tags, tag.count ',' ≤ 3
  | _ => True

/-! ### Analyzers -/

/-- An entry of a list of filters: it has a string `kind`; missing `args` are null. -/
def IsEntry (j : Json) (kind : Str) (args : Json) : Prop :=
  HasMember j "kind" (.str kind) ∧ (HasMember j "args" args ∨ ((∀ v, ¬ HasMember j "args" v) ∧ args = .null))

/-- The entries among the elements of an array. Everything else is passed over. -/
inductive Entries : List Json → List (Str × Json) → Prop
  | nil : Entries [] []
  | entry {j kind args js es} : IsEntry j kind args → Entries js es → Entries (j :: js) ((kind, args) :: es)
  | skip {j js es} : (∀ kind args, ¬ IsEntry j kind args) → Entries js es → Entries (j :: js) es

/-- The entries of the list `name` of a document; there are none if it is missing or no array. -/
def Listed (doc : Json) (name : String) (es : List (Str × Json)) : Prop :=
  (∃ xs, HasMember doc name (.arr xs) ∧ Entries xs es) ∨ ((∀ xs, ¬ HasMember doc name (.arr xs)) ∧ es = [])

/-- The analyzer has the filters that the document lists, in this order, and the tokenizer that it describes. -/
structure Configured (env : AnalyzerEnv) (doc : Json) (a : Analyzer) : Prop where
  characterFilters : ∃ es, Listed doc "character_filters" es ∧
    List.Forall₂ (fun e f => ∃ s, CharSetting e.1 e.2 s ∧ s.new env.filter = .ok f) es a.characterFilters
  tokenizer : ∃ kvs c, HasMember doc "tokenizer" (.obj kvs) ∧ ConfigMembers kvs c ∧ env.load.tokenizer c = .ok a.tokenizer
  tokenFilters : ∃ es, Listed doc "token_filters" es ∧
    List.Forall₂ (fun e f => ∃ s, TokenSetting e.1 e.2 s ∧ s.new env.filter = .ok f) es a.tokenFilters

/-- A command line flag for an entry: the kind, a colon, and the arguments as JSON text. -/
def FlagFor (env : AnalyzerEnv) (flag : Str) (entry : Str × Json) : Prop :=
  ':' ∉ entry.1 ∧ ∃ text j, flag = entry.1 ++ ':' :: text ∧ JsonText.Read env.finite text j ∧ SameDoc j entry.2 ∧ Canonical entry.2

end Verif.Spec
