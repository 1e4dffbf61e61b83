import Verif.Model.Config
/-!
The JSON forms of the configurations, and file extensions, stated independently of the code that reads them.
-/
namespace Verif.Spec
open Verif.Model

/-! ### Cargo features -/

/-- The dictionary of this kind is compiled into the program: the feature of the same name is on. -/
def CompiledIn (f : Features) : DictionaryKind → Prop
  | .ipadic => f.ipadic = true
  | .ipadicNeologd => f.ipadicNeologd = true
  | .unidic => f.unidic = true
  | .koDic => f.koDic = true
  | .ccCedict => f.ccCedict = true

/-! ### File extensions -/

/-- What may follow the last component of a path without changing what it names: slashes, and `/.`. -/
inductive Trailing : Path → Prop
  | nil : Trailing []
  | slash {t} : Trailing t → Trailing (0x2F :: t)
  | dot {t} : Trailing t → Trailing (0x2F :: 0x2E :: t)

/-- The path names a file with this extension: its last component is a non-empty stem, a dot and the extension. -/
def HasExtension (p ext : Path) : Prop :=
  ∃ dir stem trail, p = dir ++ (stem ++ 0x2E :: ext) ++ trail ∧ (dir = [] ∨ ∃ d, dir = d ++ [0x2F]) ∧
    stem ≠ [] ∧ 0x2F ∉ stem ∧ 0x2F ∉ ext ∧ 0x2E ∉ ext ∧ Trailing trail

/-! ### JSON forms -/

/-- The member `name` of an object: it occurs at most once, and its value, if there is one, is as `P` says. -/
def Member (kvs : List (Str × Json)) (name : String) (P : Option Json → Prop) : Prop :=
  (∃ v, kvs.filter (fun p => p.1 = name.toList) = [(name.toList, v)] ∧ P (some v)) ∨ (name.toList ∉ kvs.map (·.1) ∧ P none)

/-- A value that may be missing or null. -/
def OptValue {α : Type} (V : Json → α → Prop) (v : Option Json) (o : Option α) : Prop :=
  ((v = none ∨ v = some .null) ∧ o = none) ∨ ∃ j a, v = some j ∧ j ≠ .null ∧ V j a ∧ o = some a

/-- A value that must be there. -/
def ReqValue {α : Type} (V : Json → α → Prop) (v : Option Json) (a : α) : Prop := ∃ j, v = some j ∧ V j a

/-- The names of the dictionary kinds. -/
def kindName : DictionaryKind → String
  | .ipadic => "ipadic"
  | .ipadicNeologd => "ipadic-neologd"
  | .unidic => "unidic"
  | .koDic => "ko-dic"
  | .ccCedict => "cc-cedict"

/-- A dictionary kind: its name, as a string or as the only key of an object with a null value. -/
def KindValue (j : Json) (k : DictionaryKind) : Prop := j = .str (kindName k).toList ∨ j = .obj [((kindName k).toList, .null)]

/-- A path: a string. -/
def PathValue (j : Json) (p : Path) : Prop := ∃ s, j = .str s ∧ p = utf8 s

/-- A dictionary configuration: an object (or an array with `kind` and `path`), in which other members are ignored. -/
def DictionaryValue (j : Json) (c : DictionaryConfig) : Prop :=
  (∃ kvs, j = .obj kvs ∧ Member kvs "kind" (OptValue KindValue · c.kind) ∧ Member kvs "path" (OptValue PathValue · c.path)) ∨
  (∃ k p, j = .arr [k, p] ∧ OptValue KindValue (some k) c.kind ∧ OptValue PathValue (some p) c.path)

/-- A user dictionary configuration. -/
def UserValue (j : Json) (c : UserDictionaryConfig) : Prop :=
  (∃ kvs, j = .obj kvs ∧ Member kvs "path" (ReqValue PathValue · c.path) ∧ Member kvs "kind" (OptValue KindValue · c.kind)) ∨
  (∃ p k, j = .arr [p, k] ∧ PathValue p c.path ∧ OptValue KindValue (some k) c.kind)

/-- A threshold: a non-negative integer of 64 bits. -/
def NatValue (j : Json) (n : Nat) : Prop := n < 2 ^ 64 ∧ j = .int n

/-- A penalty: a signed integer of 32 bits. -/
def IntValue (j : Json) (n : Int32) : Prop := j = .int n.toInt

/-- The penalties of the decompose mode. -/
def PenaltyValue (j : Json) (p : Penalty) : Prop :=
  (∃ kvs, j = .obj kvs ∧ Member kvs "kanji_penalty_length_threshold" (ReqValue NatValue · p.kanjiThreshold) ∧
    Member kvs "kanji_penalty_length_penalty" (ReqValue IntValue · p.kanjiPenalty) ∧
    Member kvs "other_penalty_length_threshold" (ReqValue NatValue · p.otherThreshold) ∧
    Member kvs "other_penalty_length_penalty" (ReqValue IntValue · p.otherPenalty)) ∨
  (∃ a b c d, j = .arr [a, b, c, d] ∧ NatValue a p.kanjiThreshold ∧ IntValue b p.kanjiPenalty ∧ NatValue c p.otherThreshold ∧ IntValue d p.otherPenalty)

/-- A mode: `"normal"`, `{"normal": null}` or `{"decompose": penalties}`. The string `"decompose"` is not one. -/
def ModeValue (j : Json) : Mode → Prop
  | .normal => j = .str "normal".toList ∨ j = .obj [("normal".toList, .null)]
  | .decompose p => ∃ v, j = .obj [("decompose".toList, v)] ∧ PenaltyValue v p

/-- The members of a tokenizer configuration: no other members, none twice, a dictionary, and optionally a user dictionary (not null) and a mode, which is normal if it is
missing. -/
structure ConfigMembers (kvs : List (Str × Json)) (c : TokenizerConfig) : Prop where
  nodup : (kvs.map (·.1)).Nodup
  known : ∀ k ∈ kvs.map (·.1), k = "dictionary".toList ∨ k = "user_dictionary".toList ∨ k = "mode".toList
  dictionary : ∃ v, ("dictionary".toList, v) ∈ kvs ∧ DictionaryValue v c.dictionary
  user : ("user_dictionary".toList ∉ kvs.map (·.1) ∧ c.userDictionary = none) ∨
    ∃ v u, ("user_dictionary".toList, v) ∈ kvs ∧ UserValue v u ∧ c.userDictionary = some u
  mode : ("mode".toList ∉ kvs.map (·.1) ∧ c.mode = .normal) ∨ ∃ v, ("mode".toList, v) ∈ kvs ∧ ModeValue v c.mode

end Verif.Spec
