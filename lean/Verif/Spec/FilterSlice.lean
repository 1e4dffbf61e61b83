import Verif.Spec.JsonText
/-!
The texts that the `from_slice` functions of filters accept, as relations. Nothing here refers to a parser.
-/
namespace Verif.Spec
open Verif.Model

/-! ### Values that are skipped

The syntax of JSON, without a limit on the depth and on the size of numbers, and with any four hexadecimal digits after `\u`. -/
namespace Skipped

/-- One character in a string. -/
inductive StrChar : Str → Prop
  | plain {c : Char} : c ≠ '"' → c ≠ '\\' → 0x20 ≤ c.toNat → StrChar [c]
  | short {e : Char} : e ∈ ['"', '\\', '/', 'b', 'f', 'n', 'r', 't'] → StrChar ['\\', e]
  | unit {h : Str} {n : Nat} : JsonText.Hex4 h n → StrChar ('\\' :: 'u' :: h)

/-- The characters between the quotation marks. -/
inductive Chars : Str → Prop
  | nil : Chars []
  | cons {t s : Str} : StrChar t → Chars s → Chars (t ++ s)

/-- `string`. -/
def String (t : Str) : Prop := ∃ body, t = '"' :: body ++ ['"'] ∧ Chars body

/-- `number = [ minus ] int [ frac ] [ exp ]`. -/
def Number (t : Str) : Prop :=
  ∃ sign ip fp ep, t = sign ++ (ip ++ fp ++ ep) ∧ (sign = [] ∨ sign = ['-']) ∧ JsonText.IntPart ip ∧ JsonText.Frac fp ∧ JsonText.Exp ep

mutual
/-- `value` without the white space around it. -/
inductive Value : Str → Prop
  | null : Value "null".toList
  | true : Value "true".toList
  | false : Value "false".toList
  | number {t : Str} : Number t → Value t
  | string {t : Str} : String t → Value t
  | emptyArray {w : Str} : JsonText.Space w → Value ('[' :: w ++ [']'])
  | array {t : Str} : Elements t → Value ('[' :: t ++ [']'])
  | emptyObject {w : Str} : JsonText.Space w → Value ('{' :: w ++ ['}'])
  | object {t : Str} : Members t → Value ('{' :: t ++ ['}'])
/-- `value *( value-separator value )`, with white space. -/
inductive Elements : Str → Prop
  | one {w t w' : Str} : JsonText.Space w → Value t → JsonText.Space w' → Elements (w ++ t ++ w')
  | more {w t w' s : Str} : JsonText.Space w → Value t → JsonText.Space w' → Elements s → Elements (w ++ t ++ w' ++ ',' :: s)
/-- `member *( value-separator member )`, with white space. -/
inductive Members : Str → Prop
  | one {w k w1 w2 t w' : Str} : JsonText.Space w → String k → JsonText.Space w1 → JsonText.Space w2 → Value t → JsonText.Space w' → Members (w ++ k ++ w1 ++ ':' :: w2 ++ t ++ w')
  | more {w k w1 w2 t w' s : Str} : JsonText.Space w → String k → JsonText.Space w1 → JsonText.Space w2 → Value t → JsonText.Space w' → Members s →
      Members (w ++ k ++ w1 ++ ':' :: w2 ++ t ++ w' ++ ',' :: s)
end

end Skipped

/-! ### Configurations -/
namespace ConfigText

/-- The value of a member: if the name is one of `names`, JSON of at most 126 levels, and the member is listed; otherwise something that is skipped, and nothing is listed. -/
def Value (finite : Str → Prop) (names : List Str) (key t : Str) (kvs : List (Str × Json)) : Prop :=
  (key ∈ names ∧ ∃ j, JsonText.Value finite t j ∧ Json.depth j ≤ 126 ∧ kvs = [(key, j)]) ∨ (key ∉ names ∧ Skipped.Value t ∧ kvs = [])

/-- The members of an object, and the list of those whose names are in `names`. -/
inductive Members (finite : Str → Prop) (names : List Str) : Str → List (Str × Json) → Prop
  | one {w k w1 w2 t w' key : Str} {kvs : List (Str × Json)} : JsonText.Space w → JsonText.String k key → JsonText.Space w1 → JsonText.Space w2 → Value finite names key t kvs → JsonText.Space w' →
      Members finite names (w ++ k ++ w1 ++ ':' :: w2 ++ t ++ w') kvs
  | more {w k w1 w2 t w' s key : Str} {kvs rest : List (Str × Json)} : JsonText.Space w → JsonText.String k key → JsonText.Space w1 → JsonText.Space w2 → Value finite names key t kvs →
      JsonText.Space w' → Members finite names s rest → Members finite names (w ++ k ++ w1 ++ ':' :: w2 ++ t ++ w' ++ ',' :: s) (kvs ++ rest)

/-- An object, or an array that is a JSON document of at most 127 levels. -/
inductive Body (finite : Str → Prop) (names : List Str) : Str → Json → Prop
  | emptyObject {w : Str} : JsonText.Space w → Body finite names ('{' :: w ++ ['}']) (.obj [])
  | object {t : Str} {kvs : List (Str × Json)} : Members finite names t kvs → Body finite names ('{' :: t ++ ['}']) (.obj kvs)
  | array {t : Str} {xs : List Json} : JsonText.Value finite t (.arr xs) → Json.depth (.arr xs) ≤ 127 → Body finite names t (.arr xs)

/-- Bytes that can be read as a configuration with the fields `names`: UTF-8, with white space around. -/
def File (finite : Str → Bool) (names : List Str) (data : List UInt8) (j : Json) : Prop :=
  ∃ w t w', data = utf8 (w ++ t ++ w') ∧ JsonText.Space w ∧ Body (fun t => finite t = true) names t j ∧ JsonText.Space w'

end ConfigText

/-- The character filters and the fields of their configurations. -/
def charFields : List (String × List String) :=
  [("japanese_iteration_mark", ["normalize_kanji", "normalize_kana"]), ("mapping", ["mapping"]), ("regex", ["pattern", "replacement"]), ("unicode_normalize", ["kind"])]

/-- The token filters whose texts are read field by field. -/
def tokenFields : List (String × List String) :=
  [("japanese_base_form", ["kind"]), ("japanese_compound_word", ["kind", "tags", "new_tag"]), ("japanese_kana", ["kind"]), ("japanese_katakana_stem", ["min"]), ("japanese_reading_form", ["kind"]),
   ("keep_words", ["words"]), ("korean_keep_tags", ["tags"]), ("korean_stop_tags", ["tags"]), ("length", ["min", "max"]), ("mapping", ["mapping"]), ("stop_words", ["words"])]

/-- The token filters whose texts are read as JSON first. -/
def tokenValues : List String := ["japanese_keep_tags", "japanese_number", "japanese_stop_tags"]

mutual
/-- No object in a document has two members with the same name. -/
def Json.Unrepeated : Json → Prop
  | .arr xs => UnrepeatedList xs
  | .obj kvs => (kvs.map (·.1)).Nodup ∧ UnrepeatedPairs kvs
  | _ => True
def UnrepeatedList : List Json → Prop
  | [] => True
  | x :: xs => Json.Unrepeated x ∧ UnrepeatedList xs
def UnrepeatedPairs : List (Str × Json) → Prop
  | [] => True
  | (_, x) :: kvs => Json.Unrepeated x ∧ UnrepeatedPairs kvs
end

end Verif.Spec
