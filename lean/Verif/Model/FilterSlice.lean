import Verif.Model.AnalyzerConfig
/-!
Model of the `from_slice` functions of the filters and of their configurations in `lindera-filter/src/character_filter/` and `lindera-filter/src/token_filter/`.

Most of them call `serde_json::from_slice` with the type of the configuration, so that the members of the object that are not fields are never turned into a `Value` but are skipped by
`Deserializer::ignore_value` of `serde_json`, which is laxer: it has no limit on the depth, does not look at the size of numbers, and does not pair surrogates. Simplification: the model decodes
UTF-8 first, while `ignore_value` also accepts strings that are not UTF-8.
-/
namespace Verif.Model

/-! ### `ignore_value` -/

/-- `ignore_escape` after the backslash. -/
def skipEscape : Str → Option Str
  | 'u' :: s => (jsonHex4 s).map (·.2)
  | c :: s => if c ∈ ['"', '\\', '/', 'b', 'f', 'n', 'r', 't'] then some s else none
  | [] => none

/-- `ignore_str` after the opening quotation mark. The first argument bounds the number of characters. -/
def skipString : Nat → Str → Option Str
  | 0, _ => none
  | _ + 1, [] => none
  | n + 1, c :: s =>
    if c = '"' then some s
    else if c = '\\' then (skipEscape s).bind (skipString n)
    else if c.toNat < 0x20 then none
    else skipString n s

/-- `ignore_integer`, `ignore_decimal` and `ignore_exponent`, after the sign. -/
def skipNumber (s : Str) : Option Str :=
  let ds := s.takeWhile isJsonDigit
  if ds = [] ∨ (ds.head? = some '0' ∧ ds ≠ ['0']) then none
  else (jsonFraction (s.dropWhile isJsonDigit)).bind fun p => (jsonExponent p.2).map (·.2)

mutual
/-- `ignore_value`, written recursively (in the code a stack of open brackets). The first argument bounds the recursion; there is no limit on the depth. -/
def skipValue : Nat → Str → Option Str
  | 0, _ => none
  | n + 1, s =>
    match skipSpace s with
    | 'n' :: 'u' :: 'l' :: 'l' :: r => some r
    | 't' :: 'r' :: 'u' :: 'e' :: r => some r
    | 'f' :: 'a' :: 'l' :: 's' :: 'e' :: r => some r
    | '"' :: r => skipString (r.length + 1) r
    | '[' :: r => if (skipSpace r).head? = some ']' then some (skipSpace r).tail else skipElements n r
    | '{' :: r => if (skipSpace r).head? = some '}' then some (skipSpace r).tail else skipMembers n r
    | '-' :: r => skipNumber r
    | r => skipNumber r
/-- The elements of an array up to and with the closing bracket. -/
def skipElements : Nat → Str → Option Str
  | 0, _ => none
  | n + 1, s =>
    match skipValue n s with
    | none => none
    | some s1 =>
      match skipSpace s1 with
      | ',' :: s2 => skipElements n s2
      | ']' :: s2 => some s2
      | _ => none
/-- The members of an object, likewise. -/
def skipMembers : Nat → Str → Option Str
  | 0, _ => none
  | n + 1, s =>
    match skipSpace s with
    | '"' :: r =>
      match skipString (r.length + 1) r with
      | none => none
      | some s1 =>
        match skipSpace s1 with
        | ':' :: s2 =>
          match skipValue n s2 with
          | none => none
          | some s3 =>
            match skipSpace s3 with
            | ',' :: s4 => skipMembers n s4
            | '}' :: s4 => some s4
            | _ => none
        | _ => none
    | _ => none
end

/-! ### Derived `Deserialize` from a text -/

/-- The value of a member: read if it is a field, otherwise skipped. -/
def configMember (finite : Str → Bool) (names : List Str) (n : Nat) (key : Str) (s : Str) : Option (List (Str × Json) × Str) :=
  if key ∈ names then (jsonValue finite n 127 s).map fun p => ([(key, p.1)], p.2)
  else (skipValue n s).map fun r => ([], r)

/-- `visit_map` of a derived `Deserialize` with the fields `names`, up to and with the closing bracket; there is at least one member. The result are the members that are fields. The text of a field's
value is read as any value, not as a value of the field's type: reading the type afterwards (`De`) fails in the same cases. -/
def configMembers (finite : Str → Bool) (names : List Str) : Nat → Str → Option (List (Str × Json) × Str)
  | 0, _ => none
  | n + 1, s =>
    match skipSpace s with
    | '"' :: r =>
      match jsonString (r.length + 1) r with
      | none => none
      | some (k, s1) =>
        match skipSpace s1 with
        | ':' :: s2 =>
          match configMember finite names n k s2 with
          | none => none
          | some (kvs, s3) =>
            match skipSpace s3 with
            | ',' :: s4 => (configMembers finite names n s4).map fun p => (kvs ++ p.1, p.2)
            | '}' :: s4 => some (kvs, s4)
            | _ => none
        | _ => none
    | _ => none

/-- `deserialize_struct` of `serde_json`: an object or an array. -/
def configValue (finite : Str → Bool) (names : List Str) (s : Str) : Option (Json × Str) :=
  match skipSpace s with
  | '{' :: r =>
    if (skipSpace r).head? = some '}' then some (.obj [], (skipSpace r).tail)
    else (configMembers finite names (r.length + 1) r).map fun p => (.obj p.1, p.2)
  | '[' :: r => jsonValue finite (r.length + 2) 128 ('[' :: r)
  | _ => none

/-- `serde_json::from_slice` for a struct with the fields `names`: the document with the members that are fields, and white space. -/
def parseConfig (finite : Str → Bool) (names : List Str) (data : List UInt8) : Option Json :=
  (decodeUtf8 data).bind fun s =>
    match configValue finite names s with
    | some (j, rest) => if skipSpace rest = [] then some j else none
    | none => none

/-! ### Filters -/

/-- The fields of the configuration of a character filter: `japanese_iteration_mark.rs` lines 61-65, `mapping.rs` lines 15-18, `regex.rs` lines 12-16, `unicode_normalize.rs` lines 25-28. -/
def charFilterFields (kind : Str) : List Str :=
  if kind = "japanese_iteration_mark".toList then ["normalize_kanji".toList, "normalize_kana".toList]
  else if kind = "mapping".toList then ["mapping".toList]
  else if kind = "regex".toList then ["pattern".toList, "replacement".toList]
  else ["kind".toList]

/-- `from_slice` of a character filter, named as in the loader: `japanese_iteration_mark.rs` lines 73-78 and 101-105, `mapping.rs` lines 24-28 and 65-67, `regex.rs` lines 25-29 and 53-55,
`unicode_normalize.rs` lines 34-38 and 58-60. -/
def FilterEnv.charFilterOf (env : FilterEnv) (finite : Str → Bool) (kind : Str) (data : List UInt8) : R CharFilter :=
  match parseConfig finite (charFilterFields kind) data with
  | some j => env.charFilter kind j
  | none => .error (.err .deserialize)

/-- The fields of the configuration of a token filter (`none`: the text is read as a `Value`): `japanese_base_form.rs` and `japanese_reading_form.rs` lines 12-17, `japanese_kana.rs` lines 23-26,
`japanese_compound_word.rs` lines 15-20, `japanese_katakana_stem.rs` lines 16-25, `length.rs` lines 11-15, `mapping.rs` lines 15-18, `keep_words.rs`, `stop_words.rs`, `korean_keep_tags.rs` and
`korean_stop_tags.rs` lines 13-16. -/
def tokenFilterFields (kind : Str) : Option (List Str) :=
  if kind = "japanese_keep_tags".toList ∨ kind = "japanese_stop_tags".toList ∨ kind = "japanese_number".toList then none
  else if kind = "japanese_compound_word".toList then some ["kind".toList, "tags".toList, "new_tag".toList]
  else if kind = "japanese_katakana_stem".toList then some ["min".toList]
  else if kind = "length".toList then some ["min".toList, "max".toList]
  else if kind = "mapping".toList then some ["mapping".toList]
  else if kind = "keep_words".toList ∨ kind = "stop_words".toList then some ["words".toList]
  else if kind = "korean_keep_tags".toList ∨ kind = "korean_stop_tags".toList then some ["tags".toList]
  else some ["kind".toList]

/-- The text of a token filter's configuration as `from_slice` reads it: typed, or as a `Value` (`japanese_keep_tags.rs` and `japanese_stop_tags.rs` lines 38-43, `japanese_number.rs` lines 43-48). -/
def tokenFilterText (finite : Str → Bool) (kind : Str) (data : List UInt8) : Option Json :=
  match tokenFilterFields kind with
  | some names => parseConfig finite names data
  | none => (parseJsonBytes finite data).map Json.value

/-- `from_slice` of a token filter, named as in the loader, for example `length.rs` lines 22-26 and 45-47 and `japanese_compound_word.rs` lines 60-66 and 88-92. The filters `korean_reading_form`,
`lowercase` and `uppercase` have no `from_slice`. -/
def FilterEnv.tokenFilterOf (env : FilterEnv) (finite : Str → Bool) (kind : Str) (data : List UInt8) : R TokenFilter :=
  match tokenFilterText finite kind data with
  | some j => env.tokenFilter kind j
  | none => .error (.err .deserialize)

end Verif.Model
