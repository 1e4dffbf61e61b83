import Verif.Model.Json
/-!
Model of the text syntax of `serde_json` 1.0 (external crate, not part of `/repo`): `from_slice::<Value>` as in `lindera-analyzer/src/analyzer.rs` line 26 and `lindera-filter/src/lib.rs` line 13, and
`to_string_pretty`, as in `lindera-cli/src/main.rs` line 157. Parsing gives the tree of the text (see `Json`). Documents may be nested 127 deep (`remaining_depth: 128`).
-/
namespace Verif.Model

/-- `parse_whitespace` skips these. -/
def isJsonSpace (c : Char) : Bool := c == ' ' || c == '\n' || c == '\t' || c == '\r'

/-- `parse_whitespace`. -/
def skipSpace (s : Str) : Str := s.dropWhile isJsonSpace

/-- `b'0'..=b'9'`. -/
def isJsonDigit (c : Char) : Bool := 48 ≤ c.toNat && c.toNat ≤ 57

/-- `significand * 10 + digit`. -/
def significand (ds : Str) : Nat := ds.foldl (fun n c => n * 10 + (c.toNat - 48)) 0

/-- The `.` and digits of `parse_decimal`: the text and the rest; `none`: no digit after the point. -/
def jsonFraction : Str → Option (Str × Str)
  | '.' :: s => if s.takeWhile isJsonDigit = [] then none else some ('.' :: s.takeWhile isJsonDigit, s.dropWhile isJsonDigit)
  | s => some ([], s)

/-- The sign of an exponent. -/
def jsonExpSign : Str → Str × Str
  | '+' :: s => (['+'], s)
  | '-' :: s => (['-'], s)
  | s => ([], s)

/-- `parse_exponent`, likewise. -/
def jsonExponent : Str → Option (Str × Str)
  | [] => some ([], [])
  | e :: s =>
    if e = 'e' ∨ e = 'E' then
      let sg := jsonExpSign s
      if sg.2.takeWhile isJsonDigit = [] then none else some (e :: (sg.1 ++ sg.2.takeWhile isJsonDigit), sg.2.dropWhile isJsonDigit)
    else some ([], e :: s)

/-- `parse_integer` and `parse_number` after the sign. A leading zero is not followed by digits. Integers become `u64`, negative ones `i64`; larger ones, minus zero and those with a fraction or an exponent
become `f64`, which fails if the number is too large: `finite` (not modelled) decides this for the text of the number. -/
def jsonNumber (finite : Str → Bool) (neg : Bool) (s : Str) : Option (Json × Str) :=
  let ds := s.takeWhile isJsonDigit
  if ds = [] ∨ (ds.head? = some '0' ∧ ds ≠ ['0']) then none
  else
    match jsonFraction (s.dropWhile isJsonDigit) with
    | none => none
    | some (fp, s1) =>
      match jsonExponent s1 with
      | none => none
      | some (ep, rest) =>
        let n := significand ds
        if fp = [] ∧ ep = [] ∧ neg = false ∧ n < 2 ^ 64 then some (.int n, rest)
        else if fp = [] ∧ ep = [] ∧ neg = true ∧ 0 < n ∧ n ≤ 2 ^ 63 then some (.int (-(n : Int)), rest)
        else if finite ((if neg then ['-'] else []) ++ ds ++ fp ++ ep) then some (.float, rest)
        else none

/-- `decode_hex_escape`: four hexadecimal digits in either case. -/
def jsonHex4 : Str → Option (Nat × Str)
  | a :: b :: c :: d :: s =>
    match digitVal 16 a, digitVal 16 b, digitVal 16 c, digitVal 16 d with
    | some w, some x, some y, some z => some (((w * 16 + x) * 16 + y) * 16 + z, s)
    | _, _, _, _ => none
  | _ => none

/-- `parse_escape` after the backslash: the character and the rest. A lone surrogate is an error. -/
def jsonEscape : Str → Option (Char × Str)
  | '"' :: s => some ('"', s)
  | '\\' :: s => some ('\\', s)
  | '/' :: s => some ('/', s)
  | 'b' :: s => some ('\x08', s)
  | 'f' :: s => some ('\x0c', s)
  | 'n' :: s => some ('\n', s)
  | 'r' :: s => some ('\r', s)
  | 't' :: s => some ('\t', s)
  | 'u' :: s =>
    match jsonHex4 s with
    | none => none
    | some (n, s1) =>
      if 0xDC00 ≤ n ∧ n ≤ 0xDFFF then none
      else if 0xD800 ≤ n ∧ n ≤ 0xDBFF then
        match s1 with
        | '\\' :: 'u' :: s2 =>
          match jsonHex4 s2 with
          | some (m, s3) => if 0xDC00 ≤ m ∧ m ≤ 0xDFFF then some (Char.ofNat ((n - 0xD800) * 1024 + (m - 0xDC00) + 0x10000), s3) else none
          | none => none
        | _ => none
      else some (Char.ofNat n, s1)
  | _ => none

/-- `parse_str` after the opening quotation mark. Control characters must be escaped. The first argument bounds the number of characters. -/
def jsonString : Nat → Str → Option (Str × Str)
  | 0, _ => none
  | _ + 1, [] => none
  | n + 1, c :: s =>
    if c = '"' then some ([], s)
    else if c = '\\' then
      match jsonEscape s with
      | some (x, s1) => (jsonString n s1).map fun r => (x :: r.1, r.2)
      | none => none
    else if c.toNat < 0x20 then none
    else (jsonString n s).map fun r => (c :: r.1, r.2)

mutual
/-- `deserialize_any` for `Value`. The first argument bounds the recursion; the second is `remaining_depth`. -/
def jsonValue (finite : Str → Bool) : Nat → Nat → Str → Option (Json × Str)
  | 0, _, _ => none
  | n + 1, d, s =>
    match skipSpace s with
    | 'n' :: 'u' :: 'l' :: 'l' :: r => some (.null, r)
    | 't' :: 'r' :: 'u' :: 'e' :: r => some (.bool true, r)
    | 'f' :: 'a' :: 'l' :: 's' :: 'e' :: r => some (.bool false, r)
    | '"' :: r => (jsonString (r.length + 1) r).map fun p => (.str p.1, p.2)
    | '[' :: r =>
      if d ≤ 1 then none
      else if (skipSpace r).head? = some ']' then some (.arr [], (skipSpace r).tail)
      else (jsonElements finite n (d - 1) r).map fun p => (.arr p.1, p.2)
    | '{' :: r =>
      if d ≤ 1 then none
      else if (skipSpace r).head? = some '}' then some (.obj [], (skipSpace r).tail)
      else (jsonMembers finite n (d - 1) r).map fun p => (.obj p.1, p.2)
    | '-' :: r => jsonNumber finite true r
    | r => jsonNumber finite false r
/-- `SeqAccess` up to and with the closing bracket; there is at least one element. -/
def jsonElements (finite : Str → Bool) : Nat → Nat → Str → Option (List Json × Str)
  | 0, _, _ => none
  | n + 1, d, s =>
    match jsonValue finite n d s with
    | none => none
    | some (j, s1) =>
      match skipSpace s1 with
      | ',' :: s2 => (jsonElements finite n d s2).map fun p => (j :: p.1, p.2)
      | ']' :: s2 => some ([j], s2)
      | _ => none
/-- `MapAccess`, likewise. -/
def jsonMembers (finite : Str → Bool) : Nat → Nat → Str → Option (List (Str × Json) × Str)
  | 0, _, _ => none
  | n + 1, d, s =>
    match skipSpace s with
    | '"' :: r =>
      match jsonString (r.length + 1) r with
      | none => none
      | some (k, s1) =>
        match skipSpace s1 with
        | ':' :: s2 =>
          match jsonValue finite n d s2 with
          | none => none
          | some (j, s3) =>
            match skipSpace s3 with
            | ',' :: s4 => (jsonMembers finite n d s4).map fun p => ((k, j) :: p.1, p.2)
            | '}' :: s4 => some ([(k, j)], s4)
            | _ => none
        | _ => none
    | _ => none
end

/-- `from_str::<Value>`: one value and white space. -/
def parseJson (finite : Str → Bool) (s : Str) : Option Json :=
  match jsonValue finite (s.length + 1) 128 s with
  | some (j, rest) => if skipSpace rest = [] then some j else none
  | none => none

/-- `from_slice::<Value>`: bytes that are not UTF-8 can only be inside of a string, where they are an error, or in a wrong place. -/
def parseJsonBytes (finite : Str → Bool) (data : List UInt8) : Option Json := (decodeUtf8 data).bind (parseJson finite)

/-! ### Printing -/

/-- A decimal digit. -/
def digitChar (n : Nat) : Char := Char.ofNat (48 + n)

/-- Crate `itoa`: the decimal digits of a number. The first argument bounds their number. -/
def showDigits : Nat → Nat → Str
  | 0, _ => []
  | k + 1, n => if n < 10 then [digitChar n] else showDigits k (n / 10) ++ [digitChar (n % 10)]

/-- The decimal digits of a number. -/
def showNat (n : Nat) : Str := showDigits (n + 1) n

/-- `write_i64`, `write_u64`. -/
def showInt (n : Int) : Str := if 0 ≤ n then showNat n.toNat else '-' :: showNat n.natAbs

/-- `HEX_DIGITS`. -/
def hexChar (n : Nat) : Char := if n < 10 then Char.ofNat (48 + n) else Char.ofNat (87 + n)

/-- One character in `format_escaped_str`: the table `ESCAPE` and `write_char_escape`. -/
def escapeChar (c : Char) : Str :=
  if c = '"' then ['\\', '"']
  else if c = '\\' then ['\\', '\\']
  else if c = '\x08' then ['\\', 'b']
  else if c = '\x0c' then ['\\', 'f']
  else if c = '\n' then ['\\', 'n']
  else if c = '\r' then ['\\', 'r']
  else if c = '\t' then ['\\', 't']
  else if c.toNat < 0x20 then ['\\', 'u', '0', '0', hexChar (c.toNat / 16), hexChar (c.toNat % 16)]
  else [c]

/-- `format_escaped_str`. -/
def showString (s : Str) : Str := '"' :: s.flatMap escapeChar ++ ['"']

/-- `Formatter` (trait): what is written before an element or member, and before the closing bracket, at a level of nesting; and between a key and its value. -/
structure JsonFormat where
  newLine : Nat → Str
  colon : Str

/-- `PrettyFormatter`: a new line and two spaces for each level. -/
def JsonFormat.pretty : JsonFormat := ⟨fun level => '\n' :: List.replicate (2 * level) ' ', [':', ' ']⟩

/-- `CompactFormatter`. -/
def JsonFormat.compact : JsonFormat := ⟨fun _ => [], [':']⟩

mutual
/-- `Serialize for Value` at a level of nesting. The model has no value for numbers that are not integers of 64 bits and prints all of them as `0.0`; lindera prints no such number. -/
def jsonText (f : JsonFormat) : Nat → Json → Str
  | _, .null => "null".toList
  | _, .bool true => "true".toList
  | _, .bool false => "false".toList
  | _, .int n => showInt n
  | _, .float => "0.0".toList
  | _, .str s => showString s
  | _, .arr [] => "[]".toList
  | l, .arr (x :: xs) => '[' :: (f.newLine (l + 1) ++ jsonText f (l + 1) x ++ jsonTextRest f (l + 1) xs ++ f.newLine l) ++ [']']
  | _, .obj [] => "{}".toList
  | l, .obj ((k, x) :: kvs) => '{' :: (f.newLine (l + 1) ++ showString k ++ f.colon ++ jsonText f (l + 1) x ++ jsonTextPairs f (l + 1) kvs ++ f.newLine l) ++ ['}']
/-- The elements after the first. -/
def jsonTextRest (f : JsonFormat) : Nat → List Json → Str
  | _, [] => []
  | l, x :: xs => ',' :: (f.newLine l ++ jsonText f l x) ++ jsonTextRest f l xs
/-- The members after the first. -/
def jsonTextPairs (f : JsonFormat) : Nat → List (Str × Json) → Str
  | _, [] => []
  | l, (k, x) :: kvs => ',' :: (f.newLine l ++ showString k ++ f.colon ++ jsonText f l x) ++ jsonTextPairs f l kvs
end

/-- `serde_json::to_string_pretty`. -/
def prettyJson (j : Json) : Str := jsonText .pretty 0 j

/-- `serde_json::to_vec`, before the encoding in UTF-8. -/
def compactJson (j : Json) : Str := jsonText .compact 0 j

end Verif.Model
