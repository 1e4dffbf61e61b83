import Verif.Model.Json
import Verif.Model.Analyzer
import Verif.Model.Loader
/-!
Model of the command line tool, `lindera-cli/src/main.rs`. Arguments are as parsed by `clap` (external crate). Printing JSON text (`prettyJson` in `JsonText.lean`) and the
file system are parameters. What a command prints is part of its result, also if it ends with an error.
-/
namespace Verif.Model

/-- What a command has printed, and how it ended. -/
abbrev Run := Str × R Unit

/-- One command after another: the second does not run if the first fails. -/
def Run.then (a : Run) (b : Run) : Run :=
  match a.2 with
  | .ok () => (a.1 ++ b.1, b.2)
  | .error e => (a.1, .error e)

/-- `println!`. -/
def println (s : Str) : Run := (s ++ ['\n'], .ok ())

/-- `print!`. -/
def print (s : Str) : Run := (s, .ok ())

/-- `Format`, `main.rs` lines 95-101. -/
inductive Format where
  | mecab | wakati | json
  deriving DecidableEq, Repr

/-- `Format::from_str`, `main.rs` lines 103-114. -/
def Format.fromStr (s : Str) : R Format :=
  if s = "mecab".toList then .ok .mecab
  else if s = "wakati".toList then .ok .wakati
  else if s = "json".toList then .ok .json
  else .error (.err .args)

/-- `list`, `main.rs` lines 126-131. -/
def cliList (f : Features) : Run := (DictionaryKind.containedVariants f).foldr (fun k r => (println k.asStr).then r) ([], .ok ())

/-- `<[&str]>::join(sep)` (Rust alloc). -/
def joinWith (sep : Str) : List Str → Str
  | [] => []
  | [s] => s
  | s :: rest => s ++ sep ++ joinWith sep rest

/-- `token["text"].as_str().ok_or(Content)`, `main.rs` lines 135-137 and 167-169. -/
def tokenText (token : Json) : R Str :=
  match (token.index "text".toList).asStr with
  | some s => .ok s
  | none => .error (.err .content)

/-- `token["details"]` joined with commas, `main.rs` lines 138-146. -/
def tokenDetails (token : Json) : R Str :=
  match (token.index "details".toList).asArray with
  | some vs => do
    let ds ← vs.mapM fun v => orPanic v.asStr
    return joinWith [','] ds
  | none => .error (.err .content)

/-- The loop of `mecab_output`, `main.rs` lines 134-148. -/
def mecabLines : List Json → Run
  | [] => ([], .ok ())
  | token :: rest =>
    match (do let text ← tokenText token; let details ← tokenDetails token; return (text, details) : R (Str × Str)) with
    | .ok (text, details) => (println (text ++ '\t' :: details)).then (mecabLines rest)
    | .error e => ([], .error e)

/-- `mecab_output`, `main.rs` lines 133-152. -/
def mecabOutput (tokens : List Json) : Run := (mecabLines tokens).then (println "EOS".toList)

/-- `json_output`, `main.rs` lines 154-162. `pretty`: `serde_json::to_string_pretty`, which does not fail on values. -/
def jsonOutput (pretty : Json → Str) (tokens : List Json) : Run := println (pretty (.arr tokens))

/-- `wakati_output`, `main.rs` lines 164-178. -/
def wakatiOutput : List Json → Run
  | [] => ([], .ok ())
  | token :: rest =>
    match tokenText token with
    | .ok text => (if rest.isEmpty then println text else print (text ++ [' '])).then (wakatiOutput rest)
    | .error e => ([], .error e)

/-- `serde_json::json!` of a token, `main.rs` lines 256-262. The members of a `Value` are in the order of their keys. -/
def FToken.info (t : FToken) : Json :=
  .obj [("byte_end".toList, .int t.byteEnd), ("byte_start".toList, .int t.byteStart), ("details".toList, .arr (t.details.map .str)),
    ("text".toList, .str t.text), ("word_id".toList, .arr [.int t.wordId.id.toNat, .bool t.wordId.isSystem])]

/-- The output of one line, `main.rs` lines 252-276. -/
def Format.output (f : Format) (pretty : Json → Str) (tokens : List FToken) : Run :=
  match f with
  | .mecab => mecabOutput (tokens.map FToken.info)
  | .json => jsonOutput pretty (tokens.map FToken.info)
  | .wakati => wakatiOutput (tokens.map FToken.info)

/-- `BufRead::read_line` until it returns 0: the pieces ending with a line feed, and the rest if it is not empty. -/
def readLines : List UInt8 → List (List UInt8)
  | [] => []
  | b :: bs =>
    if b = 0x0A then [b] :: readLines bs
    else match readLines bs with
      | [] => [[b]]
      | l :: ls => (b :: l) :: ls

/-- The loop over the lines, `main.rs` lines 241-277. A line that is not UTF-8 is an I/O error. -/
def cliLoop (analyze : Str → R (List FToken)) (format : Format) (pretty : Json → Str) : List (List UInt8) → Run
  | [] => ([], .ok ())
  | line :: rest =>
    match decodeUtf8 line with
    | none => ([], .error (.err .io))
    | some text =>
      match analyze (trim text) with
      | .error e => ([], .error e)
      | .ok tokens => (format.output pretty tokens).then (cliLoop analyze format pretty rest)

/-! ### `build` -/

/-- `Path::file_stem`. -/
def Path.fileStem (p : Path) : Option Path := p.fileName.map fun f => (rsplitAtDot f).1

/-- `PathBuf::set_extension` with a non-empty extension, for a path that ends with its file name. -/
def Path.setExtension (p ext : Path) : Path :=
  match p.fileName with
  | none => p
  | some f => p.take (p.length - f.length) ++ (rsplitAtDot f).1 ++ dot :: ext

/-- The output file of `build` for a user dictionary, `main.rs` lines 286-292. -/
def buildOutputFile (src dest : Path) : R Path :=
  match src.fileName with
  | some f => .ok ((dest.join f).setExtension (utf8 "bin".toList))
  | none => .error (.err .io)

/-- The file `p` has the contents `data`, written by `File::create` and a flushed `BufWriter` without an I/O error. Paths are compared as bytes: links are not modelled. -/
def LoadEnv.write (env : LoadEnv) (p : Path) (data : List UInt8) : LoadEnv :=
  { env with files := fun q => if q = p then some data else env.files q }

/-- `build` for a user dictionary, `main.rs` lines 282-293, and `build_user_dictionary`, `lindera-ipadic-builder/src/ipadic_builder.rs` lines 48-51 (the same in the other three builders) and
`lindera-dictionary-builder/src/user_dict.rs` lines 164-186, when no I/O error occurs. The environment after it. -/
def LoadEnv.cliBuildUser (env : LoadEnv) (kind : DictionaryKind) (src dest : Path) : R LoadEnv := do
  let out ← buildOutputFile src dest
  let user ← env.buildUserDict kind src
  return env.write out (user.bytes env.format)

end Verif.Model
