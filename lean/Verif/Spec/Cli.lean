import Verif.Model.Cli
import Verif.Spec.Text
/-! What the command line tool prints, stated independently of the code. -/
namespace Verif.Spec
open Verif.Model

/-- The pieces of an input that end with `nl`, and what remains after the last. -/
inductive Lines {α : Type} (nl : α) : List α → List (List α) → Prop
  | nil : Lines nl [] []
  | last {l} : l ≠ [] → nl ∉ l → Lines nl l [l]
  | cons {l rest ls} : nl ∉ l → Lines nl rest ls → Lines nl (l ++ nl :: rest) ((l ++ [nl]) :: ls)

/-- One line of the MeCab format: the text, a tab, the details separated by commas. -/
def mecabLine (t : FToken) : Str := t.text ++ "\t".toList ++ ",".toList.intercalate t.details ++ "\n".toList

/-- The MeCab format: one line per token and the line `EOS`. -/
def mecabText (tokens : List FToken) : Str := tokens.flatMap mecabLine ++ "EOS\n".toList

/-- The wakati format: the texts separated by single spaces, and a line end. -/
def wakatiText (tokens : List FToken) : Str := " ".toList.intercalate (tokens.map (·.text)) ++ "\n".toList

/-- The JSON format: a list of objects with the byte range, the details, the text and the word id of each token. -/
def tokensDoc (tokens : List FToken) : Json :=
  .arr (tokens.map fun t => .obj [("byte_end".toList, .int t.byteEnd), ("byte_start".toList, .int t.byteStart), ("details".toList, .arr (t.details.map .str)),
    ("text".toList, .str t.text), ("word_id".toList, .arr [.int t.wordId.id.toNat, .bool t.wordId.sys])])

end Verif.Spec
