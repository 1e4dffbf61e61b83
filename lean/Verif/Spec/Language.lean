import Mathlib.Data.List.Dedup
import Verif.Spec.Segmentation
import Verif.Spec.Tokens
import Verif.Spec.CharDef
import Verif.Spec.Unk
import Verif.Spec.Matrix
import Verif.Spec.UserDict
import Verif.Spec.Accepted
import Verif.Spec.BuildDir
/-!
What tokenization means in terms of the dictionary's source files alone: the words of the CSV files, `char.def`, `unk.def` and `matrix.def`. There are no compiled
files, ids of words or categories, lookups, lattices or back pointers here.
-/
namespace Verif.Spec
open Verif.Model

/-- A word as it may be used in a segmentation: its text, context ids and cost, and the details a token for it shows. -/
structure Item where
  surface : Str
  leftId : UInt16
  rightId : UInt16
  cost : Int16
  details : List Str
  deriving DecidableEq, Repr

/-- What the source files say. -/
structure Lexicon where
  words : List Item
  defs : List DefLine
  unk : List UnkLine
  costs : List CostLine

/-- A word of the system dictionary. -/
def SourceWord.systemItem (w : SourceWord) : Item := ⟨w.surface, w.leftId, w.rightId, w.cost, shown w.details⟩

/-- A word of the user dictionary. -/
def SourceWord.userItem (w : SourceWord) : Item := ⟨w.surface, w.leftId, w.rightId, w.cost, w.details⟩

/-- An unknown word with the text `s`: its numbers are those of a line of `unk.def`, its only detail is `UNK`. -/
def UnkLine.item (l : UnkLine) (s : Str) : Item := ⟨s, l.left, l.right, l.cost, ["UNK".toList]⟩

namespace Lexicon

/-- A dictionary word is a non-empty prefix of `rest`. -/
def KnownAt (L : Lexicon) (rest : Str) (w : Item) : Prop := w ∈ L.words ∧ w.surface ≠ [] ∧ w.surface <+: rest

/-- The character has the category at this rank. -/
def hasCategory (L : Lexicon) (name : Str) (rank : Nat) (c : Char) : Bool := (categoriesOf L.defs c.toNat)[rank]? == some name

/-- The text of an unknown word of a category: one character, or for a grouping category the maximal run of characters that have the category at the same rank. -/
def unknownText (L : Lexicon) (name : Str) (rank : Nat) (group : Bool) : Str → Str
  | [] => []
  | c :: cs => c :: (if group then cs.takeWhile (L.hasCategory name rank) else [])

/-- The category (at this rank of the next character) proposes the unknown word text `s` at `rest`: its invoke flag is set or no dictionary word starts there. -/
def Proposes (L : Lexicon) (rest : Str) (name : Str) (rank : Nat) (s : Str) : Prop :=
  ∃ c tail data, rest = c :: tail ∧ (categoriesOf L.defs c.toNat)[rank]? = some name ∧ definitionsOf L.defs name = [data] ∧
    (data.invoke = true ∨ ¬ ∃ w, L.KnownAt rest w) ∧ s = L.unknownText name rank data.group rest

/-- An unknown word that may start at `rest`. -/
def UnknownAt (L : Lexicon) (rest : Str) (w : Item) : Prop :=
  ∃ name rank s l, L.Proposes rest name rank s ∧ l ∈ L.unk ∧ l.name = name ∧ w = l.item s

/-- The end of the unknown word proposed last (over the categories in rank order) at byte `k`, if any. -/
def LastProposal (L : Lexicon) (rest : Str) (k : Nat) (o : Option Nat) : Prop :=
  (∃ name rank s, L.Proposes rest name rank s ∧ o = some (k + blen s) ∧
      ∀ name' rank' s', L.Proposes rest name' rank' s' → rank' ≤ rank) ∨
  (o = none ∧ ¬ ∃ name rank s, L.Proposes rest name rank s)

/-- `w` may be used at byte `k`, where `rest` begins; in normal mode unknown words are not looked for inside the unknown word proposed last, which ends at `latest`. -/
def WordAt (L : Lexicon) (mode : Mode) (rest : Str) (k : Nat) (latest : Option Nat) (w : Item) : Prop :=
  L.KnownAt rest w ∨ (unknownOpen mode latest k ∧ L.UnknownAt rest w)

/-- Left-to-right scan of the text: looking only at words that start before byte `k`, the bytes satisfying `reach` can be reached from the start of the text by words in use,
and `latest` is the end of the unknown word proposed last. -/
inductive Scan (L : Lexicon) (mode : Mode) (text : Str) : Nat → (Nat → Prop) → Option Nat → Prop where
  | start : Scan L mode text 0 (fun p => p = 0) none
  | skip {k reach latest} : Scan L mode text k reach latest → ¬ reach k → Scan L mode text (k + 1) reach latest
  | closed {k reach latest pre rest} : Scan L mode text k reach latest → reach k → text = pre ++ rest → blen pre = k → ¬ unknownOpen mode latest k →
      Scan L mode text (k + 1) (fun p => reach p ∨ ∃ w, L.WordAt mode rest k latest w ∧ p = k + blen w.surface) latest
  | opened {k reach latest pre rest proposal} : Scan L mode text k reach latest → reach k → text = pre ++ rest → blen pre = k → unknownOpen mode latest k →
      L.LastProposal rest k proposal →
      Scan L mode text (k + 1) (fun p => reach p ∨ ∃ w, L.WordAt mode rest k latest w ∧ p = k + blen w.surface) (proposal.or latest)

/-- `w` may be used in a segmentation of `text` after the prefix `pre`. -/
def Usable (L : Lexicon) (mode : Mode) (text pre : Str) (w : Item) : Prop :=
  ∃ rest reach latest, text = pre ++ rest ∧ Scan L mode text (blen pre) reach latest ∧ L.WordAt mode rest (blen pre) latest w

/-- `ws` segments `text` into usable words, starting after the prefix `pre`. -/
def SegFrom (L : Lexicon) (mode : Mode) (text : Str) : Str → List Item → Prop
  | pre, [] => pre = text
  | pre, w :: ws => L.Usable mode text pre w ∧ L.SegFrom mode text (pre ++ w.surface) ws

/-- `ws` is a segmentation of `text`. -/
def Segmentation (L : Lexicon) (mode : Mode) (text : Str) (ws : List Item) : Prop := L.SegFrom mode text [] ws

/-- The connection cost that `matrix.def` gives for a right context id followed by a left context id. -/
def conn (L : Lexicon) (rightId leftId : UInt16) : Int := (lastCost L.costs rightId.toNat leftId.toNat).toInt

/-- Cost of a segmentation continued after a word with right context id `right`: word costs, connection costs (the end of the sentence has context id 0) and penalties. -/
def costFrom (L : Lexicon) (mode : Mode) : UInt16 → List Item → Int
  | right, [] => L.conn right 0
  | right, w :: ws => L.conn right w.leftId + w.cost.toInt + penalty mode w.surface + L.costFrom mode w.rightId ws

/-- Total cost of a segmentation (the start of the sentence has context id 0). -/
def cost (L : Lexicon) (mode : Mode) (ws : List Item) : Int := L.costFrom mode 0 ws

/-- `w` may be used at byte `k`, where `rest` begins, because it is written at this place: as the `i`-th word with its surface (the words of the user dictionary come first, then those of the
files in the order in which they are read), or as the `i`-th line of `unk.def` for the category at this rank of the next character. -/
def WrittenAt (L : Lexicon) (mode : Mode) (rest : Str) (k : Nat) (latest : Option Nat) (w : Item) : Slot → Prop
  | .known i => w.surface ≠ [] ∧ w.surface <+: rest ∧ (L.words.filter (·.surface = w.surface))[i]? = some w
  | .unknown rank i => unknownOpen mode latest k ∧ ∃ name s l, L.Proposes rest name rank s ∧ (L.unk.filter (·.name = name))[i]? = some l ∧ w = l.item s

/-- Of two words ending at the same place in the text, `v` (after the prefix `pre` of the text) is the one to keep: it starts earlier; or it starts at the same place and is written first. -/
def ToKeep (L : Lexicon) (mode : Mode) (text pre : Str) (v v' : Item) : Prop :=
  blen v'.surface < blen v.surface ∨
  (v'.surface = v.surface ∧ ∃ rest reach latest, text = pre ++ rest ∧ L.Scan mode text (blen pre) reach latest ∧
    ∃ p, L.WrittenAt mode rest (blen pre) latest v p ∧ ∀ p', L.WrittenAt mode rest (blen pre) latest v' p' → p.le p')

/-- Whenever another segmentation of the same cost shares a tail `b` with `ws`, the word of `ws` before that tail is the one to keep. -/
def KeepRule (L : Lexicon) (mode : Mode) (text : Str) (ws : List Item) : Prop :=
  ∀ a v b a' v', ws = a ++ v :: b → L.Segmentation mode text (a' ++ v' :: b) → L.cost mode (a' ++ v' :: b) = L.cost mode ws →
    L.ToKeep mode text (a.map (·.surface)).flatten v v'

/-- `ws` is the chosen segmentation of a sentence: none is cheaper, and ties are broken by the rule. -/
structure Chosen (L : Lexicon) (mode : Mode) (text : Str) (ws : List Item) : Prop where
  segmentation : L.Segmentation mode text ws
  cheapest : ∀ ws', L.Segmentation mode text ws' → L.cost mode ws ≤ L.cost mode ws'
  keep : L.KeepRule mode text ws

/-- `ws` is the beginning of a cut of `text` into usable words. -/
def Begins (L : Lexicon) (mode : Mode) (text : Str) (ws : List Item) : Prop :=
  ∀ a w b, ws = a ++ w :: b → L.Usable mode text (a.map (·.surface)).flatten w

/-- Cost of a beginning, continued after a word with right context id `right`: as `costFrom`, without the connection to what follows. -/
def costBefore (L : Lexicon) (mode : Mode) : UInt16 → List Item → Int
  | _, [] => 0
  | right, w :: ws => L.conn right w.leftId + w.cost.toInt + penalty mode w.surface + L.costBefore mode w.rightId ws

/-- The costs of all beginnings lie in the range of `i32`, with room for the cost of one more connection. -/
def CostsFit (L : Lexicon) (mode : Mode) (text : Str) : Prop :=
  ∀ ws, L.Begins mode text ws → -2 ^ 31 + 32768 ≤ L.costBefore mode 0 ws ∧ L.costBefore mode 0 ws + 32768 < 2 ^ 31

/-- The tokens that a segmentation of a text stands for: contiguous byte ranges from `byte`, positions counted from `pos`, and the details each token shows. -/
def tokensFor : Nat → Nat → List Item → List (Str × Nat × Nat × Nat × Option (List Str))
  | _, _, [] => []
  | byte, pos, w :: ws => (w.surface, byte, byte + blen w.surface, pos, some w.details) :: tokensFor (byte + blen w.surface) (pos + 1) ws

/-- What the tokens show: text, byte range, position and the answer of `get_details`. -/
def visible (t : Tokenizer) (toks : List Token) : R (List (Str × Nat × Nat × Nat × Option (List Str))) :=
  toks.mapM fun tok => do
    let r ← tok.getDetails t.dictionary t.userDictionary
    return (tok.text, tok.byteStart, tok.byteEnd, tok.position, r.1)

/-- The tokenizer answers every text, and the tokens are those of a segmentation of each sentence into words of the lexicon. It is the chosen one
(for a sentence whose costs do not overflow). -/
def AnsweredBy (L : Lexicon) (t : Tokenizer) : Prop :=
  ∀ text ss, Sentences text ss → ∃ toks segs, t.tokenize text = .ok toks ∧ visible t toks = .ok (tokensFor 0 0 segs.flatten) ∧
    List.Forall₂ (fun s ws => L.Segmentation t.mode s ws ∧ (L.CostsFit t.mode s → L.Chosen t.mode s ws)) ss segs

end Lexicon

/-! ### Source directories -/

/-- How the sources of a kind are written. -/
structure SourceFormat where
  encoding : Encoding
  /-- Records may have different numbers of columns. -/
  flexible : Bool
  /-- Dashes and tildes are unified. -/
  unify : Bool
  /-- Rows with unreadable numbers are skipped (otherwise they are errors). -/
  skip : Bool
  /-- The number of columns in `unk.def`. -/
  unkColumns : Nat

/-- IPADIC is in EUC-JP, the others are in UTF-8; the two IPADIC dictionaries unify characters; CC-CEDICT's lists are flexible and contain rows that are skipped. -/
def sourceFormat : DictionaryKind → SourceFormat
  | .ipadic => ⟨.eucJp, false, true, false, 11⟩
  | .ipadicNeologd => ⟨.utf8, false, true, false, 11⟩
  | .unidic => ⟨.utf8, false, false, false, 10⟩
  | .koDic => ⟨.utf8, false, false, false, 12⟩
  | .ccCedict => ⟨.utf8, true, false, true, 10⟩

/-- What the files of a source directory say. -/
structure Contents where
  defs : List DefLine
  unk : List UnkLine
  forward : Nat
  backward : Nat
  costs : List CostLine
  rows : List Row

/-- The files of the directory are readable and are read as this. -/
structure Says (env : BuildEnv) (kind : DictionaryKind) (src : SourceDir) (c : Contents) : Prop where
  charDef : ∃ bytes, src.charDef = some bytes ∧ DefRead (env.decode (sourceFormat kind).encoding bytes) c.defs
  unk : ∃ bytes, src.unk = some bytes ∧ UnkRead (sourceFormat kind).unkColumns (env.decode (sourceFormat kind).encoding bytes) c.unk
  matrix : ∃ bytes, src.matrix = some bytes ∧ MatrixRead (env.decode (sourceFormat kind).encoding bytes) c.forward c.backward c.costs
  rows : ∃ files : List (List UInt8 × List Row), src.csvs = files.map (fun f => some f.1) ∧
    (∀ f ∈ files, env.csv (sourceFormat kind).flexible (sourceFormat kind).encoding f.1 = some f.2) ∧ c.rows = files.flatMap (·.2)

/-- The files of the directory are well-formed and say this. -/
structure WellFormed (env : BuildEnv) (kind : DictionaryKind) (src : SourceDir) (c : Contents) : Prop where
  charDef : ∃ bytes, src.charDef = some bytes ∧ DefText (env.decode (sourceFormat kind).encoding bytes) c.defs
  unk : ∃ bytes, src.unk = some bytes ∧ UnkText (sourceFormat kind).unkColumns (env.decode (sourceFormat kind).encoding bytes) c.unk
  matrix : ∃ bytes, src.matrix = some bytes ∧ MatrixText (env.decode (sourceFormat kind).encoding bytes) c.forward c.backward c.costs
  rows : ∃ files : List (List UInt8 × List Row), src.csvs = files.map (fun f => some f.1) ∧
    (∀ f ∈ files, env.csv (sourceFormat kind).flexible (sourceFormat kind).encoding f.1 = some f.2) ∧ c.rows = files.flatMap (·.2)

/-- The context ids lie inside the matrix. -/
def Contents.Inside (c : Contents) (left right : UInt16) : Prop := left.toNat < c.backward ∧ right.toNat < c.forward

/-- The files fit together: every category is defined once and before it is used, `DEFAULT` exists, every category has an unknown-word line, all context ids lie inside the matrix, and the sizes respect the limits of
the compiled format. -/
structure Good (kind : DictionaryKind) (c : Contents) : Prop where
  ordered : Ordered [] c.defs
  default : "DEFAULT".toList ∈ c.defs.flatMap DefLine.names
  unknown : ∀ name ∈ c.defs.flatMap DefLine.names, ∃ l ∈ c.unk, l.name = name
  unkCount : c.unk.length ≤ 2 ^ 32
  unkIds : ∀ l ∈ c.unk, c.Inside l.left l.right
  zero : c.Inside 0 0
  sizes : c.forward < 2 ^ 31 ∧ c.backward < 2 ^ 15 ∧ c.forward * c.backward < 2 ^ 31
  cells : ∀ l ∈ c.costs, l.forward < c.forward ∧ l.backward < c.backward
  rows : Acceptable (sourceFormat kind).unify (sourceFormat kind).skip c.rows
  fits : Fits (sourceFormat kind).unify c.rows
  rowIds : ∀ w ∈ sourceWords (sourceFormat kind).unify c.rows, c.Inside w.leftId w.rightId

/-- Less than 2^32 lines and names in `char.def`, with names of less than 2^32 bytes. -/
structure Storable (c : Contents) : Prop where
  lines : c.defs.length < 2 ^ 32
  mentions : (c.defs.flatMap DefLine.names).length < 2 ^ 32
  names : ∀ n ∈ c.defs.flatMap DefLine.names, blen n < 2 ^ 32

/-- A user dictionary's records that can be compiled and whose context ids lie inside the matrix. -/
structure GoodUser (kind : DictionaryKind) (c : Contents) (rows : List Row) : Prop where
  columns : SameColumns kind rows
  readable : ∀ row ∈ rows, (readUserRow kind row).isSome
  fits : UserFits kind rows
  ids : ∀ w ∈ rows.filterMap (readUserRow kind), c.Inside w.leftId w.rightId

/-- As `Good`, but any number of words may share a surface. -/
structure GoodApart (kind : DictionaryKind) (c : Contents) : Prop where
  ordered : Ordered [] c.defs
  default : "DEFAULT".toList ∈ c.defs.flatMap DefLine.names
  unknown : ∀ name ∈ c.defs.flatMap DefLine.names, ∃ l ∈ c.unk, l.name = name
  unkCount : c.unk.length ≤ 2 ^ 32
  unkIds : ∀ l ∈ c.unk, c.Inside l.left l.right
  zero : c.Inside 0 0
  sizes : c.forward < 2 ^ 31 ∧ c.backward < 2 ^ 15 ∧ c.forward * c.backward < 2 ^ 31
  cells : ∀ l ∈ c.costs, l.forward < c.forward ∧ l.backward < c.backward
  rows : Acceptable (sourceFormat kind).unify (sourceFormat kind).skip c.rows
  fits : FitsApart (sourceFormat kind).unify c.rows
  rowIds : ∀ w ∈ sourceWords (sourceFormat kind).unify c.rows, c.Inside w.leftId w.rightId

/-- As `GoodUser`, but any number of words may share a surface. -/
structure GoodUserApart (kind : DictionaryKind) (c : Contents) (rows : List Row) : Prop where
  columns : SameColumns kind rows
  readable : ∀ row ∈ rows, (readUserRow kind row).isSome
  fits : UserFitsApart kind rows
  ids : ∀ w ∈ rows.filterMap (readUserRow kind), c.Inside w.leftId w.rightId

/-- The words of an optional user dictionary, given as its kind and its records. -/
def userWords : Option (DictionaryKind × List Row) → List SourceWord
  | none => []
  | some (kind, rows) => rows.filterMap (readUserRow kind)

/-- The optional user dictionary, compiled. -/
def compileUser (yada : DaBuilder) : Option (DictionaryKind × List Row) → R (Option UserDictionary)
  | none => .ok none
  | some (kind, rows) => do
    let u ← buildUserDict yada (UserCfg.ofKind kind) rows
    return some u

/-- The lexicon of a dictionary and an optional user dictionary. -/
def Contents.lexicon (c : Contents) (kind : DictionaryKind) (user : Option (DictionaryKind × List Row)) : Lexicon where
  words := (userWords user).map SourceWord.userItem ++ (sourceWords (sourceFormat kind).unify c.rows).map SourceWord.systemItem
  defs := c.defs
  unk := c.unk
  costs := c.costs

/-- What the compiled format keeps of a list of words: of the words with each surface those that are left over. -/
def keptWords (ws : List SourceWord) : List SourceWord :=
  (ws.map (·.surface)).dedup.flatMap fun s => leftOver (ws.countP fun w => strLe w.surface s && w.surface != s) (ws.filter (·.surface = s))

/-- The lexicon of what the compiled format keeps of a dictionary and an optional user dictionary. -/
def Contents.keptLexicon (c : Contents) (kind : DictionaryKind) (user : Option (DictionaryKind × List Row)) : Lexicon where
  words := (keptWords (userWords user)).map SourceWord.userItem ++ (keptWords (sourceWords (sourceFormat kind).unify c.rows)).map SourceWord.systemItem
  defs := c.defs
  unk := c.unk
  costs := c.costs

end Verif.Spec
