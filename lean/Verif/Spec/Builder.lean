import Verif.Model.DictBuilder
/-!
What a compiled dictionary must contain, stated from the rows of the source CSV alone: no maps, offsets, word ids
or buffers.
-/
namespace Verif.Spec
open Verif.Model

/-- What one source row says: a word with its cost, context ids and detail columns. -/
structure SourceWord where
  surface : Str
  cost : Int16
  leftId : UInt16
  rightId : UInt16
  details : List Str
  deriving DecidableEq, Repr

/-- The two character replacements of the normalizing dictionaries: HORIZONTAL BAR to EM DASH, FULLWIDTH TILDE to
WAVE DASH. -/
def canonical (s : Str) : Str :=
  s.map fun c => if c = Char.ofNat 0x2015 then Char.ofNat 0x2014
    else if c = Char.ofNat 0xFF5E then Char.ofNat 0x301C else c

/-- The text of a field, after the optional normalization. -/
def fieldText (norm : Bool) (s : Str) : Str := if norm then canonical s else s

/-- The columns of a row are: surface, left id, right id, cost, details. `none`: one of the three numbers cannot be read. -/
def readRow (norm : Bool) (row : Row) : Option SourceWord :=
  match row.fields with
  | surface :: left :: right :: cost :: details =>
    match parseU16 (trim left), parseU16 (trim right), parseI16 (trim cost) with
    | some l, some r, some c => some ⟨fieldText norm surface, c, l, r, details.map (fieldText norm)⟩
    | _, _, _ => none
  | _ => none

/-- The words of the source, in file order. -/
def sourceWords (norm : Bool) (rows : List Row) : List SourceWord := rows.filterMap (readRow norm)

/-- The source words with a given surface, in file order. -/
def wordsFor (norm : Bool) (rows : List Row) (surface : Str) : List SourceWord :=
  (sourceWords norm rows).filter (·.surface = surface)

/-- Size of the stored details of a row. -/
def detailSize (row : Row) : Nat := 4 + ((row.fields.drop 4).map fun f => blen f + 1).sum

/-- The source respects the limits of the compiled format. -/
structure Fits (norm : Bool) (rows : List Row) : Prop where
  /-- Fewer than 32 words share a surface (5 bits for the number of homographs). -/
  homographs : ∀ s, (wordsFor norm rows s).length < 32
  /-- Fewer than 2^26 words. -/
  total : (sourceWords norm rows).length < 2 ^ 26
  /-- All rows can be numbered with 32 bits, all details addressed with 32 bits. -/
  numRows : rows.length < 2 ^ 32
  detailBytes : (rows.map detailSize).sum < 2 ^ 32
  /-- Surfaces are not empty, and no field contains a NUL character. -/
  surfaces : ∀ row ∈ rows, row.first ≠ []
  noNul : ∀ row ∈ rows, ∀ f ∈ row.fields, '\x00' ∉ f
  /-- There is at least one word. -/
  nonempty : sourceWords norm rows ≠ []

/-- The source respects the limits of the compiled format, but any number of words may share a surface. -/
structure FitsApart (norm : Bool) (rows : List Row) : Prop where
  total : (sourceWords norm rows).length < 2 ^ 26
  numRows : rows.length < 2 ^ 32
  detailBytes : (rows.map detailSize).sum < 2 ^ 32
  surfaces : ∀ row ∈ rows, row.first ≠ []
  noNul : ∀ row ∈ rows, ∀ f ∈ row.fields, '\x00' ∉ f
  nonempty : sourceWords norm rows ≠ []

/-- The builder accepts the rows: each has at least four columns and, unless unreadable rows are skipped, readable numbers. -/
def Acceptable (norm skip : Bool) (rows : List Row) : Prop :=
  ∀ row ∈ rows, 4 ≤ row.fields.length ∧ (skip = true ∨ (readRow norm row).isSome)

/-- The contract of the external double-array builder: for a non-empty set of non-empty keys without NUL bytes, in strictly
increasing order, with values below 2^31, it succeeds and the array stores exactly this map. -/
def YadaContract (yada : DaBuilder) : Prop :=
  ∀ ks : List (List UInt8 × UInt32), ks ≠ [] →
    ks.Pairwise (fun a b => bytesLe a.1 b.1 = true ∧ a.1 ≠ b.1) →
    (∀ p ∈ ks, p.1 ≠ [] ∧ (0 : UInt8) ∉ p.1 ∧ p.2.toNat < 2 ^ 31) → yada ks = some ⟨ks⟩

/-- What the word-details lookup shows for detail columns: they are stored joined by NUL, so no column at all reads back as one
empty column. -/
def shown (details : List Str) : List Str := if details = [] then [[]] else details

/-- An entry found by a lookup carries the numbers of the source word and its word id selects the source word's details in
`lookup` (the word-details function). -/
def Describes (lookup : Nat → R (Option (List Str))) (e : WordEntry) (w : SourceWord) : Prop :=
  e.wordCost = w.cost ∧ e.leftId = w.leftId ∧ e.rightId = w.rightId ∧
    lookup e.wordId.id.toNat = .ok (some (shown w.details))

/-- The number of words of the source with a surface smaller than `s`. -/
def wordsBefore (norm : Bool) (rows : List Row) (s : Str) : Nat := (sourceWords norm rows).countP fun w => strLe w.surface s && w.surface != s

/-- What is left of words with a common surface that are stored from position `n` on, when only 5 bits of their number are kept and the other bits are mixed into the position. -/
def leftOver {α : Type} (n : Nat) (ws : List α) : List α := (ws.drop ((n ||| ws.length / 32) - n)).take (ws.length % 32)

end Verif.Spec
