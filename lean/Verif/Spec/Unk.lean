import Verif.Model.WordEntry
import Verif.Spec.Text
/-! What an `unk.def` file says. -/
namespace Verif.Spec
open Verif.Model

/-- An unknown-word entry: category name, context ids and cost. -/
structure UnkLine where
  name : Str
  left : UInt16
  right : UInt16
  cost : Int16
  deriving DecidableEq, Repr

/-- A line with the expected number of comma-separated fields: name, two ids and a cost that fit 16 bits, and details. -/
def UnkLineText (expected : Nat) (line : Str) (l : UnkLine) : Prop :=
  ∃ left right cost details, Columns (· = ',') line (l.name :: left :: right :: cost :: details) ∧ details.length + 4 = expected ∧
    Unsigned left l.left.toNat ∧ Unsigned right l.right.toNat ∧ Signed cost l.cost.toInt

/-- A well-formed file and what its lines say. -/
def UnkText (expected : Nat) (text : Str) (ls : List UnkLine) : Prop :=
  ∃ texts, TextLines text texts ∧ List.Forall₂ (UnkLineText expected) texts ls

/-- The word entry of a line. All unknown words share one word id. -/
def UnkLine.entry (l : UnkLine) : WordEntry :=
  { wordId := { id := 4294967295, sys := true }, wordCost := l.cost, leftId := l.left, rightId := l.right }

end Verif.Spec
