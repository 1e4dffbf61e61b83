import Verif.Spec.CharDef
import Verif.Spec.Unk
import Verif.Spec.Matrix
/-! What the compilers of `char.def`, `unk.def` and `matrix.def` accept beyond the well-formed files of `DefText`, `UnkText` and `MatrixText`, and how they read it. -/
namespace Verif.Spec
open Verif.Model

/-! ### `char.def` -/

/-- The prefix `0x` any number of times (also not at all), an optional plus sign, and hexadecimal digits with a value below 2^16 that is no byte order mark. A surrogate is read as U+FFFD. -/
def CodePointRead (s : Str) (n : Nat) : Prop :=
  ∃ k sign digits v, s = (List.replicate k ['0', 'x']).flatten ++ (sign ++ digits) ∧ (sign = [] ∨ sign = ['+']) ∧ Digits 16 digits v ∧ v < 2 ^ 16 ∧
    v ≠ 0xFEFF ∧ v ≠ 0xFFFE ∧ n = if 0xD800 ≤ v ∧ v < 0xE000 then 0xFFFD else v

/-- `LOW` or `LOW..HIGH`. -/
def IntervalRead (s : Str) (low high : Nat) : Prop :=
  (CodePointRead s low ∧ high = low) ∨ ∃ a b, s = a ++ ['.', '.'] ++ b ∧ CodePointRead a low ∧ CodePointRead b high

/-- How a line without comment is read. -/
inductive DefLineRead : Str → Option DefLine → Prop
  | blank : DefLineRead [] none
  | range {s bounds names low high} : ['0', 'x'] <+: s → Words IsSpace s (bounds :: names) → IntervalRead bounds low high →
      DefLineRead s (some (.range low high names))
  | category {s name i g l} {invoke group : Nat} {length : UInt32} : s ≠ [] → ¬ ['0', 'x'] <+: s → Words IsAsciiSpace s [name, i, g, l] →
      Unsigned i invoke → invoke < 2 ^ 32 → Unsigned g group → group < 2 ^ 32 → Unsigned l length.toNat →
      DefLineRead s (some (.category name ⟨invoke = 1, group = 1, length⟩))

/-- How a file is read. -/
def DefRead (text : Str) (file : List DefLine) : Prop :=
  ∃ ls contents, TextLines text ls ∧ List.Forall₂ (fun line r => ∃ s, Uncommented line s ∧ DefLineRead s r) ls contents ∧
    file = contents.filterMap id

/-! ### `unk.def` -/

/-- How a line with the expected number of fields is read: the ids are numbers below 2^32 of which the low 16 bits count, the cost is a number of 32 bits of which the low 16 bits count. -/
def UnkLineRead (expected : Nat) (line : Str) (l : UnkLine) : Prop :=
  ∃ left right cost details, Columns (· = ',') line (l.name :: left :: right :: cost :: details) ∧ details.length + 4 = expected ∧
    ∃ (lv rv : Nat) (cv : Int), Unsigned left lv ∧ lv < 2 ^ 32 ∧ l.left.toNat = lv % 2 ^ 16 ∧ Unsigned right rv ∧ rv < 2 ^ 32 ∧ l.right.toNat = rv % 2 ^ 16 ∧
      Signed cost cv ∧ -2 ^ 31 ≤ cv ∧ cv < 2 ^ 31 ∧ l.cost.toInt % 2 ^ 16 = cv % 2 ^ 16

/-- How a file is read. -/
def UnkRead (expected : Nat) (text : Str) (ls : List UnkLine) : Prop :=
  ∃ texts, TextLines text texts ∧ List.Forall₂ (UnkLineRead expected) texts ls

/-! ### `matrix.def` -/

/-- The lines are numbers of 32 bits. -/
def NumberLines (text : Str) (rows : List (List Int)) : Prop :=
  ∃ ls, TextLines text ls ∧ List.Forall₂ NumberLine ls rows ∧ ∀ row ∈ rows, ∀ z ∈ row, -2 ^ 31 ≤ z ∧ z < 2 ^ 31

/-- How a matrix file is read: the first two numbers of the first line are the sizes, the first three numbers of every other line are the two ids and the cost, of which the low 16 bits
count. Further numbers on a line are ignored. -/
def MatrixRead (text : Str) (forwardSize backwardSize : Nat) (costs : List CostLine) : Prop :=
  ∃ junk rows, NumberLines text (((forwardSize : Int) :: (backwardSize : Int) :: junk) :: rows) ∧
    List.Forall₂ (fun (row : List Int) (l : CostLine) => ∃ c rest, row = (l.forward : Int) :: (l.backward : Int) :: c :: rest ∧ l.cost.toInt % 2 ^ 16 = c % 2 ^ 16) rows costs

/-- A cost line that can be stored in a matrix of these sizes: it has three numbers, and its place (computed modulo 2^32) is one of the places of the matrix. -/
def Stored (forward backward : Int) (row : List Int) : Prop :=
  ∃ f b c rest, row = f :: b :: c :: rest ∧ (b + f * backward) % 2 ^ 32 < forward * backward % 2 ^ 32

end Verif.Spec
