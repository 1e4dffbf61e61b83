import Mathlib.Data.List.Forall2
import Verif.Model.Basic
/-!
How the texts of source files are read: lines, columns, words, outer white space and numbers, as relations between a text and what it says.
No parser is mentioned.
-/
namespace Verif.Spec
open Verif.Model

/-- The code points with the Unicode property `White_Space`. -/
def whiteSpace : List Nat :=
  [0x9, 0xA, 0xB, 0xC, 0xD, 0x20, 0x85, 0xA0, 0x1680, 0x2000, 0x2001, 0x2002, 0x2003, 0x2004, 0x2005, 0x2006, 0x2007, 0x2008, 0x2009, 0x200A,
    0x2028, 0x2029, 0x202F, 0x205F, 0x3000]

/-- White space. -/
def IsSpace (c : Char) : Prop := c.toNat ∈ whiteSpace

/-- ASCII white space: tab, line feed, form feed, carriage return, space. -/
def IsAsciiSpace (c : Char) : Prop := c.toNat ∈ [0x9, 0xA, 0xC, 0xD, 0x20]

/-- `t` is `s` without the white space at both ends. -/
def Trimmed (s t : Str) : Prop :=
  ∃ a b, s = a ++ t ++ b ∧ (∀ c ∈ a, IsSpace c) ∧ (∀ c ∈ b, IsSpace c) ∧
    (∀ c, t.head? = some c → ¬ IsSpace c) ∧ (∀ c, t.getLast? = some c → ¬ IsSpace c)

/-- A list and its pieces between separators. -/
inductive Columns {α : Type} (sep : α → Prop) : List α → List (List α) → Prop
  | last {l} : (∀ c ∈ l, ¬ sep c) → Columns sep l [l]
  | cons {l x rest ls} : (∀ c ∈ l, ¬ sep c) → sep x → Columns sep rest ls → Columns sep (l ++ x :: rest) (l :: ls)

/-- The words of a text: the pieces between separators that are not empty. -/
def Words (sep : Char → Prop) (s : Str) (ws : List Str) : Prop := ∃ ps, Columns sep s ps ∧ ws = ps.filter (· ≠ [])

/-- The lines of a text, which end with a line feed or with a carriage return and a line feed. The line end can be missing after the last line. -/
inductive TextLines : Str → List Str → Prop
  | nil : TextLines [] []
  | last {l} : l ≠ [] → '\n' ∉ l → TextLines l [l]
  | lf {l rest ls} : '\n' ∉ l → l.getLast? ≠ some '\r' → TextLines rest ls → TextLines (l ++ ['\n'] ++ rest) (l :: ls)
  | crlf {l rest ls} : '\n' ∉ l → TextLines rest ls → TextLines (l ++ ['\r', '\n'] ++ rest) (l :: ls)

/-- `c` is the digit of value `v`. -/
def DigitOf (radix : Nat) (c : Char) (v : Nat) : Prop :=
  v < radix ∧ (['0', '1', '2', '3', '4', '5', '6', '7', '8', '9', 'a', 'b', 'c', 'd', 'e', 'f'][v]? = some c ∨
    ['0', '1', '2', '3', '4', '5', '6', '7', '8', '9', 'A', 'B', 'C', 'D', 'E', 'F'][v]? = some c)

/-- A string of digits, at least one, and its value. -/
inductive Digits (radix : Nat) : Str → Nat → Prop
  | one {c v} : DigitOf radix c v → Digits radix [c] v
  | more {s n c v} : Digits radix s n → DigitOf radix c v → Digits radix (s ++ [c]) (n * radix + v)

/-- A decimal number, with an optional plus sign. -/
inductive Unsigned : Str → Nat → Prop
  | digits {s n} : Digits 10 s n → Unsigned s n
  | plus {s n} : Digits 10 s n → Unsigned ('+' :: s) n

/-- A decimal number, with an optional sign. -/
inductive Signed : Str → Int → Prop
  | unsigned {s} {n : Nat} : Unsigned s n → Signed s n
  | minus {s} {n : Nat} : Digits 10 s n → Signed ('-' :: s) (-n)

/-! ### Order -/

/-- The lexicographic order of byte strings: the first is a prefix of the second, or has the smaller byte where they first differ. -/
def ByteOrder (a b : List UInt8) : Prop := (∃ r, b = a ++ r) ∨ ∃ p x y r s, a = p ++ x :: r ∧ b = p ++ y :: s ∧ x.toNat < y.toNat

end Verif.Spec
