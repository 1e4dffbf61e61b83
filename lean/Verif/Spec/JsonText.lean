import Verif.Model.Json
import Verif.Spec.Text
/-!
The text syntax of JSON, after RFC 8259, as relations between texts and documents. Nothing here refers to a parser or printer.
-/
namespace Verif.Spec
open Verif.Model

namespace JsonText

/-- Insignificant white space (RFC 8259 section 2). -/
def Space (s : Str) : Prop := ∀ c ∈ s, c = ' ' ∨ c = '\t' ∨ c = '\n' ∨ c = '\r'

/-- `DIGIT`. -/
def Digit (c : Char) : Prop := '0' ≤ c ∧ c ≤ '9'

/-- `1*DIGIT`. -/
def Digits (s : Str) : Prop := s ≠ [] ∧ ∀ c ∈ s, Digit c

/-- The number that a string of decimal digits denotes. -/
def decimal (s : Str) : Nat := s.foldl (fun n c => 10 * n + (c.toNat - '0'.toNat)) 0

/-- `int = zero / ( digit1-9 *DIGIT )`. -/
def IntPart (s : Str) : Prop := Digits s ∧ (s.head? = some '0' → s = ['0'])

/-- `[ frac ]`, `frac = decimal-point 1*DIGIT`. -/
def Frac (s : Str) : Prop := s = [] ∨ ∃ ds, s = '.' :: ds ∧ Digits ds

/-- `[ exp ]`, `exp = e [ minus / plus ] 1*DIGIT`. -/
def Exp (s : Str) : Prop :=
  s = [] ∨ ∃ e sign ds, s = e :: (sign ++ ds) ∧ (e = 'e' ∨ e = 'E') ∧ (sign = [] ∨ sign = ['+'] ∨ sign = ['-']) ∧ Digits ds

/-- `number = [ minus ] int [ frac ] [ exp ]`, and the document it is. Integers of 64 bits are distinguished from other numbers; minus zero is not an integer. `finite` tells which
texts of other numbers denote a floating point number (very large ones do not). -/
inductive Number (finite : Str → Prop) : Str → Json → Prop
  | nat {ip : Str} : IntPart ip → decimal ip < 2 ^ 64 → Number finite ip (.int (decimal ip))
  | neg {ip : Str} : IntPart ip → 0 < decimal ip → decimal ip ≤ 2 ^ 63 → Number finite ('-' :: ip) (.int (-(decimal ip : Int)))
  | other {sign ip fp ep : Str} : (sign = [] ∨ sign = ['-']) → IntPart ip → Frac fp → Exp ep →
      (fp ≠ [] ∨ ep ≠ [] ∨ (sign = [] ∧ 2 ^ 64 ≤ decimal ip) ∨ (sign = ['-'] ∧ (decimal ip = 0 ∨ 2 ^ 63 < decimal ip))) →
      finite (sign ++ ip ++ fp ++ ep) → Number finite (sign ++ ip ++ fp ++ ep) .float

/-- `4HEXDIG` and the number it denotes. -/
def Hex4 (s : Str) (n : Nat) : Prop :=
  ∃ a b c d w x y z, s = [a, b, c, d] ∧ DigitOf 16 a w ∧ DigitOf 16 b x ∧ DigitOf 16 c y ∧ DigitOf 16 d z ∧ n = 4096 * w + 256 * x + 16 * y + z

/-- One character in a string, and the character it stands for: itself unless it must be escaped; a short escape; `\uXXXX` outside of the surrogates; or a pair of surrogates (section 7). -/
inductive StrChar : Str → Char → Prop
  | plain {c : Char} : c ≠ '"' → c ≠ '\\' → 0x20 ≤ c.toNat → StrChar [c] c
  | short {e c : Char} : (e, c) ∈ [('"', '"'), ('\\', '\\'), ('/', '/'), ('b', '\x08'), ('f', '\x0c'), ('n', '\n'), ('r', '\r'), ('t', '\t')] → StrChar ['\\', e] c
  | unit {h : Str} {c : Char} : Hex4 h c.toNat → StrChar ('\\' :: 'u' :: h) c
  | pair {h l : Str} {hi lo : Nat} {c : Char} : Hex4 h hi → Hex4 l lo → 0xD800 ≤ hi → hi < 0xDC00 → 0xDC00 ≤ lo → lo < 0xE000 →
      c.toNat = 0x10000 + 0x400 * (hi - 0xD800) + (lo - 0xDC00) → StrChar ('\\' :: 'u' :: h ++ '\\' :: 'u' :: l) c

/-- The characters between the quotation marks, and the string they denote. -/
inductive Chars : Str → Str → Prop
  | nil : Chars [] []
  | cons {t s : Str} {c : Char} {cs : Str} : StrChar t c → Chars s cs → Chars (t ++ s) (c :: cs)

/-- `string`. -/
def String (t s : Str) : Prop := ∃ body, t = '"' :: body ++ ['"'] ∧ Chars body s

mutual
/-- `value` without the white space around it. -/
inductive Value (finite : Str → Prop) : Str → Json → Prop
  | null : Value finite "null".toList .null
  | true : Value finite "true".toList (.bool true)
  | false : Value finite "false".toList (.bool false)
  | number {t : Str} {j : Json} : Number finite t j → Value finite t j
  | string {t s : Str} : String t s → Value finite t (.str s)
  | emptyArray {w : Str} : Space w → Value finite ('[' :: w ++ [']']) (.arr [])
  | array {t : Str} {xs : List Json} : Elements finite t xs → Value finite ('[' :: t ++ [']']) (.arr xs)
  | emptyObject {w : Str} : Space w → Value finite ('{' :: w ++ ['}']) (.obj [])
  | object {t : Str} {kvs : List (Str × Json)} : Members finite t kvs → Value finite ('{' :: t ++ ['}']) (.obj kvs)
/-- `value *( value-separator value )`, with white space. -/
inductive Elements (finite : Str → Prop) : Str → List Json → Prop
  | one {w t w' : Str} {j : Json} : Space w → Value finite t j → Space w' → Elements finite (w ++ t ++ w') [j]
  | more {w t w' s : Str} {j : Json} {js : List Json} : Space w → Value finite t j → Space w' → Elements finite s js → Elements finite (w ++ t ++ w' ++ ',' :: s) (j :: js)
/-- `member *( value-separator member )`, `member = string name-separator value`, with white space. -/
inductive Members (finite : Str → Prop) : Str → List (Str × Json) → Prop
  | one {w k w1 w2 t w' key : Str} {j : Json} : Space w → String k key → Space w1 → Space w2 → Value finite t j → Space w' →
      Members finite (w ++ k ++ w1 ++ ':' :: w2 ++ t ++ w') [(key, j)]
  | more {w k w1 w2 t w' s key : Str} {j : Json} {kvs : List (Str × Json)} : Space w → String k key → Space w1 → Space w2 → Value finite t j → Space w' → Members finite s kvs →
      Members finite (w ++ k ++ w1 ++ ':' :: w2 ++ t ++ w' ++ ',' :: s) ((key, j) :: kvs)
end

/-- `JSON-text = ws value ws`. -/
def Doc (finite : Str → Prop) (t : Str) (j : Json) : Prop := ∃ w v w', t = w ++ v ++ w' ∧ Space w ∧ Value finite v j ∧ Space w'

end JsonText

mutual
/-- How deeply arrays and objects are nested in a document. -/
def Json.depth : Json → Nat
  | .arr xs => depthList xs + 1
  | .obj kvs => depthPairs kvs + 1
  | _ => 0
def depthList : List Json → Nat
  | [] => 0
  | x :: xs => max (Json.depth x) (depthList xs)
def depthPairs : List (Str × Json) → Nat
  | [] => 0
  | (_, x) :: xs => max (Json.depth x) (depthPairs xs)
end

/-- A text that can be read: a JSON document of at most 127 levels. -/
def JsonText.Read (finite : Str → Bool) (t : Str) (j : Json) : Prop := JsonText.Doc (fun t => finite t = true) t j ∧ Json.depth j ≤ 127

/-- A file that can be read: such a text in UTF-8. -/
def JsonText.File (finite : Str → Bool) (data : List UInt8) (j : Json) : Prop := ∃ t, data = utf8 t ∧ JsonText.Read finite t j

mutual
/-- Documents whose integers are of 64 bits and without other numbers. -/
def Json.Plain : Json → Prop
  | .int n => -2 ^ 63 ≤ n ∧ n < 2 ^ 64
  | .float => False
  | .arr xs => PlainList xs
  | .obj kvs => PlainPairs kvs
  | _ => True
def PlainList : List Json → Prop
  | [] => True
  | x :: xs => Json.Plain x ∧ PlainList xs
def PlainPairs : List (Str × Json) → Prop
  | [] => True
  | (_, x) :: kvs => Json.Plain x ∧ PlainPairs kvs
end

end Verif.Spec
