import Verif.Model.CharDef
import Verif.Spec.Text
/-! What a `char.def` file says. -/
namespace Verif.Spec
open Verif.Model

/-- A line of `char.def` that is not blank: the definition of a category, or a range of code points with its categories. -/
inductive DefLine where
  | category (name : Str) (data : CategoryData)
  | range (low high : Nat) (names : List Str)
  deriving DecidableEq, Repr

/-- `0x` and hexadecimal digits: a code point of the Basic Multilingual Plane that is a character and not a byte order mark. -/
def CodePointText (s : Str) (n : Nat) : Prop :=
  ∃ digits, s = ['0', 'x'] ++ digits ∧ Digits 16 digits n ∧ (n < 0xD800 ∨ (0xE000 ≤ n ∧ n < 0xFFFE ∧ n ≠ 0xFEFF))

/-- `LOW` or `LOW..HIGH`, both ends included. -/
def IntervalText (s : Str) (low high : Nat) : Prop :=
  (CodePointText s low ∧ high = low) ∨ ∃ a b, s = a ++ ['.', '.'] ++ b ∧ CodePointText a low ∧ CodePointText b high

/-- A line and what it says, without its comment and outer white space. -/
def Uncommented (line s : Str) : Prop :=
  ∃ code, (line = code ∨ ∃ comment, line = code ++ ['#'] ++ comment) ∧ '#' ∉ code ∧ Trimmed code s

/-- What a line without comment says: nothing, `LOW..HIGH NAME NAME …` or `NAME INVOKE GROUP LENGTH`. -/
inductive DefLineText : Str → Option DefLine → Prop
  | blank : DefLineText [] none
  | range {s bounds names low high} : ['0', 'x'] <+: s → Words IsSpace s (bounds :: names) → IntervalText bounds low high →
      DefLineText s (some (.range low high names))
  | category {s name i g l} {invoke group : Nat} {length : UInt32} : s ≠ [] → ¬ ['0', 'x'] <+: s → Words IsAsciiSpace s [name, i, g, l] →
      Unsigned i invoke → invoke < 2 ^ 32 → Unsigned g group → group < 2 ^ 32 → Unsigned l length.toNat →
      DefLineText s (some (.category name ⟨invoke = 1, group = 1, length⟩))

/-- A well-formed file and what its lines say. -/
def DefText (text : Str) (file : List DefLine) : Prop :=
  ∃ ls contents, TextLines text ls ∧ List.Forall₂ (fun line r => ∃ s, Uncommented line s ∧ DefLineText s r) ls contents ∧
    file = contents.filterMap id

/-- Each element once, at its first place. -/
def firsts {α : Type} [DecidableEq α] : List α → List α
  | [] => []
  | x :: xs => x :: (firsts xs).filter (· ≠ x)

/-- The category names on a line. -/
def DefLine.names : DefLine → List Str
  | .category name _ => [name]
  | .range _ _ names => names

/-- The categories a line gives to a code point. -/
def DefLine.categoriesOf (c : Nat) : DefLine → List Str
  | .category _ _ => []
  | .range low high names => if low ≤ c ∧ c ≤ high then names else []

/-- The categories of a code point: those of all ranges that contain it, in file order and each once; `DEFAULT` if there is none and the file mentions it. -/
def categoriesOf (file : List DefLine) (c : Nat) : List Str :=
  let found := firsts (file.flatMap (DefLine.categoriesOf c))
  let default := ['D', 'E', 'F', 'A', 'U', 'L', 'T']
  if found = [] ∧ default ∈ file.flatMap DefLine.names then [default] else found

/-- The definitions of a category in the file. -/
def definitionsOf (file : List DefLine) (name : Str) : List CategoryData :=
  file.filterMap fun
    | .category n d => if n = name then some d else none
    | .range .. => none

/-- Every category is defined once, and before the first range line that mentions it. -/
inductive Ordered : List Str → List DefLine → Prop
  | nil (defined : List Str) : Ordered defined []
  | category {defined : List Str} {name : Str} {data : CategoryData} {file : List DefLine} :
      name ∉ defined → Ordered (name :: defined) file → Ordered defined (.category name data :: file)
  | range {defined : List Str} {low high : Nat} {names : List Str} {file : List DefLine} :
      (∀ n ∈ names, n ∈ defined) → Ordered defined file → Ordered defined (.range low high names :: file)

end Verif.Spec
