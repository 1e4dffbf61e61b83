import Verif.Spec.Homographs
/-! Words that are added to a word list. -/
namespace Verif.Spec
open Verif.Model

/-- The text can be cut into words of the list. -/
def CutInto (words : List Item) (s : Str) : Prop := ∃ us : List Item, (∀ u ∈ us, u ∈ words ∧ u.surface ≠ []) ∧ (us.map (·.surface)).flatten = s

/-- Unknown words that start with this character are looked for even where a word of the list starts: every category of the character has its invoke flag set. -/
def AlwaysInvoked (L : Lexicon) (c : Char) : Prop := ∀ name ∈ categoriesOf L.defs c.toNat, ∀ data ∈ definitionsOf L.defs name, data.invoke = true

/-- Wherever the text `s` occurs in the text, a word of the lexicon starts, or unknown words are looked for anyway. -/
def HidesNothing (L : Lexicon) (s text : Str) : Prop :=
  ∀ pre post c, text = pre ++ s ++ post → s.head? = some c → (∃ u ∈ L.words, u.surface ≠ [] ∧ u.surface <+: s ++ post) ∨ AlwaysInvoked L c

/-- At every place of the text both lexicons propose the same unknown words, and unknown words are looked for at the same places. -/
def SameUnknowns (L L' : Lexicon) (mode : Mode) (text : Str) : Prop :=
  (∀ rest name rank s, rest <:+ text → (L.Proposes rest name rank s ↔ L'.Proposes rest name rank s)) ∧
  ∀ k reach latest reach' latest', L.Scan mode text k reach latest → L'.Scan mode text k reach' latest' → (unknownOpen mode latest k ↔ unknownOpen mode latest' k)

end Verif.Spec
