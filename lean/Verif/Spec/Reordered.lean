import Verif.Spec.Renamed
/-! Definition files with the same meaning. -/
namespace Verif.Spec
open Verif.Model

/-- A character has the category. -/
def Lexicon.Present (L : Lexicon) (name : Str) : Prop := ∃ c : Char, name ∈ categoriesOf L.defs c.toNat

/-- The lexicons have the same words with each text, give every character the same categories, define and describe the categories of characters in the same way, and give the same connection costs to the context ids in
use. -/
structure SameMeaning (L L' : Lexicon) : Prop where
  words : ∀ s, L'.words.filter (·.surface = s) = L.words.filter (·.surface = s)
  categories : ∀ c : Char, categoriesOf L'.defs c.toNat = categoriesOf L.defs c.toNat
  flags : ∀ name, L.Present name → definitionsOf L'.defs name = definitionsOf L.defs name
  unknown : ∀ name, L.Present name → L'.unk.filter (·.name = name) = L.unk.filter (·.name = name)
  costs : ∀ r l, L.RightUsed r → L.LeftUsed l → L'.conn r l = L.conn r l

/-- The line is a range that contains the code point. -/
def DefLine.covers (c : Nat) : DefLine → Bool
  | .category _ _ => false
  | .range low high _ => decide (low ≤ c ∧ c ≤ high)

/-- The files have the same lines; of the lines of `char.def` ranges with a code point in common are in the same order, of the lines of `unk.def` those of the same category; no line of `matrix.def` is for the same pair
of ids as another. -/
structure Reordered (c c' : Contents) : Prop where
  defs : c'.defs.Perm c.defs
  ranges : ∀ p, c'.defs.filter (DefLine.covers p) = c.defs.filter (DefLine.covers p)
  unk : ∀ name, c'.unk.filter (·.name = name) = c.unk.filter (·.name = name)
  costs : c'.costs.Perm c.costs
  pairs : c.costs.Pairwise fun l m => ¬(l.forward = m.forward ∧ l.backward = m.backward)
  rows : c'.rows = c.rows

end Verif.Spec
