import Verif.Spec.Repriced
/-! Sources that differ in the names of categories, the numbers of contexts and the details of words. -/
namespace Verif.Spec
open Verif.Model

/-- The line with other names of categories. -/
def DefLine.rename (ν : Str → Str) : DefLine → DefLine
  | .category name data => .category (ν name) data
  | .range low high names => .range low high (names.map ν)

/-- The context id is that of the edge of a sentence, of a word, or of an unknown word. -/
def Lexicon.LeftUsed (L : Lexicon) (id : UInt16) : Prop := id = 0 ∨ (∃ w ∈ L.words, w.leftId = id) ∨ ∃ l ∈ L.unk, l.left = id
def Lexicon.RightUsed (L : Lexicon) (id : UInt16) : Prop := id = 0 ∨ (∃ w ∈ L.words, w.rightId = id) ∨ ∃ l ∈ L.unk, l.right = id

/-- The second lexicon has the same words, with left and right context ids renumbered by `lm` and `rm` and any details, the same `char.def` with categories renamed by `ν`, the same lines of `unk.def` with these
changes, and the same connection costs for the renumbered ids. -/
structure Renamed (lm rm : UInt16 → UInt16) (ν : Str → Str) (L L' : Lexicon) : Prop where
  words : List.Forall₂ (fun w w' => w'.surface = w.surface ∧ w'.leftId = lm w.leftId ∧ w'.rightId = rm w.rightId ∧ w'.cost = w.cost) L.words L'.words
  unk : L'.unk = L.unk.map fun l => ⟨ν l.name, lm l.left, rm l.right, l.cost⟩
  defs : L'.defs = L.defs.map (DefLine.rename ν)
  names : Function.Injective ν
  default : ν "DEFAULT".toList = "DEFAULT".toList
  edge : lm 0 = 0 ∧ rm 0 = 0
  costs : ∀ r l, L.RightUsed r → L.LeftUsed l → L'.conn (rm r) (lm l) = L.conn r l

/-- The details are the same, too. -/
def SameDetails (L L' : Lexicon) : Prop := L'.words.map (·.details) = L.words.map (·.details)

end Verif.Spec
