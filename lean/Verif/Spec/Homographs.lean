import Verif.Spec.Repriced
/-! Word lists that differ in the order of words, in where words are registered, or in a word that has the same text as another. -/
namespace Verif.Spec
open Verif.Model

/-- For every text both lexicons have the same words with this text, in the same order, and everything else is the same. -/
def SameHomographs (L L' : Lexicon) : Prop :=
  (∀ s, L.words.filter (·.surface = s) = L'.words.filter (·.surface = s)) ∧ L'.defs = L.defs ∧ L'.unk = L.unk ∧ L'.costs = L.costs

/-- The second lexicon is the first without one of its words, which comes after `before`. -/
def Without (L L' : Lexicon) (before : List Item) (w : Item) : Prop :=
  (∃ after, L.words = before ++ w :: after ∧ L'.words = before ++ after) ∧ L'.defs = L.defs ∧ L'.unk = L.unk ∧ L'.costs = L.costs

/-- The words have the same text and the same context ids. -/
def Alike (u w : Item) : Prop := u.surface = w.surface ∧ u.leftId = w.leftId ∧ u.rightId = w.rightId

end Verif.Spec
