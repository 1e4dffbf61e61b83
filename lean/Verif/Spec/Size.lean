import Verif.Spec.Repriced
import Verif.Spec.History
/-! How many words a lattice holds. -/
namespace Verif.Spec
open Verif.Model

/-- How many words of the files could start a text: the records whose surface is a non-empty prefix of it, and the lines of `unk.def` for the categories of its first character. -/
def Lexicon.candidates (L : Lexicon) (rest : Str) : Nat :=
  L.words.countP (fun w => decide (w.surface ≠ [] ∧ w.surface <+: rest)) +
    match rest with
    | [] => 0
    | c :: _ => ((categoriesOf L.defs c.toNat).map fun name => L.unk.countP (fun l => decide (l.name = name))).sum

/-- The same for all positions of a text. -/
def Lexicon.allCandidates (L : Lexicon) : Str → Nat
  | [] => 0
  | c :: s => L.candidates (c :: s) + L.allCandidates s

end Verif.Spec
