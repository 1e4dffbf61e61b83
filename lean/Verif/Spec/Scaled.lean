import Verif.Spec.Renamed
/-! Sources that differ in the unit of the costs, and in how they are shared between words and connections. -/
namespace Verif.Spec
open Verif.Model

/-- The second lexicon has the same words, unknown words and categories. All costs are multiplied by `k`; then every word costs `α` of its left context and `β` of its right context more,
and a connection of these contexts as much less. -/
structure Scaled (k : Int) (α β : UInt16 → Int) (L L' : Lexicon) : Prop where
  factor : 0 < k
  words : List.Forall₂ (fun w w' => w'.surface = w.surface ∧ w'.leftId = w.leftId ∧ w'.rightId = w.rightId ∧ w'.details = w.details ∧
    w'.cost.toInt = k * w.cost.toInt + α w.leftId + β w.rightId) L.words L'.words
  unk : List.Forall₂ (fun l l' => l'.name = l.name ∧ l'.left = l.left ∧ l'.right = l.right ∧ l'.cost.toInt = k * l.cost.toInt + α l.left + β l.right) L.unk L'.unk
  defs : L'.defs = L.defs
  costs : ∀ r l, L.RightUsed r → L.LeftUsed l → L'.conn r l = k * L.conn r l - β r - α l

/-- The second mode has `k` times the penalties of the first. -/
def ScaledMode (k : Int) : Mode → Mode → Prop
  | .normal, .normal => True
  | .decompose p, .decompose p' => p'.kanjiThreshold = p.kanjiThreshold ∧ p'.otherThreshold = p.otherThreshold ∧
      p'.kanjiPenalty.toInt = k * p.kanjiPenalty.toInt ∧ p'.otherPenalty.toInt = k * p.otherPenalty.toInt
  | _, _ => False

end Verif.Spec
