import Verif.Model.Connection
import Verif.Spec.Text
/-! What a connection matrix file says. -/
namespace Verif.Spec
open Verif.Model

/-- A cost line: forward id, backward id, cost. -/
structure CostLine where
  forward : Nat
  backward : Nat
  cost : Int16
  deriving DecidableEq, Repr

/-- The numbers of a line, separated by white space. -/
def NumberLine (line : Str) (zs : List Int) : Prop := ∃ ws, Words IsSpace line ws ∧ List.Forall₂ Signed ws zs

/-- A matrix file: a line with the two sizes, then the cost lines. -/
def MatrixText (text : Str) (forwardSize backwardSize : Nat) (costs : List CostLine) : Prop :=
  ∃ header rows, TextLines text (header :: rows) ∧ NumberLine header [(forwardSize : Int), (backwardSize : Int)] ∧
    List.Forall₂ (fun line l => NumberLine line [(l.forward : Int), (l.backward : Int), l.cost.toInt]) rows costs

/-- The cost given by the last line for the pair, or `i16::MAX` if there is none. -/
def lastCost : List CostLine → Nat → Nat → Int16
  | [], _, _ => 32767
  | l :: ls, f, b =>
    if ls.any (fun l => l.forward = f ∧ l.backward = b) then lastCost ls f b
    else if l.forward = f ∧ l.backward = b then l.cost else 32767

end Verif.Spec
