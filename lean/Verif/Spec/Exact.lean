import Verif.Model.Basic
/-! Exact conditions for success. -/
namespace Verif.Spec
open Verif.Model

/-- The call returns normally exactly if the condition holds; otherwise it panics. -/
def ReturnsIff {α : Type} (x : R α) (cond : Prop) : Prop := (cond ∧ ∃ a, x = .ok a) ∨ (¬ cond ∧ x = .error .panic)

end Verif.Spec
