import Verif.Model.Basic
/-! Calls that end. -/
namespace Verif.Spec
open Verif.Model

/-- The call does not run forever: it returns a value or an error, or panics. -/
def Ends {α : Type} (r : R α) : Prop := r ≠ .error .diverge

/-- The call returns a value or panics: it does not run forever, and returns no error. -/
def ReturnsOrPanics {α : Type} (r : R α) : Prop := (∃ a, r = .ok a) ∨ r = .error .panic

end Verif.Spec
