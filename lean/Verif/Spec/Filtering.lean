import Verif.Model.Analyzer
/-! The text that character filters give: C106. -/
namespace Verif.Spec
open Verif.Model

/-- The filters, one after the other, make `final` of `text`. -/
inductive FiltersTo : List CharFilter → Str → Str → Prop where
  | nil (text : Str) : FiltersTo [] text text
  | cons (f : CharFilter) (fs : List CharFilter) (text new final : Str) (t : OffsetTable) (first : f text = .ok (new, t)) (rest : FiltersTo fs new final) : FiltersTo (f :: fs) text final

/-- The token with other byte offsets. -/
def relocated (back : Nat → Nat) (t : FToken) : FToken := { t with byteStart := back t.byteStart, byteEnd := back t.byteEnd }

end Verif.Spec
