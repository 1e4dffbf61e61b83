import Verif.Spec.Segmentation
import Verif.Spec.Tokens
/-! Comparing the modes of tokenization. -/
namespace Verif.Spec
open Verif.Model

/-- The same dictionaries in another mode. -/
def inMode (t : Tokenizer) (mode : Mode) : Tokenizer := { t with mode := mode }

/-- No word costs less in the second mode than in the first. -/
def Dearer (mode mode' : Mode) : Prop := ∀ s, penalty mode s ≤ penalty mode' s

/-- The penalties of a segmentation. -/
def totalPenalty (mode : Mode) (ws : List Word) : Int := (ws.map fun w => penalty mode w.surface).sum

/-- In normal mode, no byte of the text that can be reached lies inside the unknown word proposed last. -/
def NeverInside (t : Tokenizer) (text : Str) : Prop :=
  ∀ k reach latest, k < blen text → Scan (inMode t .normal).env text k reach latest → reach k → ∀ e, latest = some e → e ≤ k

end Verif.Spec
