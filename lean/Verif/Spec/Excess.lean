import Verif.Spec.Modes
/-! How much of a word's length is penalized in decompose mode. -/
namespace Verif.Spec
open Verif.Model

/-- The part of the length of an all-kanji word (UTF-8 bytes divided by three) that lies above the threshold. -/
def kanjiExcess (p : Penalty) (s : Str) : Nat := if s.all isKanjiChar then charCount s - p.kanjiThreshold else 0

/-- The part of the length of any other word that lies above its threshold. (Words that are not longer than the threshold for kanji words get no penalty either.) -/
def otherExcess (p : Penalty) (s : Str) : Nat := if s.all isKanjiChar ∨ charCount s ≤ p.kanjiThreshold then 0 else charCount s - p.otherThreshold

/-- Over the tokens of a text. -/
def kanjiTotal (p : Penalty) (toks : List Token) : Nat := (toks.map fun t => kanjiExcess p t.text).sum
def otherTotal (p : Penalty) (toks : List Token) : Nat := (toks.map fun t => otherExcess p t.text).sum

end Verif.Spec
