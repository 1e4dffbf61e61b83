import Verif.Spec.TokenFilter
/-! When the number filter can convert a text. -/
namespace Verif.Spec
open Verif.Model

/-- The units in increasing order; 0 for other characters. -/
def unitRank (c : Char) : Nat :=
  if c = '十' ∨ c = '拾' then 1 else if c = '百' then 2 else if c = '千' then 3 else if c = '万' then 4
  else if c = '億' then 5 else if c = '兆' then 6 else if c = '京' then 7 else if c = '垓' then 8 else 0

/-- The zeros a unit stands for: one to three, or four for each power of 10000. -/
def unitZeros (c : Char) : Nat := if unitRank c ≤ 3 then unitRank c else 4 * (unitRank c - 3)

/-- A character for a digit. -/
def isDigit (c : Char) : Bool := (List.range 10).any fun d => (digitForms d).contains c

/-- The zeros of the next unit from 万 on; 0 if there is none or another character comes first. -/
def scale : Str → Nat
  | [] => 0
  | c :: q => if 4 ≤ unitRank c then unitZeros c else if 0 < unitRank c ∨ isDigit c = true then scale q else 0

/-- The number of places after the digit of a unit that is followed by `q`. -/
def places (u : Char) (q : Str) : Nat := if 4 ≤ unitRank u then unitZeros u else unitZeros u + scale q

/-- The number of bytes of a text without units once its digits are ASCII. -/
def plainBytes (s : Str) : Nat := (s.map fun c => if isDigit c then 1 else c.utf8Size).sum

/-- The bytes from the next unit on: `mid` is the text between the unit `u` and the next one. A digit one is supplied for a unit that directly follows a greater one. -/
def fromNextUnit (u : Char) (mid : Str) : Str → Nat
  | [] => 0
  | v :: r => places v r + if mid = [] ∧ unitRank v < unitRank u then 1 else 0

/-- What follows the unit `u` fits into its places: `mid` up to the next unit, `rest` from the next unit on. -/
def UnitFits (u : Char) (mid rest : Str) : Prop := plainBytes mid + fromNextUnit u mid rest ≤ places u (mid ++ rest)

/-- All units of the text fit. -/
def UnitsFit (s : Str) : Prop := ∀ p u mid rest, s = p ++ u :: (mid ++ rest) → 0 < unitRank u → (∀ c ∈ mid, unitRank c = 0) →
  (∀ v, rest.head? = some v → 0 < unitRank v) → UnitFits u mid rest

end Verif.Spec
