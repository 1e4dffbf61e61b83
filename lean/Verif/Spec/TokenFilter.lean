import Verif.Model.TokenFilter
/-! What the token filters are meant to do. -/
namespace Verif.Spec
open Verif.Model

/-- `out` is `tokens` without the ones that do not satisfy `P`: the others are unchanged and in order. -/
inductive Kept (P : FToken → Prop) : List FToken → List FToken → Prop
  | nil : Kept P [] []
  | keep {t ts out} : P t → Kept P ts out → Kept P (t :: ts) (t :: out)
  | drop {t ts out} : ¬ P t → Kept P ts out → Kept P (t :: ts) out

/-! ### Part-of-speech tags -/

/-- The parts of a tag written with commas. -/
structure TagParts (tag : Str) (parts : List Str) : Prop where
  join : tag = [','].intercalate parts
  nonempty : parts ≠ []
  noComma : ∀ p ∈ parts, ',' ∉ p

/-- A tag of fewer than four parts is completed with stars. -/
def pad (parts : List Str) : List Str := parts ++ List.replicate (4 - parts.length) ['*']

/-- The part of speech of a token: its first four details, or only the first one if there are fewer than four. -/
def partOfSpeech (t : FToken) : List Str :=
  if 4 ≤ t.details.length then t.details.take 4 else pad (t.details.take 1)

/-- The part of speech of the token is one of the configured tags. -/
def HasTag (tags : List Str) (t : FToken) : Prop := ∃ tag ∈ tags, ∃ parts, TagParts tag parts ∧ partOfSpeech t = pad parts

/-! ### Compound words -/

/-- The details of a compound word: `複合語` followed by stars, nine in total (seventeen for UniDic); a new tag replaces the first four. -/
def CompoundDetails (features : Features) (kind : DictionaryKind) (newTag : Option Str) (details : List Str) : Prop :=
  ∃ n, n = (if kind = .unidic ∧ features.unidic = true then 17 else 9) ∧
    match newTag with
    | none => details = "複合語".toList :: List.replicate (n - 1) ['*']
    | some tag => ∃ parts, TagParts tag parts ∧ details = pad parts ++ List.replicate (n - 4) ['*']

/-- The token that replaces a run of tagged tokens. A single token stays as it is. -/
def Merged (details : List Str → Prop) (run : List FToken) (t : FToken) : Prop :=
  run = [t] ∨
  2 ≤ run.length ∧ ∃ first last, run.head? = some first ∧ run.getLast? = some last ∧
    t.text = (run.map (·.text)).flatten ∧
    t.byteStart = first.byteStart ∧ t.byteEnd = last.byteEnd ∧
    t.position = first.position ∧ t.positionLength = (run.map (·.positionLength)).sum ∧
    t.wordId = first.wordId ∧ details t.details

/-- A decomposition of the tokens into maximal runs of tagged tokens and single untagged tokens. -/
structure Runs (tagged : FToken → Prop) (tokens : List FToken) (runs : List (List FToken)) : Prop where
  flatten : runs.flatten = tokens
  nonempty : ∀ r ∈ runs, r ≠ []
  kind : ∀ r ∈ runs, (∀ t ∈ r, tagged t) ∨ (∃ t, r = [t] ∧ ¬ tagged t)
  maximal : ∀ i r r', runs[i]? = some r → runs[i + 1]? = some r' → ¬ ((∀ t ∈ r, tagged t) ∧ (∀ t ∈ r', tagged t))

/-! ### Numbers -/

/-- The characters for a digit. -/
def digitForms : Nat → Str
  | 0 => "0０〇零".toList
  | 1 => "1１一壱".toList
  | 2 => "2２二弐".toList
  | 3 => "3３三参".toList
  | 4 => "4４四".toList
  | 5 => "5５五".toList
  | 6 => "6６六".toList
  | 7 => "7７七".toList
  | 8 => "8８八".toList
  | 9 => "9９九".toList
  | _ => []

/-- How a digit of the thousands, hundreds or tens place is written: not at all if it is zero, the unit alone if it is one, or the digit and the unit. -/
inductive Place (units : List Char) : Nat → Str → Prop
  | zero : Place units 0 []
  | omitted {u} : u ∈ units → Place units 1 [u]
  | digit {d c u} : 1 ≤ d → d ≤ 9 → c ∈ digitForms d → u ∈ units → Place units d [c, u]

/-- How the digit of the ones place is written. -/
inductive Ones : Nat → Str → Prop
  | zero : Ones 0 []
  | digit {d c} : 1 ≤ d → d ≤ 9 → c ∈ digitForms d → Ones d [c]

/-- How a number below 10000 is written in kanji. -/
inductive Below10000 : Nat → Str → Prop
  | mk {a b c d s3 s2 s1 s0} : Place ['千'] a s3 → Place ['百'] b s2 → Place ['十', '拾'] c s1 → Ones d s0 →
      Below10000 (1000 * a + 100 * b + 10 * c + d) (s3 ++ s2 ++ s1 ++ s0)

/-- The name of 10000^k. -/
def largeUnit : Nat → Str
  | 1 => ['万'] | 2 => ['億'] | 3 => ['兆'] | 4 => ['京'] | 5 => ['垓'] | _ => []

/-- How a number below 10000^k (`k ≤ 6`) is written in kanji: in groups of four digits, each followed by the name of its power of 10000; groups that are
zero are left out. -/
inductive Groups : Nat → Nat → Str → Prop
  | none : Groups 0 0 []
  | skip {k n s} : Groups k n s → Groups (k + 1) n s
  | group {k n s g t} : 0 < g → Below10000 g t → Groups k n s → Groups (k + 1) (g * 10000 ^ k + n) (t ++ largeUnit k ++ s)

/-- `s` is a kanji numeral for `n < 10^24`. -/
inductive KanjiNumeral : Nat → Str → Prop
  | zero {c} : c ∈ digitForms 0 → KanjiNumeral 0 [c]
  | pos {n s} : 0 < n → Groups 6 n s → KanjiNumeral n s

/-- The unit characters. -/
def unitChars : List Char := ['十', '拾', '百', '千', '万', '億', '兆', '京', '垓']

/-- Replace a numeral character by its ASCII digit. -/
inductive AsDigit : Char → Char → Prop
  | digit {d c} : d ≤ 9 → c ∈ digitForms d → AsDigit c (Nat.digitChar d)
  | other {c} : (∀ d ≤ 9, c ∉ digitForms d) → AsDigit c c

end Verif.Spec
