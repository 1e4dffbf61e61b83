import Verif.Spec.Locality
/-! Sources that differ in the cost of one word, or in connection costs. -/
namespace Verif.Spec
open Verif.Model

/-- The second lexicon differs from the first only in the cost of one word `w`, which is now `x`. -/
def Repriced (L L' : Lexicon) (w : Item) (x : Int16) : Prop :=
  (∃ before after, L.words = before ++ w :: after ∧ L'.words = before ++ { w with cost := x } :: after) ∧ L'.defs = L.defs ∧ L'.unk = L.unk ∧ L'.costs = L.costs

/-- The word can be told from all others by what its tokens show: no other word has the same text and the same details, and it does not look like an unknown word. -/
def Distinguishable (L : Lexicon) (w : Item) : Prop :=
  (∀ u ∈ L.words, u.surface = w.surface → u.details = w.details → u = w) ∧ w.details ≠ ["UNK".toList]

/-- The token shows the text and the details of the word. -/
def ShowsWord (w : Item) (tok : Str × Nat × Nat × Nat × Option (List Str)) : Bool := decide (tok.1 = w.surface) && decide (tok.2.2.2.2 = some w.details)

/-- How many of the tokens show the word. -/
def uses (w : Item) (shown : List (Str × Nat × Nat × Nat × Option (List Str))) : Nat := shown.countP (ShowsWord w)

/-- The context ids that meet in a segmentation, from the start (0) to the end (0) of the sentence: right context id of a word, left context id of the next. -/
def meetings : UInt16 → List Item → List (UInt16 × UInt16)
  | right, [] => [(right, 0)]
  | right, w :: ws => (right, w.leftId) :: meetings w.rightId ws

/-- Everything a build needs: working library parts, and good sources and an optional good user dictionary that say `c`. -/
structure Ready (env : BuildEnv) (kind : DictionaryKind) (src : SourceDir) (c : Contents) (user : Option (DictionaryKind × List Row)) : Prop where
  yada : YadaContract env.yada
  hashOrder : ∀ index, (env.hashOrder index).Perm index
  contents : Says env kind src c
  good : Good kind c
  user : ∀ k rows, user = some (k, rows) → GoodUser k c rows

end Verif.Spec
