import Verif.Model.Viterbi
/-!
What tokenization of one sentence is supposed to compute, stated with dictionary lookups only: words
that may be used at a place, segmentations, and their cost. No lattice, no edge ids, no back pointers.
-/
namespace Verif.Spec
open Verif.Model

/-- A word of a segmentation: its text and the dictionary (or unknown-word) entry it stands for. -/
structure Word where
  surface : Str
  entry : WordEntry

/-- `entry` is listed by the dictionary for exactly this surface (`PrefixDict::find_surface`). -/
def InDict (d : PrefixDict) (surface : Str) (entry : WordEntry) : Prop :=
  ∃ es, d.findSurface surface = .ok es ∧ entry ∈ es

/-- A word of the user or the system dictionary is a non-empty prefix of `rest`. -/
def DictWordAt (env : LatticeEnv) (rest : Str) (w : Word) : Prop :=
  w.surface ≠ [] ∧ w.surface <+: rest ∧
    ((∃ u, env.userDict = some u ∧ InDict u w.surface w.entry) ∨ InDict env.dict w.surface w.entry)

/-- The character has category `cat` at rank `ord`. -/
def hasCategory (cd : CharDefs) (cat ord : Nat) (c : Char) : Bool :=
  match cd.lookupCategories c with
  | .ok cats => cats[ord]? == some cat
  | .error _ => false

/-- The text of an unknown word of a category: one character, or for a grouping category the maximal
run of characters that have the category at the same rank. -/
def unknownText (cd : CharDefs) (cat ord : Nat) (group : Bool) : Str → Str
  | [] => []
  | c :: cs => c :: (if group then cs.takeWhile (hasCategory cd cat ord) else [])

/-- Category `cat` (at rank `ord` of the next character) proposes the unknown word text `s` at `rest`: its invoke flag is set
or no dictionary word starts there. -/
def Proposes (env : LatticeEnv) (rest : Str) (cat ord : Nat) (s : Str) : Prop :=
  ∃ c tail cats data, rest = c :: tail ∧ env.charDefs.lookupCategories c = .ok cats ∧
    cats[ord]? = some cat ∧ env.charDefs.lookupDefinition cat = .ok data ∧
    (data.invoke = true ∨ ¬ ∃ w, DictWordAt env rest w) ∧
    s = unknownText env.charDefs cat ord data.group rest

/-- An unknown word that may start at `rest`. -/
def UnknownWordAt (env : LatticeEnv) (rest : Str) (w : Word) : Prop :=
  ∃ cat ord ids id, Proposes env rest cat ord w.surface ∧ env.unk.lookupWordIds cat = .ok ids ∧
    id ∈ ids ∧ env.unk.wordEntry id = .ok w.entry

/-- The end of the unknown word proposed last (over the categories in rank order) at byte `k`, if any. -/
def LastProposal (env : LatticeEnv) (rest : Str) (k : Nat) (o : Option Nat) : Prop :=
  (∃ cat ord s, Proposes env rest cat ord s ∧ o = some (k + blen s) ∧
      ∀ cat' ord' s', Proposes env rest cat' ord' s' → ord' ≤ ord) ∨
  (o = none ∧ ¬ ∃ cat ord s, Proposes env rest cat ord s)

/-- In normal mode unknown words are not looked for inside the unknown word found last. `latest` is where that word ends. -/
def unknownOpen (mode : Mode) (latest : Option Nat) (k : Nat) : Prop :=
  mode ≠ .normal ∨ ∀ e, latest = some e → e ≤ k

/-- `w` may be used at byte `k`, where `rest` begins. -/
def WordAt (env : LatticeEnv) (rest : Str) (k : Nat) (latest : Option Nat) (w : Word) : Prop :=
  DictWordAt env rest w ∨ (unknownOpen env.mode latest k ∧ UnknownWordAt env rest w)

/-- Left-to-right scan of the text. `Scan env text k reach latest`: looking only at words that start before byte `k`, the bytes
satisfying `reach` can be reached from the start of the text by words in use, and `latest` is
the end of the unknown word proposed last. -/
inductive Scan (env : LatticeEnv) (text : Str) : Nat → (Nat → Prop) → Option Nat → Prop where
  | start : Scan env text 0 (fun p => p = 0) none
  | skip {k reach latest} : Scan env text k reach latest → ¬ reach k → Scan env text (k + 1) reach latest
  | closed {k reach latest pre rest} : Scan env text k reach latest → reach k →
      text = pre ++ rest → blen pre = k → ¬ unknownOpen env.mode latest k →
      Scan env text (k + 1)
        (fun p => reach p ∨ ∃ w, WordAt env rest k latest w ∧ p = k + blen w.surface) latest
  | opened {k reach latest pre rest proposal} : Scan env text k reach latest → reach k →
      text = pre ++ rest → blen pre = k → unknownOpen env.mode latest k →
      LastProposal env rest k proposal →
      Scan env text (k + 1)
        (fun p => reach p ∨ ∃ w, WordAt env rest k latest w ∧ p = k + blen w.surface)
        (proposal.or latest)

/-- `w` may be used in a segmentation of `text` after the prefix `pre`. -/
def Usable (env : LatticeEnv) (text pre : Str) (w : Word) : Prop :=
  ∃ rest reach latest, text = pre ++ rest ∧ Scan env text (blen pre) reach latest ∧
    WordAt env rest (blen pre) latest w

/-- `ws` segments `text` into usable words, starting after the prefix `pre`. -/
def SegFrom (env : LatticeEnv) (text : Str) : Str → List Word → Prop
  | pre, [] => pre = text
  | pre, w :: ws => Usable env text pre w ∧ SegFrom env text (pre ++ w.surface) ws

/-- `ws` is a segmentation of `text`. -/
def Segmentation (env : LatticeEnv) (text : Str) (ws : List Word) : Prop := SegFrom env text [] ws

/-- Connection cost between a left word and a right word (`ConnectionCostMatrix::cost`), as an integer; 0 if the matrix has no such cell (then
tokenization panics). -/
def conn (m : ConnMatrix) (left right : WordEntry) : Int :=
  match m.cost left.rightId.toUInt32 right.leftId.toUInt32 with
  | .ok c => c.toInt
  | .error _ => 0

/-- Length of a word as lindera counts it: UTF-8 bytes divided by three. -/
def charCount (s : Str) : Nat := blen s / 3

/-- A kanji, as lindera counts them: U+4E00 to U+9FAF. -/
def isKanjiChar (c : Char) : Bool := decide ('\u4E00' ≤ c ∧ c ≤ '\u9FAF')

/-- The mode's penalty for a word, over the integers. -/
def penalty : Mode → Str → Int
  | .normal, _ => 0
  | .decompose p, s =>
    if charCount s ≤ p.kanjiThreshold then 0
    else if s.all isKanjiChar then ((charCount s - p.kanjiThreshold : Nat) : Int) * p.kanjiPenalty.toInt
    else if p.otherThreshold < charCount s then
      ((charCount s - p.otherThreshold : Nat) : Int) * p.otherPenalty.toInt
    else 0

/-- Cost of a segmentation continued after a word with entry `left`: word costs, connection costs (the end of the sentence counts as a
word with context ids 0) and penalties. -/
def costFrom (m : ConnMatrix) (mode : Mode) : WordEntry → List Word → Int
  | left, [] => conn m left WordEntry.default
  | left, w :: ws =>
    conn m left w.entry + w.entry.wordCost.toInt + penalty mode w.surface + costFrom m mode w.entry ws

/-- Total cost of a segmentation (the start of the sentence counts as a word with context ids 0). -/
def cost (m : ConnMatrix) (mode : Mode) (ws : List Word) : Int :=
  costFrom m mode WordEntry.default ws

/-! ### Overflow -/

/-- The larger of the two penalties per character. -/
def maxPenalty : Mode → Nat
  | .normal => 0
  | .decompose p => max p.kanjiPenalty.toInt.natAbs p.otherPenalty.toInt.natAbs

/-- The sentence is short enough that no cost can leave the range of `i32`. -/
def NoOverflow (mode : Mode) (text : Str) : Prop :=
  65536 * (text.length + 1) + maxPenalty mode * (blen text / 3) < 2 ^ 31

/-- `ws` is the beginning of a cut of `text` into usable words. -/
def Begins (env : LatticeEnv) (text : Str) (ws : List Word) : Prop :=
  ∀ a w b, ws = a ++ w :: b → Usable env text (a.map (·.surface)).flatten w

/-- Cost of a beginning, continued after a word with entry `left`: as `costFrom`, without the connection to what follows. -/
def costBefore (m : ConnMatrix) (mode : Mode) : WordEntry → List Word → Int
  | _, [] => 0
  | left, w :: ws => conn m left w.entry + w.entry.wordCost.toInt + penalty mode w.surface + costBefore m mode w.entry ws

/-- The costs of all beginnings lie in the range of `i32`, with room for the cost of one more connection. -/
def CostsFit (env : LatticeEnv) (m : ConnMatrix) (text : Str) : Prop :=
  ∀ ws, Begins env text ws → -2 ^ 31 + 32768 ≤ costBefore m env.mode .default ws ∧ costBefore m env.mode .default ws + 32768 < 2 ^ 31

/-- `ws` has the least cost among all segmentations of `text`. -/
def Cheapest (env : LatticeEnv) (m : ConnMatrix) (text : Str) (ws : List Word) : Prop :=
  ∀ vs, Segmentation env text vs → cost m env.mode ws ≤ cost m env.mode vs

/-! ### Ties -/

/-- The word comes from the user dictionary. -/
def UserWord (env : LatticeEnv) (w : Word) : Prop := ∃ u, env.userDict = some u ∧ InDict u w.surface w.entry

/-- The word comes from the user or the system dictionary (it is not only an unknown word). -/
def AnyDictWord (env : LatticeEnv) (w : Word) : Prop := UserWord env w ∨ InDict env.dict w.surface w.entry

/-- The dictionaries carry the flags they are built with: the system dictionary is marked as system, the user dictionary is not. -/
def FlagsOk (env : LatticeEnv) : Prop :=
  env.dict.isSystem = true ∧ ∀ u, env.userDict = some u → u.isSystem = false

/-- Of two words ending at the same place, `v` is the one to keep: it starts earlier; or it starts at the same place, and it is a user
word if the other is, and a dictionary word if the other is. -/
def Preferred (env : LatticeEnv) (v v' : Word) : Prop :=
  blen v'.surface < blen v.surface ∨
  (v'.surface = v.surface ∧ (UserWord env v' → UserWord env v) ∧ (AnyDictWord env v' → AnyDictWord env v))

/-- Where a word is written: as the `i`-th of the dictionary words with its surface (those of the user dictionary come first), or as the `i`-th unknown-word entry of the category at
this rank of its first character. -/
inductive Slot where
  | known (i : Nat)
  | unknown (rank i : Nat)

/-- The order of places: dictionary words before unknown words, then as they are listed. -/
def Slot.le : Slot → Slot → Prop
  | .known i, .known j => i ≤ j
  | .known _, .unknown _ _ => True
  | .unknown _ _, .known _ => False
  | .unknown r i, .unknown r' j => r < r' ∨ (r = r' ∧ i ≤ j)

/-- The dictionary entries for a surface, those of the user dictionary first. -/
def EntriesFor (env : LatticeEnv) (s : Str) (es : List WordEntry) : Prop :=
  ∃ us ss, ((env.userDict = none ∧ us = []) ∨ ∃ u, env.userDict = some u ∧ u.findSurface s = .ok us) ∧ env.dict.findSurface s = .ok ss ∧ es = us ++ ss

/-- `w` may be used at byte `k`, where `rest` begins, because it is written at this place. -/
def WrittenAt (env : LatticeEnv) (rest : Str) (k : Nat) (latest : Option Nat) (w : Word) : Slot → Prop
  | .known i => w.surface ≠ [] ∧ w.surface <+: rest ∧ ∃ es, EntriesFor env w.surface es ∧ es[i]? = some w.entry
  | .unknown rank i => unknownOpen env.mode latest k ∧ ∃ cat ids id, Proposes env rest cat rank w.surface ∧ env.unk.lookupWordIds cat = .ok ids ∧ ids[i]? = some id ∧
      env.unk.wordEntry id = .ok w.entry

/-- Of two words ending at the same place in the text, `v` (after the prefix `pre` of the text) is the one to keep: it starts earlier; or it starts at the same place and is written first. -/
def ToKeep (env : LatticeEnv) (text pre : Str) (v v' : Word) : Prop :=
  blen v'.surface < blen v.surface ∨
  (v'.surface = v.surface ∧ ∃ rest reach latest, text = pre ++ rest ∧ Scan env text (blen pre) reach latest ∧
    ∃ p, WrittenAt env rest (blen pre) latest v p ∧ ∀ p', WrittenAt env rest (blen pre) latest v' p' → p.le p')

/-- Whenever another segmentation of the same cost shares a tail `b` with `ws`, the word of `ws` before that tail is the one to keep. -/
def KeepRule (env : LatticeEnv) (m : ConnMatrix) (text : Str) (ws : List Word) : Prop :=
  ∀ a v b a' v', ws = a ++ v :: b → Segmentation env text (a' ++ v' :: b) →
    cost m env.mode (a' ++ v' :: b) = cost m env.mode ws → ToKeep env text ((a.map (·.surface)).flatten) v v'

/-- Whenever another segmentation of the same cost shares a tail `b` with `ws`, the word of `ws` before that tail is preferred. -/
def TieRule (env : LatticeEnv) (m : ConnMatrix) (text : Str) (ws : List Word) : Prop :=
  ∀ a v b a' v', ws = a ++ v :: b → Segmentation env text (a' ++ v' :: b) →
    cost m env.mode (a' ++ v' :: b) = cost m env.mode ws → Preferred env v v'

end Verif.Spec
