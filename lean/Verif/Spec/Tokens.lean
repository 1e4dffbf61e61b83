import Verif.Spec.Segmentation
import Verif.Model.Tokenizer
/-! What the tokenizer's output should look like, stated without the lattice. -/
namespace Verif.Spec
open Verif.Model

/-- The tokens for a list of words: contiguous byte ranges from `byte`, positions counted from `pos`. -/
def tokensFor : Nat → Nat → List Word → List Token
  | _, _, [] => []
  | byte, pos, w :: ws =>
    { text := w.surface, byteStart := byte, byteEnd := byte + blen w.surface, position := pos,
      positionLength := 1, wordId := w.entry.wordId, details := none } ::
    tokensFor (byte + blen w.surface) (pos + 1) ws

/-- Every character has at least one category, and every category of a character is defined and has at least one unknown-word entry. -/
def Complete (t : Tokenizer) : Prop :=
  ∀ c : Char, ∃ cats, t.dictionary.charDefinitions.lookupCategories c = .ok cats ∧ cats ≠ [] ∧
    ∀ cat ∈ cats, (∃ data, t.dictionary.charDefinitions.lookupDefinition cat = .ok data) ∧
      ∃ ids, t.dictionary.unknownDictionary.lookupWordIds cat = .ok ids ∧
        ∃ id ∈ ids, ∃ w, t.dictionary.unknownDictionary.wordEntry id = .ok w

/-- The context ids of an entry lie inside a connection matrix with `forward` right-context and `backward` left-context ids. -/
def InMatrix (forward backward : Nat) (e : WordEntry) : Prop :=
  e.rightId.toNat < forward ∧ e.leftId.toNat < backward

/-- A prefix dictionary in which every key is the UTF-8 text of some string and leads to readable entries, all with context ids inside the matrix. -/
def DictOk (forward backward : Nat) (d : PrefixDict) : Prop :=
  ∀ k v, d.da.exactMatch k = some v → (∃ s : Str, k = utf8 s) ∧
    ∃ es, d.entriesAt v = .ok es ∧ ∀ e ∈ es, InMatrix forward backward e

/-- A consistent set of dictionary files: the connection matrix has the size it declares, all context ids of system, user and unknown
words are inside it, every character has a list of categories, and every category is defined and has (possibly no) unknown-word entries. -/
def Consistent (t : Tokenizer) : Prop :=
  ∃ forward backward : Nat, 0 < forward ∧ 0 < backward ∧ forward * backward ≤ 2 ^ 32 ∧
    t.dictionary.costMatrix.backwardSize.toNat = backward ∧
    2 * (forward * backward) ≤ t.dictionary.costMatrix.costsData.length ∧
    DictOk forward backward t.dictionary.dict ∧
    (∀ u, t.userDictionary = some u → DictOk forward backward u.dict) ∧
    ∀ c : Char, ∃ cats, t.dictionary.charDefinitions.lookupCategories c = .ok cats ∧
      ∀ cat ∈ cats, (∃ data, t.dictionary.charDefinitions.lookupDefinition cat = .ok data) ∧
        ∃ ids, t.dictionary.unknownDictionary.lookupWordIds cat = .ok ids ∧
          ∀ id ∈ ids, ∃ w, t.dictionary.unknownDictionary.wordEntry id = .ok w ∧ InMatrix forward backward w

/-- The characters that end a sentence: the ideographic full stop and comma, line feed and tab. -/
def delimiters : List Char := ['。', '、', '\n', '\t']

/-- The sentences of a text: `text` is cut after every delimiter character. -/
inductive Sentences : Str → List Str → Prop where
  | nil : Sentences [] []
  | last {s} : s ≠ [] → (∀ c ∈ s, c ∉ delimiters) → Sentences s [s]
  | cons {s d rest ss} : (∀ c ∈ s, c ∉ delimiters) → d ∈ delimiters →
      Sentences rest ss → Sentences (s ++ d :: rest) ((s ++ [d]) :: ss)

end Verif.Spec
