import Verif.Model.CharFilter
/-!
What the character filters do, stated with pieces: a filter cuts the text into pieces and replaces each piece. No offset tables,
differences or tries.
-/
namespace Verif.Spec
open Verif.Model

/-- A piece of the original text and what the filter puts in its place. -/
structure Piece where
  src : Str
  dst : Str
  deriving DecidableEq, Repr

/-- The original text. -/
def source (ps : List Piece) : Str := ps.flatMap (·.src)

/-- The filtered text. -/
def target (ps : List Piece) : Str := ps.flatMap (·.dst)

/-- Characters that are kept: a piece each. -/
def copied (s : Str) : List Piece := s.map fun c => ⟨[c], [c]⟩

/-- Offset `o` of the filtered text is a boundary between pieces, and lies at offset `i` of the original text. Where pieces were deleted several
boundaries of the original text fall on the same offset of the filtered text: the rightmost is meant, the next piece is not a deletion. -/
def Boundary (ps : List Piece) (o i : Nat) : Prop :=
  ∃ pre post, ps = pre ++ post ∧ o = blen (target pre) ∧ i = blen (source pre) ∧ ∀ p, post.head? = some p → p.dst ≠ []

/-- Where byte `o` of the filtered text comes from: byte `j` of a replacement comes from byte `j` of the piece it replaces, or its last byte if the piece is
shorter; past the end one continues counting. -/
def sourceOffset : List Piece → Nat → Nat
  | [], o => o
  | p :: ps, o => if o < blen p.dst then min o (blen p.src - 1) else blen p.src + sourceOffset ps (o - blen p.dst)

/-- The cutting of a text by a mapping: at each position the longest key that matches is replaced by its value, and a character is kept if no
key matches. -/
inductive LongestMatch (m : StrMap) : Str → List Piece → Prop where
  | done : LongestMatch m [] []
  | replace (k v r : Str) (ps : List Piece) (mem : (k, v) ∈ m) (longest : ∀ k' v', (k', v') ∈ m → k' <+: k ++ r → k'.length ≤ k.length)
      (rest : LongestMatch m r ps) : LongestMatch m (k ++ r) (⟨k, v⟩ :: ps)
  | keep (c : Char) (r : Str) (ps : List Piece) (noKey : ∀ k v, (k, v) ∈ m → ¬ k <+: c :: r)
      (rest : LongestMatch m r ps) : LongestMatch m (c :: r) (⟨[c], [c]⟩ :: ps)

/-- A usable mapping: at least one key, no key twice, keys not empty and without NUL, fewer than 2^31 keys. -/
structure MappingOk (m : StrMap) : Prop where
  nonempty : m ≠ []
  distinct : (m.map (·.1)).Nodup
  keys : ∀ k v, (k, v) ∈ m → k ≠ [] ∧ '\x00' ∉ k
  size : m.length < 2 ^ 31

/-- The cutting of a text, from byte `o` on, by the matches of a regular expression: the matches come in order, do not overlap and lie on
character boundaries; a match is replaced by `dst` of it, the characters between the matches are kept. -/
inductive Matches (dst : RegexMatch → Str) : Nat → List RegexMatch → Str → List Piece → Prop where
  | done (o : Nat) (s : Str) : Matches dst o [] s (copied s)
  | hit (o : Nat) (m : RegexMatch) (ms : List RegexMatch) (gap mt r : Str) (ps : List Piece) (start : m.start = o + blen gap)
      (stop : m.stop = m.start + blen mt) (rest : Matches dst m.stop ms r ps) :
      Matches dst o (m :: ms) (gap ++ mt ++ r) (copied gap ++ ⟨mt, dst m⟩ :: ps)

/-- The characters of a group's name in a replacement. -/
def NameChar (c : Char) : Prop := ('0' ≤ c ∧ c ≤ '9') ∨ ('A' ≤ c ∧ c ≤ 'Z') ∨ ('a' ≤ c ∧ c ≤ 'z') ∨ c = '_'

/-- What a replacement stands for, given the texts of the groups: `$$` is a dollar, `${name}` and `$name` (with the longest possible name) are the group's text, another `$` and everything else stand
for themselves. -/
inductive Expands (group : Str → Str) : Str → Str → Prop where
  | nil : Expands group [] []
  | char {c s o} : c ≠ '$' → Expands group s o → Expands group (c :: s) (c :: o)
  | dollar {s o} : Expands group s o → Expands group ('$' :: '$' :: s) ('$' :: o)
  | braced {name s o} : '}' ∉ name → Expands group s o → Expands group ('$' :: '{' :: (name ++ '}' :: s)) (group name ++ o)
  | named {name s o} : name ≠ [] → (∀ c ∈ name, NameChar c) → (∀ c, s.head? = some c → ¬ NameChar c) → Expands group s o → Expands group ('$' :: (name ++ s)) (group name ++ o)
  | bare {s o} : (∀ c, s.head? = some c → c ≠ '$' ∧ ¬ NameChar c) → (s.head? = some '{' → '}' ∉ s) → Expands group s o → Expands group ('$' :: s) ('$' :: o)

/-! ### Iteration marks -/

/-- Unvoiced kana with their voiced forms. -/
def voicedHiragana : List (Char × Char) :=
  [('か', 'が'), ('き', 'ぎ'), ('く', 'ぐ'), ('け', 'げ'), ('こ', 'ご'), ('さ', 'ざ'), ('し', 'じ'), ('す', 'ず'), ('せ', 'ぜ'), ('そ', 'ぞ'),
   ('た', 'だ'), ('ち', 'ぢ'), ('つ', 'づ'), ('て', 'で'), ('と', 'ど'), ('は', 'ば'), ('ひ', 'び'), ('ふ', 'ぶ'), ('へ', 'べ'), ('ほ', 'ぼ')]

def voicedKatakana : List (Char × Char) :=
  [('カ', 'ガ'), ('キ', 'ギ'), ('ク', 'グ'), ('ケ', 'ゲ'), ('コ', 'ゴ'), ('サ', 'ザ'), ('シ', 'ジ'), ('ス', 'ズ'), ('セ', 'ゼ'), ('ソ', 'ゾ'),
   ('タ', 'ダ'), ('チ', 'ヂ'), ('ツ', 'ヅ'), ('テ', 'デ'), ('ト', 'ド'), ('ハ', 'バ'), ('ヒ', 'ビ'), ('フ', 'ブ'), ('ヘ', 'ベ'), ('ホ', 'ボ')]

/-- The voiced form of a kana by a table, other characters unchanged. -/
def voice (table : List (Char × Char)) (c : Char) : Char := ((table.find? (·.1 = c)).map (·.2)).getD c

/-- The unvoiced form. -/
def unvoice (table : List (Char × Char)) (c : Char) : Char := ((table.find? (·.2 = c)).map (·.1)).getD c

/-- The iteration marks a setting expands. -/
def IsMark (f : IterationMark) (c : Char) : Prop :=
  (f.normalizeKanji = true ∧ c = '々') ∨ (f.normalizeKana = true ∧ c ∈ ['ゝ', 'ゞ', 'ヽ', 'ヾ'])

instance (f : IterationMark) (c : Char) : Decidable (IsMark f c) := inferInstanceAs (Decidable (_ ∨ _))

/-- What a mark stands for when it repeats `c`. -/
def repeated (mark c : Char) : Char :=
  if mark = 'ゝ' then unvoice voicedHiragana c
  else if mark = 'ゞ' then voice voicedHiragana c
  else if mark = 'ヽ' then unvoice voicedKatakana c
  else if mark = 'ヾ' then voice voicedKatakana c
  else c

/-- A maximal group of `k` marks from character `s` on. -/
structure MarkGroup (f : IterationMark) (text : Str) (s k : Nat) : Prop where
  pos : 0 < k
  inside : ∀ j, j < k → ∃ c, text[s + j]? = some c ∧ IsMark f c
  before : ∀ c, 0 < s → text[s - 1]? = some c → ¬ IsMark f c
  after : ∀ c, text[s + k]? = some c → ¬ IsMark f c

end Verif.Spec
