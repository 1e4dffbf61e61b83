import Verif.Spec.AnalyzerConfig
import Verif.Spec.Analyzer
import Verif.Spec.TokenFilter
/-! What a filter with a given setting does, for all kinds of filters. -/
namespace Verif.Spec
open Verif.Model

/-! ### Token filters -/

/-- Each token keeps everything but its text, which changes as `P` says. -/
def Retexted (P : FToken → Str → Prop) (tokens out : List FToken) : Prop :=
  List.Forall₂ (fun t t' => ∃ s, t' = { t with text := s } ∧ P t s) tokens out

/-- The text of a known word becomes the detail `i`; unknown words keep their text. -/
def FormText (i : Nat) (t : FToken) (s : Str) : Prop :=
  (t.details.head? = some "UNK".toList ∧ s = t.text) ∨ (t.details.head? ≠ some "UNK".toList ∧ t.details[i]? = some s)

/-- The details that hold the base form, for a dictionary that is compiled in. -/
def baseColumn (features : Features) (kind : DictionaryKind) (i : Nat) : Prop :=
  (kind = .ipadic ∧ features.ipadic = true ∧ i = 6) ∨ (kind = .ipadicNeologd ∧ features.ipadicNeologd = true ∧ i = 6) ∨
  (kind = .unidic ∧ features.unidic = true ∧ i = 10)

/-- The details that hold the reading. -/
def readingColumn (features : Features) (kind : DictionaryKind) (i : Nat) : Prop :=
  (kind = .ipadic ∧ features.ipadic = true ∧ i = 7) ∨ (kind = .ipadicNeologd ∧ features.ipadicNeologd = true ∧ i = 7) ∨
  (kind = .unidic ∧ features.unidic = true ∧ i = 6)

/-- The text of a katakana word of more than `min` characters loses its final `ー`. -/
def StemText (min : Nat) (t : FToken) (s : Str) : Prop :=
  ((∀ c ∈ t.text, 0x30A0 ≤ c.toNat ∧ c.toNat ≤ 0x30FF) ∧ min < t.text.length ∧ t.text = s ++ ['ー']) ∨
  (¬ ((∀ c ∈ t.text, 0x30A0 ≤ c.toNat ∧ c.toNat ≤ 0x30FF) ∧ min < t.text.length ∧ ∃ stem, t.text = stem ++ ['ー']) ∧ s = t.text)

/-- Kanji numerals become the decimal number and the digits of other texts ASCII digits, in tokens with one of the tags (all tokens if no tags are given). -/
def NumberText (tags : Option (List Str)) (t : FToken) (s : Str) : Prop :=
  ((∀ ts, tags = some ts → HasTag ts t) → (∀ n, KanjiNumeral n t.text → s = Nat.toDigits 10 n) ∧
    ((∀ c ∈ t.text, c ∉ unitChars) → List.Forall₂ AsDigit t.text s)) ∧
  (∀ ts, tags = some ts → ¬ HasTag ts t → s = t.text)

/-- What the token filter with this setting makes of the tokens. -/
def TokenEffect (env : FilterEnv) (s : TokenFilterSetting) (tokens out : List FToken) : Prop :=
  match s with
  | .japaneseBaseForm kind => Retexted (fun t s => (∀ i, baseColumn env.features kind i → FormText i t s) ∧ ((∀ i, ¬ baseColumn env.features kind i) → s = t.text)) tokens out
  | .japaneseCompoundWord kind tags newTag => ∃ runs, Runs (HasTag tags) tokens runs ∧ List.Forall₂ (Merged (CompoundDetails env.features kind newTag)) runs out
  | .japaneseKana .hiragana => Retexted (fun t s => s = env.hiragana t.text) tokens out
  | .japaneseKana .katakana => Retexted (fun t s => s = env.katakana t.text) tokens out
  | .japaneseKatakanaStem min => Retexted (StemText min) tokens out
  | .japaneseKeepTags tags => Kept (HasTag tags) tokens out
  | .japaneseNumber tags => Retexted (NumberText tags) tokens out
  | .japaneseReadingForm kind =>
    Retexted (fun t s => (∀ i, readingColumn env.features kind i → FormText i t s) ∧ ((∀ i, ¬ readingColumn env.features kind i) → s = t.text)) tokens out
  | .japaneseStopTags tags => Kept (fun t => ¬ HasTag tags t) tokens out
  | .keepWords words => Kept (fun t => t.text ∈ words) tokens out
  | .koreanKeepTags tags => Kept (fun t => ∃ tag ∈ tags, t.details.head? = some tag) tokens out
  | .koreanReadingForm => Retexted (FormText 3) tokens out
  | .koreanStopTags tags => Kept (fun t => ¬ ∃ tag ∈ tags, t.details.head? = some tag) tokens out
  | .length min max => Kept (fun t => (∀ m, min = some m → m ≤ t.text.length) ∧ (∀ m, max = some m → t.text.length ≤ m)) tokens out
  | .lowercase => Retexted (fun t s => s = env.toLowercase t.text) tokens out
  | .mapping m => Retexted (fun t s => ∃ ps, LongestMatch m t.text ps ∧ source ps = t.text ∧ s = target ps) tokens out
  | .stopWords words => Kept (fun t => t.text ∉ words) tokens out
  | .uppercase => Retexted (fun t s => s = env.toUppercase t.text) tokens out

/-- The tokens that the filter is made for: with the details it looks at, with characters in Unicode blocks, and with texts that are numerals or have no numeral units. -/
def TokenAccepts (env : FilterEnv) (s : TokenFilterSetting) (tokens : List FToken) : Prop :=
  match s with
  | .japaneseBaseForm kind => ∀ t ∈ tokens, t.details ≠ [] ∧ (t.details.head? = some "UNK".toList ∨ ∀ i, baseColumn env.features kind i → i < t.details.length)
  | .japaneseReadingForm kind => ∀ t ∈ tokens, t.details ≠ [] ∧ (t.details.head? = some "UNK".toList ∨ ∀ i, readingColumn env.features kind i → i < t.details.length)
  | .koreanReadingForm => ∀ t ∈ tokens, t.details.head? = some "UNK".toList ∨ 3 < t.details.length
  | .japaneseCompoundWord .. | .japaneseKeepTags _ | .japaneseStopTags _ | .koreanKeepTags _ | .koreanStopTags _ => ∀ t ∈ tokens, t.details ≠ []
  | .japaneseKatakanaStem _ => ∀ t ∈ tokens, ∀ c ∈ t.text, (env.block c).isSome
  | .japaneseNumber _ => ∀ t ∈ tokens, t.details ≠ [] ∧ ((∃ n, KanjiNumeral n t.text) ∨ ∀ c ∈ t.text, c ∉ unitChars)
  | _ => True

/-! ### Character filters -/

/-- What the filter with this setting makes of a text: the cutting into pieces with their replacements. -/
def CharCut (env : FilterEnv) (s : CharFilterSetting) (text : Str) (ps : List Piece) : Prop :=
  match s with
  | .mapping m => LongestMatch m text ps
  | .regex pattern replacement => ∃ find, env.regex pattern = some find ∧ Matches (fun _ => replacement) 0 (find text) text ps
  | .unicodeNormalize form => ps = (env.graphemes text).map fun g => ⟨g, env.normalForm form g⟩
  | .iterationMark kanji kana => ps.map (·.src) = text.map ([·]) ∧ ∃ out : Str, ps.map (·.dst) = out.map ([·]) ∧
      (∀ (q : Nat) c, text[q]? = some c → ¬ IsMark ⟨kanji, kana⟩ c → out[q]? = some c) ∧
      ∀ s k j m c, MarkGroup ⟨kanji, kana⟩ text s k → j < k → text[s + j]? = some m → text[s + j - min s k]? = some c → out[s + j]? = some (repeated m c)

/-- The texts that a character filter is made for: a replacement of a regular expression has no references and its matches are as `Matches` says and not empty, iteration marks repeat characters
of their own length, and the grapheme clusters partition the text. -/
def CharAccepts (env : FilterEnv) (s : CharFilterSetting) (text : Str) : Prop :=
  match s with
  | .mapping _ => True
  | .regex pattern replacement => '$' ∉ replacement ∧
      ∃ find ps, env.regex pattern = some find ∧ Matches (fun _ => replacement) 0 (find text) text ps ∧ ∀ p ∈ ps, p.src ≠ []
  | .unicodeNormalize _ => (env.graphemes text).flatten = text ∧ ∀ g ∈ env.graphemes text, g ≠ []
  | .iterationMark kanji kana => ∀ s k j c, MarkGroup ⟨kanji, kana⟩ text s k → j < k → text[s + j - min s k]? = some c → c.utf8Size = 3

end Verif.Spec
