import Verif.Model.Analyzer
/-!
Model of the token filters, `lindera-filter/src/token_filter/` (their `apply` methods and the normalization of their configurations; reading the
configurations from JSON is in `Verif.Model.Config`). A `HashSet<String>` is a list of strings used only for membership.
-/
namespace Verif.Model

/-- `Vec::retain` (Rust alloc): the elements the closure accepts, in order. The closure may panic. -/
def retain (p : FToken → R Bool) : TokenFilter
  | [] => .ok []
  | t :: ts => do
    let keep ← p t
    let rest ← retain p ts
    return if keep then t :: rest else rest

/-- `<[&str]>::join(",")` (Rust alloc). -/
def joinComma : List Str → Str
  | [] => []
  | [s] => s
  | s :: t :: ts => s ++ ',' :: joinComma (t :: ts)

/-! ### Word filters -/

/-- `KeepWordsTokenFilter::apply`, `keep_words.rs` lines 56-60. -/
def keepWords (words : List Str) : TokenFilter := retain fun t => .ok (words.contains t.text)

/-- `StopWordsTokenFilter::apply`, `stop_words.rs` lines 56-60. -/
def stopWords (words : List Str) : TokenFilter := retain fun t => .ok (!words.contains t.text)

/-! ### Length filter -/

/-- The closure of `LengthTokenFilter::apply`, `length.rs` lines 56-69. -/
def lengthKeeps (min max : Option Nat) (t : FToken) : Bool :=
  let len := t.text.length
  if min.any (len < ·) then false
  else if max.any (len > ·) then false
  else true

/-- `LengthTokenFilter::apply`, `length.rs` lines 55-72. -/
def lengthFilter (min max : Option Nat) : TokenFilter := retain fun t => .ok (lengthKeeps min max t)

/-! ### Part-of-speech tags -/

/-- `for (i, j) in parts.iter().enumerate() { base[i] = j }`, as in `japanese_keep_tags.rs` lines 26-28. Panics if there are more parts than places. -/
def overwriteFrom : Nat → List Str → List Str → R (List Str)
  | _, [], base => .ok base
  | i, p :: parts, base =>
    if i < base.length then overwriteFrom (i + 1) parts (base.set i p) else .error .panic

/-- `["*", "*", "*", "*"]`, `japanese_keep_tags.rs` line 23. -/
def fourStars : List Str := [['*'], ['*'], ['*'], ['*']]

/-- One configured tag, `japanese_keep_tags.rs` lines 23-30 (the same code in `japanese_stop_tags.rs` 23-30, `japanese_compound_word.rs` 30-37 and 41-48,
`japanese_number.rs` 25-32): split at commas and written over four stars. -/
def formatTag (tag : Str) : R Str := do
  let parts ← overwriteFrom 0 (splitAll (· = ',') tag) fourStars
  return joinComma parts

/-- `JapaneseKeepTagsTokenFilterConfig::new`, `japanese_keep_tags.rs` lines 20-36, and `JapaneseStopTagsTokenFilterConfig::new`,
`japanese_stop_tags.rs` lines 20-36. -/
def formatTags (tags : List Str) : R (List Str) := tags.mapM formatTag

/-- The part of speech of a token, `japanese_keep_tags.rs` lines 90-95 (the same code in `japanese_stop_tags.rs` 90-95, `japanese_compound_word.rs`
135-141, `japanese_number.rs` 106-111). Slicing panics if the token has no details. -/
def FToken.tag (t : FToken) : R Str := do
  let n := if t.details.length ≥ 4 then 4 else 1
  let first ← orPanic (if n ≤ t.details.length then some (t.details.take n) else none)
  let parts ← overwriteFrom 0 first fourStars
  return joinComma parts

/-- `JapaneseKeepTagsTokenFilter::apply`, `japanese_keep_tags.rs` lines 88-99, with the formatted tags. -/
def japaneseKeepTags (tags : List Str) : TokenFilter := retain fun t => do
  let tag ← t.tag
  return tags.contains tag

/-- `JapaneseStopTagsTokenFilter::apply`, `japanese_stop_tags.rs` lines 88-99, with the formatted tags. -/
def japaneseStopTags (tags : List Str) : TokenFilter := retain fun t => do
  let tag ← t.tag
  return !tags.contains tag

/-- `KoreanKeepTagsTokenFilter::apply`, `korean_keep_tags.rs` lines 58-62. Panics on a token without details. -/
def koreanKeepTags (tags : List Str) : TokenFilter := retain fun t => do
  let tag ← orPanic t.details[0]?
  return tags.contains tag

/-- `KoreanStopTagsTokenFilter::apply`, `korean_stop_tags.rs` lines 58-62. -/
def koreanStopTags (tags : List Str) : TokenFilter := retain fun t => do
  let tag ← orPanic t.details[0]?
  return !tags.contains tag

/-! ### Compound words -/

/-- The cargo features that select dictionary kinds (`cfg(feature = ...)`). -/
structure Features where
  ipadic : Bool
  ipadicNeologd : Bool
  unidic : Bool
  koDic : Bool
  ccCedict : Bool

/-- `JapaneseCompoundWordTokenFilter`, with the normalized configuration, `japanese_compound_word.rs` lines 15-20. -/
structure CompoundWord where
  features : Features
  kind : DictionaryKind
  tags : List Str
  newTag : Option Str

/-- `new_tag` formatted like a tag, `japanese_compound_word.rs` lines 40-51. -/
def formatNewTag : Option Str → R (Option Str)
  | none => .ok none
  | some tag => do
    let tag ← formatTag tag
    return some tag

/-- `JapaneseCompoundWordTokenFilterConfig::new`, `japanese_compound_word.rs` lines 23-58. -/
def CompoundWord.new (features : Features) (kind : DictionaryKind) (tags : List Str) (newTag : Option Str) : R CompoundWord := do
  let tags ← formatTags tags
  let newTag ← formatNewTag newTag
  return ⟨features, kind, tags, newTag⟩

/-- The details of a compound word before a new tag is written, `japanese_compound_word.rs` lines 99-114: `複合語` and eight stars, sixteen for UniDic. The
first arm needs feature `ipadic` or `ipadic-neologd`, but equals the last one. -/
def CompoundWord.baseDetails (f : CompoundWord) : List Str :=
  "複合語".toList :: List.replicate (if f.kind = .unidic ∧ f.features.unidic then 16 else 8) ['*']

/-- The details of a compound word, `japanese_compound_word.rs` lines 99-120. -/
def CompoundWord.details (f : CompoundWord) : R (List Str) :=
  match f.newTag with
  | some tag => overwriteFrom 0 (splitAll (· = ',') tag) f.baseDetails
  | none => .ok f.baseDetails

/-- `concat_token`, `japanese_compound_word.rs` lines 94-123. -/
def CompoundWord.concat (f : CompoundWord) (t1 t2 : FToken) : R FToken := do
  let details ← f.details
  return { t1 with
    text := t1.text ++ t2.text
    byteEnd := t2.byteEnd
    positionLength := t1.positionLength + t2.positionLength
    details := details }

/-- What the loop does with a token once its tag has been looked up, `japanese_compound_word.rs` lines 143-167: `(new_tokens, compound_token_opt)`. -/
def CompoundWord.place (f : CompoundWord) (st : List FToken × Option FToken) (t : FToken) (tagged : Bool) :
    R (List FToken × Option FToken) :=
  if tagged then
    match st.2 with
    | none => .ok (st.1, some t)
    | some c => do
      let c ← f.concat c t
      return (st.1, some c)
  else
    match st.2 with
    | some c => .ok (st.1 ++ [c] ++ [t], none)
    | none => .ok (st.1 ++ [t], none)

/-- The loop body, `japanese_compound_word.rs` lines 134-169. -/
def CompoundWord.step (f : CompoundWord) (st : List FToken × Option FToken) (t : FToken) : R (List FToken × Option FToken) := do
  let pos ← t.tag
  f.place st t (f.tags.contains pos)

/-- `JapaneseCompoundWordTokenFilter::apply`, `japanese_compound_word.rs` lines 131-181. -/
def CompoundWord.apply (f : CompoundWord) : TokenFilter := fun tokens => do
  let st ← tokens.foldlM f.step ([], none)
  return match st.2 with
    | some c => st.1 ++ [c]
    | none => st.1

/-! ### Filters that rewrite the text of each token -/

/-- `for token in tokens.iter_mut() { token.text = ... }`: the loop of all these filters. -/
def rewriteText (f : FToken → R Str) : TokenFilter := fun tokens =>
  tokens.mapM fun t => do
    let text ← f t
    return { t with text := text }

/-- `UppercaseTokenFilter::apply`, `uppercase.rs` lines 30-36. `str::to_uppercase` (Rust core, full Unicode mapping) is a parameter. -/
def uppercase (toUppercase : Str → Str) : TokenFilter := rewriteText fun t => .ok (toUppercase t.text)

/-- `LowercaseTokenFilter::apply`, `lowercase.rs` lines 30-36. `str::to_lowercase` is a parameter. -/
def lowercase (toLowercase : Str → Str) : TokenFilter := rewriteText fun t => .ok (toLowercase t.text)

/-- `KanaKind`, `japanese_kana.rs` lines 13-21. -/
inductive KanaKind where
  | hiragana | katakana
  deriving DecidableEq, Repr

/-- `JapaneseKanaTokenFilter::apply`, `japanese_kana.rs` lines 67-80. The conversions of the crate `kanaria` are parameters. -/
def japaneseKana (hiragana katakana : Str → Str) (kind : KanaKind) : TokenFilter := rewriteText fun t =>
  match kind with
  | .hiragana => .ok (hiragana t.text)
  | .katakana => .ok (katakana t.text)

/-- The loop of `MappingTokenFilter::apply`, `token_filter/mapping.rs` lines 78-107. The first argument bounds the number of iterations. -/
def Mapping.tokenLoop (f : Mapping) (text : Str) : Nat → Nat → Str → R Str
  | 0, _, _ => .error .diverge
  | fuel + 1, start, result =>
    if start < blen text then do
      let suffix ← orPanic (dropBytes text start)
      match f.matchLen suffix with
      | some prefixLen => do
        let surface ← orPanic (sliceBytes text start (start + prefixLen))
        let replacement ← orPanic (f.mapping.get surface)
        f.tokenLoop text fuel (start + prefixLen) (result ++ replacement)
      | none =>
        match suffix with
        | c :: _ => f.tokenLoop text fuel (start + c.utf8Size) (result ++ [c])
        | [] => .ok result
    else .ok result

/-- `MappingTokenFilter::apply`, `token_filter/mapping.rs` lines 72-113. `MappingTokenFilter::new` (lines 45-60) is the same code as for the character
filter, `Mapping.new`. -/
def Mapping.tokenFilter (f : Mapping) : TokenFilter := rewriteText fun t => f.tokenLoop t.text (blen t.text + 1) 0 []

/-- The detail that holds the base form, `japanese_base_form.rs` lines 65-81. -/
def baseFormColumn (features : Features) (kind : DictionaryKind) : Option Nat :=
  match kind with
  | .ipadic => if features.ipadic then some 6 else none
  | .ipadicNeologd => if features.ipadicNeologd then some 6 else none
  | .unidic => if features.unidic then some 10 else none
  | _ => none

/-- The detail that holds the reading, `japanese_reading_form.rs` lines 64-80. -/
def readingFormColumn (features : Features) (kind : DictionaryKind) : Option Nat :=
  match kind with
  | .ipadic => if features.ipadic then some 7 else none
  | .ipadicNeologd => if features.ipadicNeologd then some 7 else none
  | .unidic => if features.unidic then some 6 else none
  | _ => none

/-- The loop body of the form filters, `japanese_base_form.rs` lines 61-81: a token whose first detail is `UNK` is skipped, the others get the detail as their
text (`continue` and the empty arm leave the text as it is). Indexing panics if the detail is missing. -/
def formText (column : Option Nat) (t : FToken) : R Str := do
  let first ← orPanic t.details[0]?
  if first = "UNK".toList then .ok t.text
  else match column with
    | some i => orPanic t.details[i]?
    | none => .ok t.text

/-- `JapaneseBaseFormTokenFilter::apply`, `japanese_base_form.rs` lines 59-85. -/
def japaneseBaseForm (features : Features) (kind : DictionaryKind) : TokenFilter :=
  rewriteText (formText (baseFormColumn features kind))

/-- `JapaneseReadingFormTokenFilter::apply`, `japanese_reading_form.rs` lines 58-84. -/
def japaneseReadingForm (features : Features) (kind : DictionaryKind) : TokenFilter :=
  rewriteText (formText (readingFormColumn features kind))

/-- `KoreanReadingFormTokenFilter::apply`, `korean_reading_form.rs` lines 30-38. -/
def koreanReadingForm : TokenFilter := rewriteText (formText (some 3))

/-! ### Katakana stem -/

/-- `is_katakana`, `japanese_katakana_stem.rs` lines 92-101. `unicode_blocks::find_unicode_block` is a parameter: the first and last code point of a
character's block; a character in no block makes the `unwrap` panic. -/
def isKatakana (block : Char → Option (Nat × Nat)) : Str → R Bool
  | [] => .ok true
  | c :: cs => do
    let b ← orPanic (block c)
    if b ≠ (0x30A0, 0x30FF) then .ok false else isKatakana block cs

/-- The long vowel mark, `japanese_katakana_stem.rs` line 14. -/
def longVowel : Char := 'ー'

/-- The text `JapaneseKatakanaStemTokenFilter` gives a token, `japanese_katakana_stem.rs` lines 73-85. -/
def stemText (block : Char → Option (Nat × Nat)) (min : Nat) (text : Str) : R Str := do
  let kata ← isKatakana block text
  if kata = false then .ok text
  else if text.getLast? = some longVowel ∧ text.length > min then
    orPanic (takeBytes text (blen text - longVowel.utf8Size))
  else .ok text

/-- `JapaneseKatakanaStemTokenFilter::apply`, `japanese_katakana_stem.rs` lines 69-89. -/
def katakanaStem (block : Char → Option (Nat × Nat)) (min : Nat) : TokenFilter := rewriteText fun t => stemText block min t.text

/-! ### Numbers -/

/-- `adjust_digits`, `japanese_number.rs` lines 130-138. The subtraction of the lengths is checked (in a release build it wraps and the slice panics). -/
def adjustDigits (num base digit : Str) : R Str :=
  let zeroStr := base ++ digit
  if blen num ≤ blen zeroStr then do
    let zeros ← orPanic (sliceBytes zeroStr 0 (blen zeroStr - blen num))
    return zeros ++ num
  else .error .panic

/-- The digit of a numeral character, `japanese_number.rs` lines 149-158. -/
def numeralDigit (c : Char) : Option Char :=
  if c ∈ ['0', '０', '〇', '零'] then some '0'
  else if c ∈ ['1', '１', '一', '壱'] then some '1'
  else if c ∈ ['2', '２', '二', '弐'] then some '2'
  else if c ∈ ['3', '３', '三', '参'] then some '3'
  else if c ∈ ['4', '４', '四'] then some '4'
  else if c ∈ ['5', '５', '五'] then some '5'
  else if c ∈ ['6', '６', '六'] then some '6'
  else if c ∈ ['7', '７', '七'] then some '7'
  else if c ∈ ['8', '８', '八'] then some '8'
  else if c ∈ ['9', '９', '九'] then some '9'
  else none

/-- A unit character: the zeros it stands for after the current large unit (`base`) or the large unit it starts (`large`), and the characters before
which an omitted one is supplied. -/
structure NumberUnit where
  base : Str
  large : Option Str
  before : List Char

/-- The arms for unit characters, `japanese_number.rs` lines 159-277. -/
def numberUnit (c : Char) : Option NumberUnit :=
  if c = '十' ∨ c = '拾' then some ⟨['0'], none, ['百', '千', '万', '億', '兆', '京', '垓']⟩
  else if c = '百' then some ⟨List.replicate 2 '0', none, ['千', '万', '億', '兆', '京', '垓']⟩
  else if c = '千' then some ⟨List.replicate 3 '0', none, ['万', '億', '兆', '京', '垓']⟩
  else if c = '万' then some ⟨[], some (List.replicate 4 '0'), ['億', '兆', '京', '垓']⟩
  else if c = '億' then some ⟨[], some (List.replicate 8 '0'), ['兆', '京', '垓']⟩
  else if c = '兆' then some ⟨[], some (List.replicate 12 '0'), ['京', '垓']⟩
  else if c = '京' then some ⟨[], some (List.replicate 16 '0'), ['垓']⟩
  else if c = '垓' then some ⟨[], some (List.replicate 20 '0'), []⟩
  else none

/-- `match i.peek()`, for example `japanese_number.rs` lines 162-172: a one is supplied at the start of the text and after the listed characters. -/
def oneOmitted (before : List Char) : Option Char → Bool
  | some n => before.contains n
  | none => true

/-- An arm for a unit character, for example lines 159-173 and 203-218: `next` is the peeked character. Returns `(num_buf, digit)`. -/
def NumberUnit.apply (u : NumberUnit) (numBuf digit : Str) (next : Option Char) : R (Str × Str) := do
  let digit := u.large.getD digit
  let numBuf ← adjustDigits numBuf u.base digit
  return (if oneOmitted u.before next then '1' :: numBuf else numBuf, digit)

/-- One iteration of the loop, `japanese_number.rs` lines 148-282. -/
def numeralStep (c : Char) (next : Option Char) (numBuf digit : Str) : R (Str × Str) :=
  match numeralDigit c with
  | some d => .ok (d :: numBuf, digit)
  | none =>
    match numberUnit c with
    | some u => u.apply numBuf digit next
    | none => .ok (c :: numBuf, [])

/-- The loop of `to_arabic_numerals`, `japanese_number.rs` lines 146-283, on the reversed characters. -/
def numeralLoop : List Char → Str → Str → R Str
  | [], numBuf, _ => .ok numBuf
  | c :: rest, numBuf, digit => do
    let (numBuf, digit) ← numeralStep c rest.head? numBuf digit
    numeralLoop rest numBuf digit

/-- `to_arabic_numerals`, `japanese_number.rs` lines 140-286. -/
def toArabicNumerals (fromStr : Str) : R Str := numeralLoop fromStr.reverse [] []

/-- `JapaneseNumberTokenFilterConfig::new`, `japanese_number.rs` lines 20-41. -/
def formatNumberTags : Option (List Str) → R (Option (List Str))
  | some tags => do
    let tags ← formatTags tags
    return some tags
  | none => .ok none

/-- The loop body of `JapaneseNumberTokenFilter::apply`, `japanese_number.rs` lines 106-123. The tag is looked up also if no tags are configured. -/
def numberText (tags : Option (List Str)) (t : FToken) : R Str := do
  let tag ← t.tag
  match tags with
  | some tags => if tags.contains tag then toArabicNumerals t.text else .ok t.text
  | none => toArabicNumerals t.text

/-- `JapaneseNumberTokenFilter::apply`, `japanese_number.rs` lines 104-127, with the formatted tags. -/
def japaneseNumber (tags : Option (List Str)) : TokenFilter := rewriteText (numberText tags)

end Verif.Model
