import Verif.Model.CharDef
import Verif.Model.DictBuilder
/-!
Model of the character filters, `lindera-filter/src/character_filter.rs` and `lindera-filter/src/character_filter/`.
-/
namespace Verif.Model

/-! ### Offset tables -/

/-- The `offsets: Vec<usize>` and `diffs: Vec<i64>` returned by a character filter, `character_filter.rs` line 30. The differences are unbounded
integers in the model: they are differences of lengths of strings in memory, far below 2^63. -/
structure OffsetTable where
  offsets : List Nat
  diffs : List Int
  deriving DecidableEq, Repr

/-- No entries (`Vec::new()` twice). -/
def OffsetTable.empty : OffsetTable := ⟨[], []⟩

/-- `x as usize` for `x: i64` (Rust core): negative numbers wrap modulo 2^64. -/
def asUsize (x : Int) : Nat := if 0 ≤ x then x.toNat else (2 ^ 64 + x).toNat

/-- `add_offset_diff`, `character_filter.rs` lines 59-77. -/
def OffsetTable.add (t : OffsetTable) (offset : Nat) (diff : Int) : OffsetTable :=
  match t.offsets.getLast? with
  | some last =>
    if last = offset then ⟨t.offsets, t.diffs.dropLast ++ [diff]⟩
    else ⟨t.offsets ++ [offset], t.diffs ++ [diff]⟩
  | none => ⟨t.offsets ++ [offset], t.diffs ++ [diff]⟩

/-- The entry `correct_offset` uses, `character_filter.rs` lines 86-100: `none` stands for the early `return offset`. -/
def OffsetTable.index (t : OffsetTable) (offset textLen : Nat) : Option Nat :=
  match binarySearch t.offsets offset with
  | .ok i => some i
  | .error i =>
    if i ≠ 0 then some (i - 1)
    else if i ≥ textLen then some textLen
    else none

/-- `correct_offset`, `character_filter.rs` lines 79-104. Panics if the index is out of range. -/
def OffsetTable.correct (t : OffsetTable) (offset textLen : Nat) : R Nat :=
  if t.offsets.isEmpty then .ok offset
  else match t.index offset textLen with
    | none => .ok offset
    | some i => do
      let d ← orPanic t.diffs[i]?
      return asUsize ((offset : Int) + d)

/-- The bookkeeping for one replacement, the same code in `mapping.rs` lines 91-114, `regex.rs` lines 72-93 and
`unicode_normalize.rs` lines 86-106. `inputOffset` is the end of the replaced piece. -/
def OffsetTable.record (t : OffsetTable) (inputOffset inputLen replacementLen : Nat) : OffsetTable :=
  let diffLen : Int := (inputLen : Int) - (replacementLen : Int)
  if diffLen ≠ 0 then
    let prevDiff := t.diffs.getLast?.getD 0
    if diffLen > 0 then
      t.add (asUsize ((inputOffset : Int) - diffLen - prevDiff)) (prevDiff + diffLen)
    else
      let outputOffset := asUsize ((inputOffset : Int) + -prevDiff)
      (List.range diffLen.natAbs).foldl (init := t) fun t e => t.add (outputOffset + e) (prevDiff - (e : Int) - 1)
  else t

/-! ### Mapping filter -/

/-- `HashMap<String, String>` as the list of its pairs (keys are distinct, the order is irrelevant). -/
abbrev StrMap := List (Str × Str)

/-- `map.get(key)`. -/
def StrMap.get (m : StrMap) (k : Str) : Option Str := (m.find? (fun p => p.1 == k)).map (·.2)

/-- `MappingCharacterFilter`, `mapping.rs` lines 41-45, and `MappingTokenFilter`, `token_filter/mapping.rs`. -/
structure Mapping where
  mapping : StrMap
  trie : DoubleArray

/-- The keys given to the double-array builder, `mapping.rs` lines 49-54: sorted, numbered. -/
def Mapping.keyset (mapping : StrMap) : List (List UInt8 × UInt32) :=
  (sortByKey id (mapping.map (·.1))).zipIdx.map fun (k, i) => (utf8 k, UInt32.ofNat i)

/-- `MappingCharacterFilter::new`, `mapping.rs` lines 48-63. -/
def Mapping.new (yada : DaBuilder) (mapping : StrMap) : R Mapping :=
  match yada (Mapping.keyset mapping) with
  | some da => .ok ⟨mapping, da⟩
  | none => .error (.err .io)

/-- The length of the last common prefix, `mapping.rs` lines 85-90. -/
def Mapping.matchLen (f : Mapping) (suffix : Str) : Option Nat :=
  (f.trie.commonPrefixSearch (utf8 suffix)).getLast?.map (·.2)

/-- The loop of `MappingCharacterFilter::apply`, `mapping.rs` lines 83-133. The first argument bounds the number of iterations. -/
def Mapping.loop (f : Mapping) (text : Str) : Nat → Nat → Str → OffsetTable → R (Str × OffsetTable)
  | 0, _, _, _ => .error .diverge
  | fuel + 1, inputStart, result, t =>
    if inputStart < blen text then do
      let suffix ← orPanic (dropBytes text inputStart)
      match f.matchLen suffix with
      | some inputLen => do
        let inputText ← orPanic (sliceBytes text inputStart (inputStart + inputLen))
        let replacement ← orPanic (f.mapping.get inputText)
        f.loop text fuel (inputStart + inputLen) (result ++ replacement)
          (t.record (inputStart + inputLen) inputLen (blen replacement))
      | none =>
        match suffix with
        | c :: _ => f.loop text fuel (inputStart + c.utf8Size) (result ++ [c]) t
        | [] => .ok (result, t)
    else .ok (result, t)

/-- `MappingCharacterFilter::apply`, `mapping.rs` lines 75-137. Every iteration advances, so `text.len() + 1` iterations are enough. -/
def Mapping.apply (f : Mapping) (text : Str) : R (Str × OffsetTable) :=
  f.loop text (blen text + 1) 0 [] .empty

/-! ### Unicode normalization filter -/

/-- `UnicodeNormalizeCharacterFilter`, `unicode_normalize.rs` lines 47-50. The crates `unicode-segmentation` and `unicode-normalization` are parameters: the
grapheme clusters of a text, and the normal form (of the configured kind) of one cluster. -/
structure UnicodeNormalize where
  graphemes : Str → List Str
  normalForm : Str → Str

/-- One iteration of the loop, `unicode_normalize.rs` lines 77-112, on `(result, input_start, table)`. -/
def UnicodeNormalize.step (f : UnicodeNormalize) (st : Str × Nat × OffsetTable) (c : Str) : Str × Nat × OffsetTable :=
  let replacement := f.normalForm c
  (st.1 ++ replacement, st.2.1 + blen c, st.2.2.record (st.2.1 + blen c) (blen c) (blen replacement))

/-- `UnicodeNormalizeCharacterFilter::apply`, `unicode_normalize.rs` lines 70-115. -/
def UnicodeNormalize.apply (f : UnicodeNormalize) (text : Str) : R (Str × OffsetTable) :=
  let st := (f.graphemes text).foldl f.step ([], 0, .empty)
  .ok (st.1, st.2.2)

/-! ### Regular expression filter -/

/-- A match of a regular expression in a text (external crate `regex`): its byte range, and the text of each capture group by
its reference (a number or a name); a group that does not exist or took no part in the match has the empty text. -/
structure RegexMatch where
  start : Nat
  stop : Nat
  group : Str → Str

/-- `char::is_ascii_alphanumeric` or `_`: the characters of an unbraced reference in a replacement (`regex` crate, `Captures::expand`). -/
def isRefChar (c : Char) : Bool :=
  let n := c.toNat
  (48 ≤ n && n ≤ 57) || (65 ≤ n && n ≤ 90) || (97 ≤ n && n ≤ 122) || n == 95

/-- `Captures::expand` of the `regex` crate: `$$` is a dollar, `$name` and `${name}` are replaced by the group's text, any other `$` stands
for itself. The first argument bounds the recursion; `replacement.length` is enough. -/
def expandRefs (group : Str → Str) : Nat → Str → Str
  | 0, s => s
  | _ + 1, [] => []
  | n + 1, c :: s =>
    if c ≠ '$' then c :: expandRefs group n s
    else match s with
      | '$' :: s => '$' :: expandRefs group n s
      | '{' :: s =>
        if '}' ∈ s then group (s.takeWhile (· ≠ '}')) ++ expandRefs group n ((s.dropWhile (· ≠ '}')).drop 1)
        else '$' :: expandRefs group n ('{' :: s)
      | s =>
        if s.takeWhile isRefChar = [] then '$' :: expandRefs group n s
        else group (s.takeWhile isRefChar) ++ expandRefs group n (s.dropWhile isRefChar)

/-- `RegexCharacterFilter`, `regex.rs` lines 37-41. The compiled expression is a parameter: the function that lists the matches of `find_iter`
(the same ones `replace_all` uses). -/
structure RegexFilter where
  findIter : Str → List RegexMatch
  replacement : Str

/-- The closure of `for_each`, `regex.rs` lines 67-94. The pattern matcher returns ranges on character boundaries; slicing would panic otherwise. -/
def RegexFilter.step (f : RegexFilter) (text : Str) (t : OffsetTable) (m : RegexMatch) : R OffsetTable := do
  let inputText ← orPanic (sliceBytes text m.start m.stop)
  return t.record (m.start + blen inputText) (blen inputText) (blen f.replacement)

/-- `Regex::replace_all` with a `&String` replacement (`regex` crate), from byte `last` on: the text between the matches is copied, each match becomes the
expanded replacement. -/
def RegexFilter.replaceFrom (f : RegexFilter) (text : Str) : Nat → List RegexMatch → R Str
  | last, [] => orPanic (sliceBytes text last (blen text))
  | last, m :: ms => do
    let gap ← orPanic (sliceBytes text last m.start)
    let rest ← f.replaceFrom text m.stop ms
    return gap ++ expandRefs m.group f.replacement.length f.replacement ++ rest

/-- `RegexCharacterFilter::apply`, `regex.rs` lines 63-102. -/
def RegexFilter.apply (f : RegexFilter) (text : Str) : R (Str × OffsetTable) := do
  let t ← (f.findIter text).foldlM (f.step text) .empty
  let newText ← f.replaceFrom text 0 (f.findIter text)
  return (newText, t)

/-! ### Iteration mark filter -/

/-- `hiragana_add_dakuon`, `japanese_iteration_mark.rs` lines 19-28. -/
def hiraganaAddDakuon (c : Char) : Char :=
  let n := c.toNat
  if 0x304b ≤ n ∧ n ≤ 0x3062 ∧ n % 2 = 1 then Char.ofNat (n + 1)
  else if 0x3064 ≤ n ∧ n ≤ 0x3069 ∧ n % 2 = 0 then Char.ofNat (n + 1)
  else if 0x306f ≤ n ∧ n ≤ 0x307d ∧ n % 3 = 0 then Char.ofNat (n + 1)
  else c

/-- `hiragana_remove_dakuon`, `japanese_iteration_mark.rs` lines 30-39. -/
def hiraganaRemoveDakuon (c : Char) : Char :=
  let n := c.toNat
  if 0x304b ≤ n ∧ n ≤ 0x3062 ∧ n % 2 = 0 then Char.ofNat (n - 1)
  else if 0x3064 ≤ n ∧ n ≤ 0x3069 ∧ n % 2 = 1 then Char.ofNat (n - 1)
  else if 0x306f ≤ n ∧ n ≤ 0x307d ∧ n % 3 = 1 then Char.ofNat (n - 1)
  else c

/-- `katakana_add_dakuon`, `japanese_iteration_mark.rs` lines 41-49. -/
def katakanaAddDakuon (c : Char) : Char :=
  let n := c.toNat
  if 0x30ab ≤ n ∧ n ≤ 0x30c2 ∧ n % 2 = 1 then Char.ofNat (n + 1)
  else if 0x30c4 ≤ n ∧ n ≤ 0x30c9 ∧ n % 2 = 0 then Char.ofNat (n + 1)
  else if 0x30cf ≤ n ∧ n ≤ 0x30dd ∧ n % 3 = 0 then Char.ofNat (n + 1)
  else c

/-- `katakana_remove_dakuon`, `japanese_iteration_mark.rs` lines 51-59. -/
def katakanaRemoveDakuon (c : Char) : Char :=
  let n := c.toNat
  if 0x30ab ≤ n ∧ n ≤ 0x30c2 ∧ n % 2 = 0 then Char.ofNat (n - 1)
  else if 0x30c4 ≤ n ∧ n ≤ 0x30c9 ∧ n % 2 = 1 then Char.ofNat (n - 1)
  else if 0x30cf ≤ n ∧ n ≤ 0x30dd ∧ n % 3 = 1 then Char.ofNat (n - 1)
  else c

/-- `JapaneseIterationMarkCharacterFilterConfig`, `japanese_iteration_mark.rs` lines 61-65. -/
structure IterationMark where
  normalizeKanji : Bool
  normalizeKana : Bool
  deriving DecidableEq, Repr

/-- The `match` in the loop of `normalize`, `japanese_iteration_mark.rs` lines 119-145, for one mark at `pos`. -/
def IterationMark.replaceMark (f : IterationMark) (text : Str) (posDiff pos : Nat) (mark : Char) : Char :=
  let replacement := (text[pos - posDiff]?).getD mark
  if mark = '々' ∧ f.normalizeKanji then replacement
  else if mark = 'ゝ' ∧ f.normalizeKana then hiraganaRemoveDakuon replacement
  else if mark = 'ゞ' ∧ f.normalizeKana then hiraganaAddDakuon replacement
  else if mark = 'ヽ' ∧ f.normalizeKana then katakanaRemoveDakuon replacement
  else if mark = 'ヾ' ∧ f.normalizeKana then katakanaAddDakuon replacement
  else mark

/-- `normalize`, `japanese_iteration_mark.rs` lines 107-149. The `BTreeMap` is the list of its pairs in key order. -/
def IterationMark.normalize (f : IterationMark) (marks : List (Nat × Char)) (text : Str) : Str :=
  let first := (marks.head?.map (·.1)).getD 0
  let posDiff := if first < marks.length then first else marks.length
  marks.map fun (pos, mark) => f.replaceMark text posDiff pos mark

/-- The first two arms of the `match` in `apply`, `japanese_iteration_mark.rs` lines 163-173: the character is collected. -/
def IterationMark.collects (f : IterationMark) (c : Char) : Bool :=
  (c == '々' && f.normalizeKanji) ||
    ((c == 'ゝ' || c == 'ゞ' || c == 'ヽ' || c == 'ヾ') && f.normalizeKana)

/-- One iteration of the loop in `apply`, `japanese_iteration_mark.rs` lines 162-182, on `(filterd_text, iter_marks)`. -/
def IterationMark.step (f : IterationMark) (text : Str) (st : Str × List (Nat × Char)) (ci : Char × Nat) : Str × List (Nat × Char) :=
  if f.collects ci.1 then (st.1, st.2 ++ [(ci.2, ci.1)])
  else if st.2.isEmpty then (st.1 ++ [ci.1], [])
  else (st.1 ++ f.normalize st.2 text ++ [ci.1], [])

/-- `JapaneseIterationMarkCharacterFilter::apply`, `japanese_iteration_mark.rs` lines 157-190. The offset table is always empty. -/
def IterationMark.apply (f : IterationMark) (text : Str) : R (Str × OffsetTable) :=
  let st := text.zipIdx.foldl (f.step text) ([], [])
  .ok (if st.2.isEmpty then st.1 else st.1 ++ f.normalize st.2 text, .empty)

end Verif.Model
