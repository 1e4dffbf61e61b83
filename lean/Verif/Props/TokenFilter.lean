import Verif.Proofs.TokenFilter
import Verif.Proofs.Number
import Verif.Props.Sample
import Verif.Props.Builder
/-! Properties of the token filters: C39-C47, C55, C56. -/
namespace Verif.Props
open Verif.Model Verif.Spec

namespace Tf
/-- A token with a text and details; byte range and position are arbitrary. -/
def tok (text : String) (a b pos : Nat) (details : List String) : FToken :=
  ⟨text.toList, a, b, pos, 1, ⟨0, true⟩, details.map String.toList⟩

def tokens : List FToken :=
  [tok "東京" 0 6 0 ["名詞", "固有名詞", "地域", "一般", "*", "*", "東京", "トウキョウ", "トーキョー"],
   tok "駅" 6 9 1 ["名詞", "接尾", "地域", "*", "*", "*", "駅", "エキ", "エキ"],
   tok "まで" 9 15 2 ["助詞", "副助詞", "*", "*", "*", "*", "まで", "マデ", "マデ"],
   tok "x" 15 16 3 ["UNK"]]

def all : Features := ⟨true, true, true, true, true⟩
end Tf

/-! ### C39 Keep-words and stop-words filters partition the tokens -/

/-- C39: `keep_words` keeps exactly the tokens whose text is listed, `stop_words` exactly the others, in order and unchanged; a second application changes nothing; together they have
every token once. -/
theorem c39_words (words : List Str) (tokens : List FToken) : ∃ kept stopped,
    keepWords words tokens = .ok kept ∧ Kept (fun t => t.text ∈ words) tokens kept ∧
    stopWords words tokens = .ok stopped ∧ Kept (fun t => t.text ∉ words) tokens stopped ∧
    keepWords words kept = .ok kept ∧ stopWords words stopped = .ok stopped ∧ (kept ++ stopped).Perm tokens := by
  have hk : ∀ ts, ∃ out, keepWords words ts = .ok out ∧ Kept (fun t => t.text ∈ words) ts out := fun ts =>
    retain_spec fun t _ => ⟨_, rfl, by simp⟩
  have hs : ∀ ts, ∃ out, stopWords words ts = .ok out ∧ Kept (fun t => t.text ∉ words) ts out := fun ts =>
    retain_spec fun t _ => ⟨_, rfl, by simp⟩
  obtain ⟨kept, h1, h2⟩ := hk tokens
  obtain ⟨stopped, h3, h4⟩ := hs tokens
  obtain ⟨kept', h5, h6⟩ := hk kept
  obtain ⟨stopped', h7, h8⟩ := hs stopped
  refine ⟨kept, stopped, h1, h2, h3, h4, ?_, ?_, h2.perm h4⟩
  · rw [h5, h6.unique h2.again]
  · rw [h7, h8.unique h4.again]

/-- Non-vacuity: two of four tokens are kept, in order. -/
example : (do return (← keepWords ["まで".toList, "東京".toList] Tf.tokens).map (·.text)) = (.ok ["東京".toList, "まで".toList] : R (List Str)) ∧
    (do return (← stopWords ["まで".toList, "東京".toList] Tf.tokens).map (·.text)) = (.ok ["駅".toList, "x".toList] : R (List Str)) := by
  decide +kernel

/-! ### C40 Part-of-speech keep/stop filters partition the tokens -/

/-- C40 (Japanese), for configured tags of at most four parts and tokens with details: building the filters succeeds; `japanese_keep_tags` keeps exactly the tokens whose part of speech is
one of the tags, `japanese_stop_tags` exactly the others. Missing: tags of more than four parts (`c40_long_tag_fails`). -/
theorem c40_japanese_tags_partial (tags : List Str) (htags : ∀ tag ∈ tags, tag.count ',' ≤ 3) (tokens : List FToken)
    (hd : ∀ t ∈ tokens, t.details ≠ []) : ∃ formatted kept stopped, formatTags tags = .ok formatted ∧
    japaneseKeepTags formatted tokens = .ok kept ∧ Kept (HasTag tags) tokens kept ∧
    japaneseStopTags formatted tokens = .ok stopped ∧ Kept (fun t => ¬ HasTag tags t) tokens stopped ∧ (kept ++ stopped).Perm tokens := by
  obtain ⟨ft, h1, h2⟩ := formatTags_ok htags
  obtain ⟨kept, h3, h4⟩ : ∃ out, japaneseKeepTags ft tokens = .ok out ∧ Kept (HasTag tags) tokens out :=
    retain_spec fun t ht => ⟨_, by rw [tag_ok (hd t ht)]; rfl, h2 t (hd t ht)⟩
  obtain ⟨stopped, h5, h6⟩ : ∃ out, japaneseStopTags ft tokens = .ok out ∧ Kept (fun t => ¬ HasTag tags t) tokens out :=
    retain_spec fun t ht => ⟨_, by rw [tag_ok (hd t ht)]; rfl, by rw [← h2 t (hd t ht)]; simp⟩
  exact ⟨ft, kept, stopped, h1, h3, h4, h5, h6, h4.perm h6⟩

/-- Non-vacuity: `名詞,接尾,地域` is completed to `名詞,接尾,地域,*` and matches the second token; `UNK` matches the last. -/
example : (do
    let f ← formatTags ["名詞,接尾,地域".toList, "UNK".toList]
    return ((← japaneseKeepTags f Tf.tokens).map (·.text), (← japaneseStopTags f Tf.tokens).map (·.text))) =
    (.ok (["駅".toList, "x".toList], ["東京".toList, "まで".toList]) : R (List Str × List Str)) := by decide +kernel

/-- C40 does not hold for every configuration: a tag of more than four parts makes the construction of the filter panic, whatever the tag. -/
theorem c40_long_tag_fails (pre post : List Str) (hpre : ∀ tag ∈ pre, tag.count ',' ≤ 3) (tag : Str) (h : 4 ≤ tag.count ',') :
    formatTags (pre ++ tag :: post) = .error .panic := by
  unfold formatTags
  rw [List.mapM_append, List.mapM_cons]
  obtain ⟨ft, hft, _⟩ := formatTags_ok hpre
  unfold formatTags at hft
  rw [hft, bind_ok, formatTag_panic (tagParts_split tag) (by rw [(tagParts_split tag).length_eq]; omega)]
  rfl

example : formatTags ["名詞,固有名詞,人名,姓,*,*".toList] = .error .panic := by decide +kernel

/-- A token without details makes the filters panic (the analyzer does not make such tokens: unknown words have the detail `UNK`, and a word's details are never an empty list,
`c48_plain`, `c13_details`). -/
theorem c40_no_details_fails (tags : List Str) (t : FToken) (ts : List FToken) (h : t.details = []) :
    japaneseKeepTags tags (t :: ts) = .error .panic ∧ japaneseStopTags tags (t :: ts) = .error .panic ∧
    koreanKeepTags tags (t :: ts) = .error .panic ∧ koreanStopTags tags (t :: ts) = .error .panic := by
  refine ⟨?_, ?_, ?_, ?_⟩
  · unfold japaneseKeepTags; rw [retain, tag_panic h]; rfl
  · unfold japaneseStopTags; rw [retain, tag_panic h]; rfl
  · unfold koreanKeepTags; rw [retain, h]; rfl
  · unfold koreanStopTags; rw [retain, h]; rfl

/-- C40 (Korean): the filters compare the first detail. -/
theorem c40_korean_tags (tags : List Str) (tokens : List FToken) (hd : ∀ t ∈ tokens, t.details ≠ []) : ∃ kept stopped,
    koreanKeepTags tags tokens = .ok kept ∧ Kept (fun t => ∃ tag ∈ tags, t.details.head? = some tag) tokens kept ∧
    koreanStopTags tags tokens = .ok stopped ∧ Kept (fun t => ¬ ∃ tag ∈ tags, t.details.head? = some tag) tokens stopped ∧
    (kept ++ stopped).Perm tokens := by
  have key : ∀ t ∈ tokens, ∃ d, t.details[0]? = some d ∧ (tags.contains d = true ↔ ∃ tag ∈ tags, t.details.head? = some tag) := by
    intro t ht
    cases hdt : t.details with
    | nil => exact absurd hdt (hd t ht)
    | cons d ds => exact ⟨d, rfl, by simp⟩
  obtain ⟨kept, h3, h4⟩ : ∃ out, koreanKeepTags tags tokens = .ok out ∧ Kept (fun t => ∃ tag ∈ tags, t.details.head? = some tag) tokens out :=
    retain_spec fun t ht => by
      obtain ⟨d, h1, h2⟩ := key t ht
      exact ⟨_, by rw [h1]; rfl, h2⟩
  obtain ⟨stopped, h5, h6⟩ : ∃ out, koreanStopTags tags tokens = .ok out ∧ Kept (fun t => ¬ ∃ tag ∈ tags, t.details.head? = some tag) tokens out :=
    retain_spec fun t ht => by
      obtain ⟨d, h1, h2⟩ := key t ht
      exact ⟨_, by rw [h1]; rfl, by rw [← h2]; simp⟩
  exact ⟨kept, stopped, h3, h4, h5, h6, h4.perm h6⟩

example : (do return ((← koreanKeepTags ["助詞".toList] Tf.tokens).map (·.text), (← koreanStopTags ["助詞".toList] Tf.tokens).map (·.text))) =
    (.ok (["まで".toList], ["東京".toList, "駅".toList, "x".toList]) : R (List Str × List Str)) := by decide +kernel

/-! ### C41 Length filter -/

/-- C41: the filter keeps exactly the tokens whose number of characters is within the bounds that are configured. -/
theorem c41_length (min max : Option Nat) (tokens : List FToken) : ∃ out, lengthFilter min max tokens = .ok out ∧
    Kept (fun t => (∀ m, min = some m → m ≤ t.text.length) ∧ (∀ m, max = some m → t.text.length ≤ m)) tokens out := by
  refine retain_spec fun t _ => ⟨_, rfl, ?_⟩
  unfold lengthKeeps
  cases min <;> cases max <;> simp

example : (do return (← lengthFilter (some 2) none Tf.tokens).map (·.text)) = (.ok ["東京".toList, "まで".toList] : R (List Str)) ∧
    (do return (← lengthFilter (some 1) (some 1) Tf.tokens).map (·.text)) = (.ok ["駅".toList, "x".toList] : R (List Str)) := by decide +kernel

/-! ### C42 Compound-word filter merges exactly the maximal runs -/

/-- C42, for configured tags of at most four parts and tokens with details: the tokens are cut into maximal runs of tagged tokens and single untagged tokens; the output has one token per
run: a run of two or more becomes one token with the concatenated text, the byte range spanning the run, the summed position length and the compound details; a single token is unchanged. The total
text is unchanged. Missing: tags of more than four parts, which make the construction panic (`c42_long_tag_fails`). -/
theorem c42_compound_partial (features : Features) (kind : DictionaryKind) (tags : List Str) (newTag : Option Str)
    (htags : ∀ tag ∈ tags, tag.count ',' ≤ 3) (hnew : ∀ tag, newTag = some tag → tag.count ',' ≤ 3) (tokens : List FToken)
    (hd : ∀ t ∈ tokens, t.details ≠ []) : ∃ f, CompoundWord.new features kind tags newTag = .ok f ∧
    ∃ out runs, f.apply tokens = .ok out ∧ Runs (HasTag tags) tokens runs ∧
      List.Forall₂ (Merged (CompoundDetails features kind newTag)) runs out ∧
      (out.map (·.text)).flatten = (tokens.map (·.text)).flatten := by
  obtain ⟨ft, h1, h2⟩ := formatTags_ok htags
  obtain ⟨nt, hnt⟩ : ∃ nt, formatNewTag newTag = .ok nt := by
    cases newTag with
    | none => exact ⟨none, rfl⟩
    | some tag =>
      have hp := tagParts_split tag
      exact ⟨_, by unfold formatNewTag; dsimp only; rw [formatTag_ok hp (by rw [hp.length_eq]; have := hnew tag rfl; omega)]; rfl⟩
  have hf : CompoundWord.new features kind tags newTag = .ok ⟨features, kind, ft, nt⟩ := by
    unfold CompoundWord.new; rw [h1, bind_ok, hnt]; rfl
  obtain ⟨ds, hds, hcd⟩ := compound_details hf
  obtain ⟨out, ho, runs, hr, hm⟩ := compound_spec hds hcd (tokens := tokens) (tagged := HasTag tags)
    (fun t ht => ⟨_, tag_ok (hd t ht), h2 t (hd t ht)⟩)
  exact ⟨_, hf, out, runs, ho, hr, hm, by rw [merged_text hm, hr.flatten]⟩

/-- Non-vacuity: the first two tokens are merged. -/
example : (do
    let f ← CompoundWord.new Tf.all .ipadic ["名詞,固有名詞,地域,一般".toList, "名詞,接尾,地域".toList] (some "複合名詞".toList)
    return (← f.apply Tf.tokens).map fun t => (t.text, t.byteEnd, t.positionLength, t.details.take 2)) =
    (.ok [("東京駅".toList, 9, 2, ["複合名詞".toList, ['*']]), ("まで".toList, 15, 1, ["助詞".toList, "副助詞".toList]),
      (['x'], 16, 1, ["UNK".toList])] : R (List (Str × Nat × Nat × List Str))) := by decide +kernel

/-- C42 does not hold for every configuration: a new tag of more than four parts makes the construction panic. -/
theorem c42_long_tag_fails (features : Features) (kind : DictionaryKind) (tag : Str) (h : 4 ≤ tag.count ',') :
    CompoundWord.new features kind [] (some tag) = .error .panic := by
  unfold CompoundWord.new formatTags formatNewTag
  rw [List.mapM_nil, pure_eq_ok, bind_ok]; dsimp only; rw [formatTag_panic (tagParts_split tag) (by rw [(tagParts_split tag).length_eq]; omega)]
  rfl

/-! ### C43 Kanji numerals are converted to their decimal value -/

/-- C43: every kanji numeral of every number below 10^24 is converted to the number's decimal representation, and every such number has a numeral. -/
theorem c43_numerals : (∀ n s, KanjiNumeral n s → toArabicNumerals s = .ok (Nat.toDigits 10 n)) ∧
    (∀ n < 10 ^ 24, ∃ s, KanjiNumeral n s) := by
  refine ⟨fun n s h => toArabic_numeral h, fun n hn => ?_⟩
  rcases Nat.eq_zero_or_pos n with rfl | hpos
  · exact ⟨_, .zero (c := '〇') (by decide)⟩
  · obtain ⟨s, hs⟩ := exists_groups 6 n (by simpa using hn)
    exact ⟨s, .pos hpos hs⟩

/-- Non-vacuity: `千二百三万四十` is a numeral of 12030040, with the one omitted before 千. -/
example : KanjiNumeral 12030040 "千二百三万四十".toList ∧ toArabicNumerals "千二百三万四十".toList = .ok "12030040".toList := by
  refine ⟨.pos (by decide) (.skip (.skip (.skip (.skip ?_)))), by decide +kernel⟩
  refine Groups.group (k := 1) (g := 1203) (n := 40) (t := "千二百三".toList) (s := "四十".toList) (by decide) ?_ ?_
  · exact Below10000.mk (a := 1) (b := 2) (c := 0) (d := 3) (.omitted (u := '千') (by decide)) (.digit (c := '二') (u := '百') (by decide) (by decide) (by decide) (by decide)) .zero
      (.digit (c := '三') (by decide) (by decide) (by decide))
  · exact Groups.group (k := 0) (g := 40) (t := "四十".toList) (by decide)
      (Below10000.mk (a := 0) (b := 0) (c := 4) (d := 0) .zero .zero (.digit (c := '四') (u := '十') (by decide) (by decide) (by decide) (by decide)) .zero) .none

/-- The same for the decimal text of the number as printed. -/
theorem c43_printed {n : Nat} {s : Str} (h : KanjiNumeral n s) : toArabicNumerals s = .ok (toString n).toList := by
  rw [toArabic_numeral h]; simp [toString, Nat.repr]

/-! ### C44 The number filter does not crash on arbitrary token text -/

/-- C44 is false: on every text that ends with 十 and one more character of at least two bytes that is neither a numeral nor a unit (十日, 二十人, 数十年, ...), the conversion panics. -/
theorem c44_fails (p : Str) (c : Char) (hu : c ∉ unitChars) (hd : ∀ d ≤ 9, c ∉ digitForms d) (hsize : 2 ≤ c.utf8Size) :
    toArabicNumerals (p ++ ['十', c]) = .error .panic := toArabic_panic hu hd hsize

example : toArabicNumerals "二十日".toList = .error .panic ∧ toArabicNumerals "百貨店".toList = .error .panic ∧ toArabicNumerals "十23".toList = .error .panic ∧ toArabicNumerals "十四五".toList = .error .panic ∧
    toArabicNumerals "千万百万".toList = .error .panic := by decide +kernel

/-- Units before other text can also give a wrong number without a crash: `三千円` becomes `3円`, `三万円` becomes `30円`; and after other text the omitted one of a unit is lost: `約千五百` becomes
`約500`. -/
theorem c44_wrong_value : toArabicNumerals "三千円".toList = .ok "3円".toList ∧ toArabicNumerals "三万円".toList = .ok "30円".toList ∧
    toArabicNumerals "約千五百".toList = .ok "約500".toList := by decide +kernel

/-- C44, for any text without units followed by a numeral that starts with a digit: the conversion returns, the text before is converted digit by digit and the numeral to its value. (Texts
without units alone: `c45_digits`; numerals alone: `c43_numerals`.) Missing: units followed by other text, where it may panic (`c44_fails`). -/
theorem c44_prefix_partial (p s : Str) (hp : ∀ c ∈ p, c ∉ unitChars) (n : Nat) (hs : KanjiNumeral n s) (d : Nat) (c : Char) (hd : d ≤ 9)
    (hc : c ∈ digitForms d) (he : s.head? = some c) :
    ∃ q, toArabicNumerals (p ++ s) = .ok (q ++ Nat.toDigits 10 n) ∧ List.Forall₂ AsDigit p q := by
  cases s with
  | nil => cases he
  | cons x s' =>
    cases he
    exact toArabic_prefix hp hs hd hc rfl

example : toArabicNumerals "約三千".toList = .ok "約3000".toList ∧ toArabicNumerals "第１の二十一".toList = .ok "第1の21".toList := by decide +kernel

/-! ### C45 Digit strings convert character by character -/

/-- C45: a text without unit characters is converted character by character: numeral characters to their ASCII digits, all others kept. -/
theorem c45_digits (s : Str) (h : ∀ c ∈ s, c ∉ unitChars) : ∃ out, toArabicNumerals s = .ok out ∧ List.Forall₂ AsDigit s out := toArabic_plain h

example : (∀ c ∈ "二〇二三年１月".toList, c ∉ unitChars) ∧ toArabicNumerals "二〇二三年１月".toList = .ok "2023年1月".toList := by decide +kernel

/-- Which character a character becomes is determined. -/
theorem c45_unique {c x y : Char} (hx : AsDigit c x) (hy : AsDigit c y) : x = y := by
  cases hx with
  | digit h1 h2 =>
    cases hy with
    | digit h3 h4 => exact Option.some.inj ((digitForms_digit h1 h2).symm.trans (digitForms_digit h3 h4))
    | other h => exact absurd h2 (h _ h1)
  | other h =>
    cases hy with
    | digit h3 h4 => exact absurd h4 (h _ h3)
    | other _ => rfl

/-- The number filter on tokens: a token that has one of the configured tags (any token if no tags are configured) and whose text has a conversion gets it; the other
tokens and everything but the text are unchanged. -/
theorem c43_number_filter (tags : Option (List Str)) (htags : ∀ ts, tags = some ts → ∀ tag ∈ ts, tag.count ',' ≤ 3) (tokens : List FToken)
    (hd : ∀ t ∈ tokens, t.details ≠ []) (hconv : ∀ t ∈ tokens, (∃ n, KanjiNumeral n t.text) ∨ ∀ c ∈ t.text, c ∉ unitChars) :
    ∃ formatted out, formatNumberTags tags = .ok formatted ∧ japaneseNumber formatted tokens = .ok out ∧
      List.Forall₂ (fun t t' => ∃ s, t' = { t with text := s } ∧
        ((∀ ts, tags = some ts → HasTag ts t) → (∀ n, KanjiNumeral n t.text → s = Nat.toDigits 10 n) ∧
          ((∀ c ∈ t.text, c ∉ unitChars) → List.Forall₂ AsDigit t.text s)) ∧
        (∀ ts, tags = some ts → ¬ HasTag ts t → s = t.text)) tokens out := by
  have conv : ∀ t ∈ tokens, ∃ s, toArabicNumerals t.text = .ok s ∧ (∀ n, KanjiNumeral n t.text → s = Nat.toDigits 10 n) ∧
      ((∀ c ∈ t.text, c ∉ unitChars) → List.Forall₂ AsDigit t.text s) := by
    intro t ht
    have : ∃ s, toArabicNumerals t.text = .ok s := by
      rcases hconv t ht with ⟨n, hn⟩ | h
      · exact ⟨_, toArabic_numeral hn⟩
      · obtain ⟨s, h1, _⟩ := toArabic_plain h; exact ⟨s, h1⟩
    obtain ⟨s, hs⟩ := this
    refine ⟨s, hs, fun n hn => ?_, fun h => ?_⟩
    · rw [toArabic_numeral hn] at hs; exact (Except.ok.inj hs).symm
    · obtain ⟨s', h1, h2⟩ := toArabic_plain h
      rw [h1] at hs; cases hs; exact h2
  obtain ⟨ft, hft, key⟩ : ∃ ft, formatNumberTags tags = .ok ft ∧ ∀ t ∈ tokens, ∃ s, numberText ft t = .ok s ∧
      ((∀ ts, tags = some ts → HasTag ts t) → (∀ n, KanjiNumeral n t.text → s = Nat.toDigits 10 n) ∧
          ((∀ c ∈ t.text, c ∉ unitChars) → List.Forall₂ AsDigit t.text s)) ∧
        (∀ ts, tags = some ts → ¬ HasTag ts t → s = t.text) := by
    cases tags with
    | none =>
      refine ⟨none, rfl, fun t ht => ?_⟩
      obtain ⟨s, h1, h2, h3⟩ := conv t ht
      exact ⟨s, by unfold numberText; rw [tag_ok (hd t ht), bind_ok]; exact h1, fun _ => ⟨h2, h3⟩, by simp⟩
    | some ts =>
      obtain ⟨ft, hf1, hf2⟩ := formatTags_ok (htags ts rfl)
      refine ⟨some ft, by unfold formatNumberTags; dsimp only; rw [hf1]; rfl, fun t ht => ?_⟩
      obtain ⟨s, h1, h2, h3⟩ := conv t ht
      have hc := hf2 t (hd t ht)
      unfold numberText
      rw [tag_ok (hd t ht), bind_ok]
      dsimp only
      by_cases hb : ft.contains (joinComma (partOfSpeech t)) = true
      · rw [if_pos hb]
        refine ⟨s, h1, fun _ => ⟨h2, h3⟩, ?_⟩
        intro ts' e hn
        cases e
        exact absurd (hc.mp hb) hn
      · rw [if_neg hb]
        refine ⟨t.text, rfl, fun h => absurd (hc.mpr (h ts rfl)) hb, fun _ _ _ => rfl⟩
  obtain ⟨out, ho⟩ := rewriteText_total (f := numberText ft) (fun t ht => (key t ht).imp fun s h => h.1)
  refine ⟨ft, out, hft, ho, ?_⟩
  rw [rewriteText_ok] at ho
  have hmem : List.Forall₂ (fun t t' => t ∈ tokens ∧ ∃ s, numberText ft t = .ok s ∧ t' = { t with text := s }) tokens out := by
    have hall : ∀ (l : List FToken) (o : List FToken), (∀ t ∈ l, t ∈ tokens) →
        List.Forall₂ (fun t t' => ∃ s, numberText ft t = .ok s ∧ t' = { t with text := s }) l o →
        List.Forall₂ (fun t t' => t ∈ tokens ∧ ∃ s, numberText ft t = .ok s ∧ t' = { t with text := s }) l o := by
      intro l o hl h
      induction h with
      | nil => exact .nil
      | cons h _ ih => exact .cons ⟨hl _ (by simp), h⟩ (ih fun t ht => hl t (by simp [ht]))
    exact hall tokens out (fun _ h => h) ho
  refine hmem.imp ?_
  rintro t t' ⟨ht, s, hs, rfl⟩
  obtain ⟨s', h1, h2⟩ := key t ht
  rw [hs] at h1; cases h1
  exact ⟨s, rfl, h2⟩

example : (do
    let f ← formatNumberTags (some ["名詞,数".toList])
    return (← japaneseNumber f [Tf.tok "三千" 0 6 0 ["名詞", "数", "*", "*"], Tf.tok "一" 6 9 1 ["記号", "*", "*", "*"]]).map (·.text)) =
    (.ok ["3000".toList, "一".toList] : R (List Str)) := by decide +kernel

/-! ### C46 Katakana stem filter removes at most one final long-vowel mark -/

/-- The external table of Unicode blocks: the katakana block is U+30A0..U+30FF. -/
def KatakanaBlock (block : Char → Option (Nat × Nat)) : Prop :=
  ∀ c, block c = some (0x30A0, 0x30FF) ↔ 0x30A0 ≤ c.toNat ∧ c.toNat ≤ 0x30FF

/-- C46, for tokens whose characters all lie in some Unicode block: the final ー is removed exactly if all characters are katakana and there are more than `min`; everything else is unchanged.
Missing: characters in no block, where the filter panics (`c46_no_block_fails`). -/
theorem c46_stem_partial {block : Char → Option (Nat × Nat)} (hb : KatakanaBlock block) (min : Nat) (tokens : List FToken)
    (hblock : ∀ t ∈ tokens, ∀ c ∈ t.text, (block c).isSome) : ∃ out, katakanaStem block min tokens = .ok out ∧
    List.Forall₂ (fun t t' =>
      ((∀ c ∈ t.text, 0x30A0 ≤ c.toNat ∧ c.toNat ≤ 0x30FF) ∧ min < t.text.length ∧ (∃ stem, t.text = stem ++ ['ー'] ∧ t' = { t with text := stem })) ∨
      (¬ ((∀ c ∈ t.text, 0x30A0 ≤ c.toNat ∧ c.toNat ≤ 0x30FF) ∧ min < t.text.length ∧ ∃ stem, t.text = stem ++ ['ー']) ∧ t' = t)) tokens out := by
  have key : ∀ t ∈ tokens, ∃ s, stemText block min t.text = .ok s ∧
      (((∀ c ∈ t.text, 0x30A0 ≤ c.toNat ∧ c.toNat ≤ 0x30FF) ∧ min < t.text.length ∧ t.text = s ++ ['ー']) ∨
      (¬ ((∀ c ∈ t.text, 0x30A0 ≤ c.toNat ∧ c.toNat ≤ 0x30FF) ∧ min < t.text.length ∧ ∃ stem, t.text = stem ++ ['ー']) ∧ s = t.text)) := by
    intro t ht
    obtain ⟨b, h1, h2⟩ := isKatakana_ok (hblock t ht)
    have h2' : b = true ↔ ∀ c ∈ t.text, 0x30A0 ≤ c.toNat ∧ c.toNat ≤ 0x30FF := by
      rw [h2]; exact forall_congr' fun c => forall_congr' fun _ => hb c
    unfold stemText
    rw [h1, bind_ok]
    by_cases hk : b = false
    · rw [if_pos hk]
      exact ⟨_, rfl, .inr ⟨fun h => by rw [hk] at h2'; exact absurd (h2'.mpr h.1) (by simp), rfl⟩⟩
    · rw [if_neg hk]
      by_cases hl : t.text.getLast? = some longVowel ∧ t.text.length > min
      · rw [if_pos hl, takeBytes_dropLast hl.1]
        refine ⟨_, rfl, .inl ⟨h2'.mp (by simpa using hk), hl.2, ?_⟩⟩
        exact (List.dropLast_append_getLast? _ hl.1).symm
      · rw [if_neg hl]
        refine ⟨_, rfl, .inr ⟨?_, rfl⟩⟩
        rintro ⟨_, hm, stem, he⟩
        exact hl ⟨by rw [he]; simp [longVowel], hm⟩
  obtain ⟨out, ho⟩ := rewriteText_total (f := fun t => stemText block min t.text) (fun t ht => (key t ht).imp fun s h => h.1)
  refine ⟨out, ho, ?_⟩
  rw [rewriteText_ok] at ho
  clear hblock
  induction ho with
  | nil => exact .nil
  | cons h _ ih =>
    refine .cons ?_ (ih fun t ht => key t (by simp [ht]))
    obtain ⟨s, hs, rfl⟩ := h
    obtain ⟨s', h1, h2⟩ := key _ (List.mem_cons_self)
    rw [hs] at h1; cases h1
    rcases h2 with ⟨a, b, c⟩ | ⟨a, b⟩
    · exact .inl ⟨a, b, s, c, rfl⟩
    · exact .inr ⟨a, by rw [b]⟩

/-- Non-vacuity, with a table of two blocks. -/
def Tf.block (c : Char) : Option (Nat × Nat) :=
  if 0x30A0 ≤ c.toNat ∧ c.toNat ≤ 0x30FF then some (0x30A0, 0x30FF) else if c.toNat ≤ 0x7F then some (0, 0x7F) else none

example : KatakanaBlock Tf.block := by
  intro c
  unfold Tf.block
  constructor
  · intro h
    split at h
    · assumption
    · split at h <;> simp at h
  · intro h; rw [if_pos h]

example : (do return (← katakanaStem Tf.block 3 [Tf.tok "コピー" 0 9 0 ["x"], Tf.tok "サーバー" 0 12 1 ["x"], Tf.tok "abcdー" 0 7 2 ["x"]]).map (·.text)) =
    (.ok ["コピー".toList, "サーバ".toList, "abcdー".toList] : R (List Str)) := by decide +kernel

/-- C46 does not hold for characters in no Unicode block: after any katakana, such a character makes the filter panic. -/
theorem c46_no_block_fails (block : Char → Option (Nat × Nat)) (min : Nat) (p s : Str) (c : Char) (t : FToken) (ts : List FToken)
    (hp : ∀ c ∈ p, block c = some (0x30A0, 0x30FF)) (hc : block c = none) (ht : t.text = p ++ c :: s) :
    katakanaStem block min (t :: ts) = .error .panic := by
  unfold katakanaStem rewriteText
  rw [List.mapM_cons]
  dsimp only
  unfold stemText
  rw [ht, isKatakana_panic hp hc]
  rfl

/-- The filter is not idempotent: a second application removes a second mark. -/
theorem c46_not_idempotent : (do return (← katakanaStem Tf.block 3 [Tf.tok "スーパーー" 0 15 0 ["x"]]).map (·.text)) = (.ok ["スーパー".toList] : R (List Str)) ∧
    (do return (← katakanaStem Tf.block 3 [Tf.tok "スーパー" 0 15 0 ["x"]]).map (·.text)) = (.ok ["スーパ".toList] : R (List Str)) := by decide +kernel

/-! ### C47 Text-rewriting token filters change nothing but the text -/

/-- The filters that rewrite texts, with any configuration and any behaviour of the library functions they call. -/
inductive TextFilter : TokenFilter → Prop
  | uppercase (f) : TextFilter (uppercase f)
  | lowercase (f) : TextFilter (lowercase f)
  | kana (h k kind) : TextFilter (japaneseKana h k kind)
  | mapping (f : Mapping) : TextFilter f.tokenFilter
  | baseForm (features kind) : TextFilter (japaneseBaseForm features kind)
  | readingForm (features kind) : TextFilter (japaneseReadingForm features kind)
  | koreanReadingForm : TextFilter koreanReadingForm
  | katakanaStem (block min) : TextFilter (katakanaStem block min)
  | number (tags) : TextFilter (japaneseNumber tags)

/-- C47: these filters keep the number and order of the tokens and change no field but the text. -/
theorem c47_only_text (f : TokenFilter) (h : TextFilter f) (tokens out : List FToken) (ho : f tokens = .ok out) :
    List.Forall₂ (fun t t' => t'.byteStart = t.byteStart ∧ t'.byteEnd = t.byteEnd ∧ t'.position = t.position ∧
      t'.positionLength = t.positionLength ∧ t'.wordId = t.wordId ∧ t'.details = t.details) tokens out := by
  have key : ∀ g, rewriteText g tokens = .ok out → List.Forall₂ (fun t t' : FToken => t'.byteStart = t.byteStart ∧ t'.byteEnd = t.byteEnd ∧
      t'.position = t.position ∧ t'.positionLength = t.positionLength ∧ t'.wordId = t.wordId ∧ t'.details = t.details) tokens out := by
    intro g hg
    refine (rewriteText_ok.mp hg).imp ?_
    rintro t t' ⟨s, _, rfl⟩
    exact ⟨rfl, rfl, rfl, rfl, rfl, rfl⟩
  cases h <;> exact key _ ho

/-- Non-vacuity: a filter that succeeds and changes texts. -/
example : TextFilter (japaneseBaseForm Tf.all .ipadic) ∧ (do return (← japaneseReadingForm Tf.all .ipadic Tf.tokens).map (·.text)) =
    (.ok ["トウキョウ".toList, "エキ".toList, "マデ".toList, ['x']] : R (List Str)) := ⟨.baseForm _ _, by decide +kernel⟩

/-! ### C55 Base-form and reading-form filters -/

/-- The column of a form in the details, counted from 0. -/
inductive FormColumn : TokenFilter → Nat → Prop
  | baseIpadic (fs : Features) : fs.ipadic = true → FormColumn (japaneseBaseForm fs .ipadic) 6
  | baseNeologd (fs : Features) : fs.ipadicNeologd = true → FormColumn (japaneseBaseForm fs .ipadicNeologd) 6
  | baseUnidic (fs : Features) : fs.unidic = true → FormColumn (japaneseBaseForm fs .unidic) 10
  | readingIpadic (fs : Features) : fs.ipadic = true → FormColumn (japaneseReadingForm fs .ipadic) 7
  | readingNeologd (fs : Features) : fs.ipadicNeologd = true → FormColumn (japaneseReadingForm fs .ipadicNeologd) 7
  | readingUnidic (fs : Features) : fs.unidic = true → FormColumn (japaneseReadingForm fs .unidic) 6
  | readingKorean : FormColumn koreanReadingForm 3

theorem FormColumn.eq {f : TokenFilter} {i : Nat} (h : FormColumn f i) : f = rewriteText (formText (some i)) := by
  cases h <;> simp [japaneseBaseForm, japaneseReadingForm, koreanReadingForm, baseFormColumn, readingFormColumn, *]

/-- C55, for tokens that are unknown words or have the column: the text of a known word becomes the form registered in the dictionary, unknown words are unchanged. Missing: tokens with fewer
details, on which the filter panics (`c55_short_details_fails`). -/
theorem c55_forms_partial {f : TokenFilter} {i : Nat} (hf : FormColumn f i) (tokens : List FToken)
    (hd : ∀ t ∈ tokens, t.details.head? = some "UNK".toList ∨ i < t.details.length) : ∃ out, f tokens = .ok out ∧
    List.Forall₂ (fun t t' => (t.details.head? = some "UNK".toList ∧ t' = t) ∨
      (t.details.head? ≠ some "UNK".toList ∧ ∃ form, t.details[i]? = some form ∧ t' = { t with text := form })) tokens out := by
  rw [hf.eq]
  have key : ∀ t ∈ tokens, ∃ s, formText (some i) t = .ok s ∧ ((t.details.head? = some "UNK".toList ∧ s = t.text) ∨
      (t.details.head? ≠ some "UNK".toList ∧ t.details[i]? = some s)) := by
    intro t ht
    unfold formText
    rw [← List.head?_eq_getElem?]
    rcases hd t ht with h | h
    · rw [h, orPanic_some, bind_ok, if_pos rfl]
      exact ⟨_, rfl, .inl ⟨rfl, rfl⟩⟩
    · obtain ⟨x, hx⟩ : ∃ x, t.details.head? = some x := by
        cases hdt : t.details with
        | nil => rw [hdt] at h; simp at h
        | cons x _ => exact ⟨x, rfl⟩
      rw [hx, orPanic_some, bind_ok]
      by_cases hu : x = "UNK".toList
      · rw [if_pos hu]; exact ⟨_, rfl, .inl ⟨by rw [hu], rfl⟩⟩
      · rw [if_neg hu]; dsimp only; rw [List.getElem?_eq_getElem h]
        exact ⟨_, rfl, .inr ⟨by simpa using hu, rfl⟩⟩
  obtain ⟨out, ho⟩ := rewriteText_total (f := formText (some i)) (fun t ht => (key t ht).imp fun s h => h.1)
  refine ⟨out, ho, ?_⟩
  rw [rewriteText_ok] at ho
  clear hd
  induction ho with
  | nil => exact .nil
  | cons h _ ih =>
    refine .cons ?_ (ih fun t ht => key t (by simp [ht]))
    obtain ⟨s, hs, rfl⟩ := h
    obtain ⟨s', h1, h2⟩ := key _ (List.mem_cons_self)
    rw [hs] at h1; cases h1
    rcases h2 with ⟨a, b⟩ | ⟨a, b⟩
    · exact .inl ⟨a, by rw [b]⟩
    · exact .inr ⟨a, s, b, rfl⟩

/-- Without a form column (Korean and Chinese kinds, or a kind that is not compiled in) the Japanese filters leave tokens with details alone. -/
theorem c55_other_kinds (features : Features) (kind : DictionaryKind) (hk : kind = .koDic ∨ kind = .ccCedict) (tokens : List FToken)
    (hd : ∀ t ∈ tokens, t.details ≠ []) : japaneseBaseForm features kind tokens = .ok tokens ∧ japaneseReadingForm features kind tokens = .ok tokens := by
  have hnone : ∀ t ∈ tokens, formText none t = .ok t.text := by
    intro t ht
    unfold formText
    cases h : t.details with
    | nil => exact absurd h (hd t ht)
    | cons x _ =>
      rw [List.getElem?_cons_zero, orPanic_some, bind_ok]
      split <;> rfl
  have hb : rewriteText (formText none) tokens = .ok tokens := by
    rw [rewriteText_ok]
    clear hd
    induction tokens with
    | nil => exact .nil
    | cons t ts ih => exact .cons ⟨_, hnone t (by simp), rfl⟩ (ih fun t ht => hnone t (by simp [ht]))
  rcases hk with rfl | rfl <;> exact ⟨hb, hb⟩

/-- C55 does not hold for every token: a known word with fewer details makes the filter panic. -/
theorem c55_short_details_fails {f : TokenFilter} {i : Nat} (hf : FormColumn f i) (t : FToken) (ts : List FToken)
    (h1 : t.details.head? ≠ some "UNK".toList) (h2 : t.details.length ≤ i) : f (t :: ts) = .error .panic := by
  rw [hf.eq]
  unfold rewriteText
  rw [List.mapM_cons]
  have : formText (some i) t = .error .panic := by
    unfold formText
    rw [← List.head?_eq_getElem?]
    cases hh : t.details.head? with
    | none => rfl
    | some x =>
      rw [orPanic_some, bind_ok, if_neg (by rintro rfl; exact h1 hh)]
      dsimp only; rw [List.getElem?_eq_none h2]; rfl
  rw [this]; rfl

example : japaneseBaseForm Tf.all .ipadic [Tf.tok "猫" 0 3 0 ["名詞", "一般"]] = .error .panic := by decide +kernel

/-! ### C56 Mapping token filter -/

/-- C56: the mapping token filter can be built from every usable mapping and replaces, in the text of every token, the leftmost longest keys by their values. -/
theorem c56_mapping_tokens {yada : DaBuilder} (hy : YadaContract yada) {m : StrMap} (hm : MappingOk m) : ∃ f, Mapping.new yada m = .ok f ∧
    ∀ tokens, ∃ out, f.tokenFilter tokens = .ok out ∧
      List.Forall₂ (fun t t' => ∃ ps, LongestMatch m t.text ps ∧ source ps = t.text ∧ t' = { t with text := target ps }) tokens out := by
  refine ⟨_, Mapping.new_ok hy hm, fun tokens => ?_⟩
  obtain ⟨out, ho⟩ := rewriteText_total (f := fun t => Mapping.tokenLoop ⟨m, ⟨Mapping.keyset m⟩⟩ t.text (blen t.text + 1) 0 []) (ts := tokens)
    (fun t _ => by obtain ⟨ps, h, _⟩ := Mapping.tokenText hm t.text; exact ⟨_, h⟩)
  refine ⟨out, ho, ?_⟩
  rw [rewriteText_ok] at ho
  refine ho.imp ?_
  rintro t t' ⟨s, hs, rfl⟩
  obtain ⟨ps, h1, h2, h3⟩ := Mapping.tokenText hm t.text
  rw [hs] at h1; cases h1
  exact ⟨ps, h2, h3, rfl⟩

example : (do
    let f ← Mapping.new Src.yada [("ab".toList, ['x']), (['a'], "yy".toList)]
    return (← f.tokenFilter [Tf.tok "abca" 0 4 0 ["x"]]).map (·.text)) = (.ok ["xcyy".toList] : R (List Str)) := by decide +kernel

end Verif.Props
