import Verif.Proofs.SameDoc
import Verif.Proofs.JsonText
import Verif.Spec.FilterEffect
import Verif.Props.Cli
import Verif.Props.TokenFilter
import Verif.Props.CharFilter
import Verif.Props.Sample
/-! Properties of analyzer configurations and of the filter flags of the command line: C66-C68. -/
namespace Verif.Props
open Verif.Model Verif.Spec

/-! ### C66 Filters are what their kind and arguments say -/

/-- C66: a character filter is made from the setting that its kind and arguments say; if they say none (an unknown kind, missing or malformed arguments), there is a deserialization error. An invalid regular
expression is an argument error, keys that the double-array builder refuses are an I/O error, and there is no panic. -/
theorem c66_char (env : FilterEnv) (kind : Str) (args : Json) :
    (∀ s, CharSetting kind args s → env.charFilter kind args = s.new env) ∧
    ((∀ s, ¬ CharSetting kind args s) → env.charFilter kind args = .error (.err .deserialize)) ∧
    (∀ e, env.charFilter kind args = .error e → e = .err .deserialize ∨
      (e = .err .args ∧ ∃ p r, CharSetting kind args (.regex p r) ∧ env.regex p = none) ∨
      (e = .err .io ∧ ∃ m, CharSetting kind args (.mapping m) ∧ env.yada (Mapping.keyset m) = none)) := by
  have h1 : ∀ s, CharSetting kind args s → env.charFilter kind args = s.new env := by
    intro s hs
    unfold FilterEnv.charFilter
    rw [charFilter_iff.mpr hs]
  have h2 : (∀ s, ¬ CharSetting kind args s) → env.charFilter kind args = .error (.err .deserialize) := by
    intro hs
    unfold FilterEnv.charFilter
    have : readCharFilter kind args = none := by
      rw [Option.eq_none_iff_forall_ne_some]
      exact fun s h => hs s (charFilter_iff.mp h)
    rw [this]
  refine ⟨h1, h2, fun e he => ?_⟩
  by_cases hs : ∃ s, CharSetting kind args s
  · obtain ⟨s, hs⟩ := hs
    rw [h1 s hs] at he
    cases s with
    | iterationMark a b => cases he
    | mapping m =>
      simp only [CharFilterSetting.new, Mapping.new] at he
      cases hy : env.yada (Mapping.keyset m) with
      | some da => rw [hy] at he; simp [bind_ok] at he
      | none => rw [hy] at he; rw [bind_error] at he; cases he; exact .inr (.inr ⟨rfl, m, hs, hy⟩)
    | regex p r =>
      simp only [CharFilterSetting.new] at he
      cases hy : env.regex p with
      | some f => rw [hy] at he; cases he
      | none => rw [hy] at he; cases he; exact .inr (.inl ⟨rfl, p, r, hs, hy⟩)
    | unicodeNormalize f => cases he
  · rw [h2 fun s h => hs ⟨s, h⟩] at he
    cases he; exact .inl rfl

/-- C66: the same for token filters. (Partial: no panic is claimed for Japanese part-of-speech tags with more than four parts, see `c66_long_tags_fails`.) -/
theorem c66_token_partial (env : FilterEnv) (kind : Str) (args : Json) :
    (∀ s, TokenSetting kind args s → env.tokenFilter kind args = s.new env) ∧
    ((∀ s, ¬ TokenSetting kind args s) → env.tokenFilter kind args = .error (.err .deserialize)) ∧
    ((∀ s, TokenSetting kind args s → ShortTags s) → ∀ e, env.tokenFilter kind args = .error e → e = .err .deserialize ∨
      (e = .err .io ∧ ∃ m, TokenSetting kind args (.mapping m) ∧ env.yada (Mapping.keyset m) = none)) := by
  have h1 : ∀ s, TokenSetting kind args s → env.tokenFilter kind args = s.new env := by
    intro s hs
    unfold FilterEnv.tokenFilter
    rw [tokenFilter_iff.mpr hs]
  have h2 : (∀ s, ¬ TokenSetting kind args s) → env.tokenFilter kind args = .error (.err .deserialize) := by
    intro hs
    unfold FilterEnv.tokenFilter
    have : readTokenFilter kind args = none := by
      rw [Option.eq_none_iff_forall_ne_some]
      exact fun s h => hs s (tokenFilter_iff.mp h)
    rw [this]
  refine ⟨h1, h2, fun hshort e he => ?_⟩
  by_cases hs : ∃ s, TokenSetting kind args s
  · obtain ⟨s, hs⟩ := hs
    have hsh := hshort s hs
    rw [h1 s hs] at he
    cases s with
    | mapping m =>
      simp only [TokenFilterSetting.new, Mapping.new] at he
      cases hy : env.yada (Mapping.keyset m) with
      | some da => rw [hy] at he; simp [bind_ok] at he
      | none => rw [hy] at he; rw [bind_error] at he; cases he; exact .inr ⟨rfl, m, hs, hy⟩
    | japaneseCompoundWord k tags newTag =>
      obtain ⟨c, hc, _⟩ := c42_compound_partial env.features k tags newTag hsh.1 hsh.2 [] (by simp)
      simp only [TokenFilterSetting.new, hc, bind_ok] at he
      cases he
    | japaneseKeepTags tags =>
      obtain ⟨ft, hft, _⟩ := formatTags_ok (tags := tags) hsh
      simp only [TokenFilterSetting.new, hft, bind_ok] at he
      cases he
    | japaneseStopTags tags =>
      obtain ⟨ft, hft, _⟩ := formatTags_ok (tags := tags) hsh
      simp only [TokenFilterSetting.new, hft, bind_ok] at he
      cases he
    | japaneseNumber tags =>
      cases tags with
      | none => cases he
      | some ts =>
        obtain ⟨ft, hft, _⟩ := formatTags_ok (tags := ts) (hsh ts rfl)
        simp only [TokenFilterSetting.new, formatNumberTags, hft, bind_ok] at he
        cases he
    | _ => cases he
  · rw [h2 fun s h => hs ⟨s, h⟩] at he
    cases he; exact .inl rfl

theorem formText_none {tokens : List FToken} (h : ∀ t ∈ tokens, t.details ≠ []) : rewriteText (formText none) tokens = .ok tokens := by
  rw [rewriteText_ok]
  induction tokens with
  | nil => exact .nil
  | cons t ts ih =>
    refine .cons ⟨t.text, ?_, rfl⟩ (ih fun t ht => h t (by simp [ht]))
    unfold formText
    cases hd : t.details with
    | nil => exact absurd hd (h t (by simp))
    | cons d ds => simp only [List.getElem?_cons_zero, orPanic_some, bind_ok]; split <;> rfl

theorem forall₂_same {α : Type} {P : α → α → Prop} {xs : List α} (h : ∀ x ∈ xs, P x x) : List.Forall₂ P xs xs := by
  induction xs with
  | nil => exact .nil
  | cons x xs ih => exact .cons (h x (by simp)) (ih fun y hy => h y (by simp [hy]))

theorem retexted_pure {g : FToken → Str} (tokens : List FToken) :
    ∃ out, rewriteText (fun t => .ok (g t)) tokens = .ok out ∧ Retexted (fun t s => s = g t) tokens out := by
  obtain ⟨out, ho⟩ := rewriteText_total (f := fun t => .ok (g t)) (ts := tokens) (fun t _ => ⟨_, rfl⟩)
  refine ⟨out, ho, (rewriteText_ok.mp ho).imp ?_⟩
  rintro t t' ⟨s, hs, rfl⟩
  cases hs; exact ⟨_, rfl, rfl⟩

theorem retexted_form {f : TokenFilter} {i : Nat} (hf : FormColumn f i) (tokens : List FToken)
    (hd : ∀ t ∈ tokens, t.details.head? = some "UNK".toList ∨ i < t.details.length) : ∃ out, f tokens = .ok out ∧ Retexted (FormText i) tokens out := by
  obtain ⟨out, ho, h⟩ := c55_forms_partial hf tokens hd
  refine ⟨out, ho, h.imp ?_⟩
  rintro t t' (⟨h1, rfl⟩ | ⟨h1, form, h2, rfl⟩)
  · exact ⟨_, rfl, .inl ⟨h1, rfl⟩⟩
  · exact ⟨_, rfl, .inr ⟨h1, h2⟩⟩

/-- C66: what the token filters do. A filter can be made from every setting with tags of at most four parts and a usable mapping, and on the tokens it is made for it does what its setting
says. Missing: other tags (`c66_long_tags_fails`), mappings with empty keys, and the tokens on which the filters panic (see C40, C44, C46, C55). -/
theorem c66_token_effect_partial (env : FilterEnv) (hy : YadaContract env.yada) (hb : KatakanaBlock env.block) (s : TokenFilterSetting)
    (htags : ShortTags s) (hmap : ∀ m, s = .mapping m → MappingOk m) :
    ∃ f, s.new env = .ok f ∧ ∀ tokens, TokenAccepts env s tokens → ∃ out, f tokens = .ok out ∧ TokenEffect env s tokens out := by
  cases s with
  | japaneseBaseForm kind =>
    refine ⟨_, rfl, fun tokens h => ?_⟩
    by_cases hk : ∃ i, baseColumn env.features kind i
    · obtain ⟨i, hi⟩ := hk
      have hf : FormColumn (japaneseBaseForm env.features kind) i := by
        rcases hi with ⟨rfl, h2, rfl⟩ | ⟨rfl, h2, rfl⟩ | ⟨rfl, h2, rfl⟩
        · exact .baseIpadic _ h2
        · exact .baseNeologd _ h2
        · exact .baseUnidic _ h2
      obtain ⟨out, ho, hr⟩ := retexted_form hf tokens (fun t ht => (h t ht).2.imp id fun h => h i hi)
      refine ⟨out, ho, hr.imp ?_⟩
      rintro t t' ⟨s, rfl, hs⟩
      refine ⟨s, rfl, fun j hj => ?_, fun hn => absurd hi (hn i)⟩
      have : j = i := by
        rcases hi with ⟨rfl, _, rfl⟩ | ⟨rfl, _, rfl⟩ | ⟨rfl, _, rfl⟩ <;> rcases hj with ⟨h, _, rfl⟩ | ⟨h, _, rfl⟩ | ⟨h, _, rfl⟩ <;> first | rfl | cases h
      rw [this]; exact hs
    · have hc : baseFormColumn env.features kind = none := by
        unfold baseFormColumn
        cases kind <;> simp only
        · by_cases he : env.features.ipadic = true
          · exact absurd ⟨6, .inl ⟨rfl, he, rfl⟩⟩ hk
          · rw [if_neg he]
        · by_cases he : env.features.ipadicNeologd = true
          · exact absurd ⟨6, .inr (.inl ⟨rfl, he, rfl⟩)⟩ hk
          · rw [if_neg he]
        · by_cases he : env.features.unidic = true
          · exact absurd ⟨10, .inr (.inr ⟨rfl, he, rfl⟩)⟩ hk
          · rw [if_neg he]
      refine ⟨tokens, ?_, forall₂_same fun t ht => ⟨_, rfl, fun i hi => absurd ⟨i, hi⟩ hk, fun _ => rfl⟩⟩
      unfold japaneseBaseForm
      rw [hc]
      exact formText_none fun t ht => (h t ht).1
  | japaneseCompoundWord kind tags newTag =>
    obtain ⟨f, hf, _⟩ := c42_compound_partial env.features kind tags newTag htags.1 htags.2 [] (by simp)
    refine ⟨f.apply, by simp only [TokenFilterSetting.new, hf, bind_ok]; rfl, fun tokens h => ?_⟩
    obtain ⟨f', hf', out, runs, h1, h2, h3, _⟩ := c42_compound_partial env.features kind tags newTag htags.1 htags.2 tokens h
    rw [hf] at hf'; cases hf'
    exact ⟨out, h1, runs, h2, h3⟩
  | japaneseKana kind =>
    refine ⟨_, rfl, fun tokens _ => ?_⟩
    cases kind
    · exact retexted_pure (g := fun t => env.hiragana t.text) tokens
    · exact retexted_pure (g := fun t => env.katakana t.text) tokens
  | japaneseKatakanaStem min =>
    refine ⟨_, rfl, fun tokens h => ?_⟩
    obtain ⟨out, ho, hr⟩ := c46_stem_partial hb min tokens h
    refine ⟨out, ho, hr.imp ?_⟩
    rintro t t' (⟨h1, h2, stem, h3, rfl⟩ | ⟨h1, rfl⟩)
    · exact ⟨stem, rfl, .inl ⟨h1, h2, h3⟩⟩
    · exact ⟨_, rfl, .inr ⟨h1, rfl⟩⟩
  | japaneseKeepTags tags =>
    obtain ⟨ft, hft, _⟩ := formatTags_ok (tags := tags) htags
    refine ⟨japaneseKeepTags ft, by simp only [TokenFilterSetting.new, hft, bind_ok]; rfl, fun tokens h => ?_⟩
    obtain ⟨ft', kept, stopped, h1, h2, h3, _⟩ := c40_japanese_tags_partial tags htags tokens h
    rw [hft] at h1; cases h1
    exact ⟨kept, h2, h3⟩
  | japaneseNumber tags =>
    obtain ⟨ft, _, hft, _⟩ := c43_number_filter tags htags [] (by simp) (by simp)
    refine ⟨japaneseNumber ft, by simp only [TokenFilterSetting.new, hft, bind_ok]; rfl, fun tokens h => ?_⟩
    obtain ⟨ft', out, h1, h2, h3⟩ := c43_number_filter tags htags tokens (fun t ht => (h t ht).1) (fun t ht => (h t ht).2)
    rw [hft] at h1; cases h1
    refine ⟨out, h2, h3.imp ?_⟩
    rintro t t' ⟨s, rfl, h⟩
    exact ⟨s, rfl, h⟩
  | japaneseReadingForm kind =>
    refine ⟨_, rfl, fun tokens h => ?_⟩
    by_cases hk : ∃ i, readingColumn env.features kind i
    · obtain ⟨i, hi⟩ := hk
      have hf : FormColumn (japaneseReadingForm env.features kind) i := by
        rcases hi with ⟨rfl, h2, rfl⟩ | ⟨rfl, h2, rfl⟩ | ⟨rfl, h2, rfl⟩
        · exact .readingIpadic _ h2
        · exact .readingNeologd _ h2
        · exact .readingUnidic _ h2
      obtain ⟨out, ho, hr⟩ := retexted_form hf tokens (fun t ht => (h t ht).2.imp id fun h => h i hi)
      refine ⟨out, ho, hr.imp ?_⟩
      rintro t t' ⟨s, rfl, hs⟩
      refine ⟨s, rfl, fun j hj => ?_, fun hn => absurd hi (hn i)⟩
      have : j = i := by
        rcases hi with ⟨rfl, _, rfl⟩ | ⟨rfl, _, rfl⟩ | ⟨rfl, _, rfl⟩ <;> rcases hj with ⟨h, _, rfl⟩ | ⟨h, _, rfl⟩ | ⟨h, _, rfl⟩ <;> first | rfl | cases h
      rw [this]; exact hs
    · have hc : readingFormColumn env.features kind = none := by
        unfold readingFormColumn
        cases kind <;> simp only
        · by_cases he : env.features.ipadic = true
          · exact absurd ⟨7, .inl ⟨rfl, he, rfl⟩⟩ hk
          · rw [if_neg he]
        · by_cases he : env.features.ipadicNeologd = true
          · exact absurd ⟨7, .inr (.inl ⟨rfl, he, rfl⟩)⟩ hk
          · rw [if_neg he]
        · by_cases he : env.features.unidic = true
          · exact absurd ⟨6, .inr (.inr ⟨rfl, he, rfl⟩)⟩ hk
          · rw [if_neg he]
      refine ⟨tokens, ?_, forall₂_same fun t ht => ⟨_, rfl, fun i hi => absurd ⟨i, hi⟩ hk, fun _ => rfl⟩⟩
      unfold japaneseReadingForm
      rw [hc]
      exact formText_none fun t ht => (h t ht).1
  | japaneseStopTags tags =>
    obtain ⟨ft, hft, _⟩ := formatTags_ok (tags := tags) htags
    refine ⟨japaneseStopTags ft, by simp only [TokenFilterSetting.new, hft, bind_ok]; rfl, fun tokens h => ?_⟩
    obtain ⟨ft', kept, stopped, h1, _, _, h2, h3, _⟩ := c40_japanese_tags_partial tags htags tokens h
    rw [hft] at h1; cases h1
    exact ⟨stopped, h2, h3⟩
  | keepWords words =>
    refine ⟨_, rfl, fun tokens _ => ?_⟩
    obtain ⟨kept, stopped, h1, h2, _⟩ := c39_words words tokens
    exact ⟨kept, h1, h2⟩
  | koreanKeepTags tags =>
    refine ⟨_, rfl, fun tokens h => ?_⟩
    obtain ⟨kept, stopped, h1, h2, _⟩ := c40_korean_tags tags tokens h
    exact ⟨kept, h1, h2⟩
  | koreanReadingForm => exact ⟨_, rfl, fun tokens h => retexted_form .readingKorean tokens h⟩
  | koreanStopTags tags =>
    refine ⟨_, rfl, fun tokens h => ?_⟩
    obtain ⟨kept, stopped, _, _, h1, h2, _⟩ := c40_korean_tags tags tokens h
    exact ⟨stopped, h1, h2⟩
  | length min max =>
    refine ⟨_, rfl, fun tokens _ => ?_⟩
    obtain ⟨out, h1, h2⟩ := c41_length min max tokens
    exact ⟨out, h1, h2⟩
  | lowercase => exact ⟨_, rfl, fun tokens _ => retexted_pure (g := fun t => env.toLowercase t.text) tokens⟩
  | mapping m =>
    obtain ⟨f, hf, h⟩ := c56_mapping_tokens hy (hmap m rfl)
    refine ⟨f.tokenFilter, by simp only [TokenFilterSetting.new, hf, bind_ok]; rfl, fun tokens _ => ?_⟩
    obtain ⟨out, ho, hr⟩ := h tokens
    refine ⟨out, ho, hr.imp ?_⟩
    rintro t t' ⟨ps, h1, h2, rfl⟩
    exact ⟨_, rfl, ps, h1, h2, rfl⟩
  | stopWords words =>
    refine ⟨_, rfl, fun tokens _ => ?_⟩
    obtain ⟨kept, stopped, _, _, h1, h2, _⟩ := c39_words words tokens
    exact ⟨stopped, h1, h2⟩
  | uppercase => exact ⟨_, rfl, fun tokens _ => retexted_pure (g := fun t => env.toUppercase t.text) tokens⟩

/-- C66: what the character filters do. A filter can be made from every setting with a usable mapping and a valid regular expression, and on the texts it is made for it cuts the text as its
setting says, replaces the pieces, and its offset table leads back to them. Missing: mappings with empty keys, and the texts of C34 and C37. -/
theorem c66_char_effect_partial (env : FilterEnv) (hy : YadaContract env.yada) (s : CharFilterSetting) (hmap : ∀ m, s = .mapping m → MappingOk m)
    (hre : ∀ p r, s = .regex p r → env.regex p ≠ none) :
    ∃ f, s.new env = .ok f ∧ ∀ text, CharAccepts env s text → ∃ ps, CharCut env s text ps ∧ Filtered f text ps := by
  cases s with
  | iterationMark kanji kana =>
    refine ⟨_, rfl, fun text h => ?_⟩
    obtain ⟨out, h1, h2⟩ := c37_three_bytes_partial ⟨kanji, kana⟩ text h
    obtain ⟨ps, h3, h4, h5⟩ := filtered_same_lengths (f := (IterationMark.mk kanji kana).filter) h1 h2
    obtain ⟨out', h1', h6, h7, h8, h9⟩ := c36_expand ⟨kanji, kana⟩ text
    rw [h1] at h1'; cases h1'
    refine ⟨ps, ⟨h4, out, h5, h7, fun s k j m c hg hj hm hc => ?_⟩, h3⟩
    by_cases hk : k ≤ s
    · rw [Nat.min_eq_right hk] at hc; exact h8 s k j m c hg hk hj hm hc
    · rw [Nat.min_eq_left (by omega), show s + j - s = j by omega] at hc
      exact h9 s k j m c hg (by omega) hj hm hc
  | mapping m =>
    refine ⟨_, by simp only [CharFilterSetting.new, Mapping.new_ok hy (hmap m rfl), bind_ok]; rfl, fun text _ => ?_⟩
    exact c38_mapping_filtered hy (hmap m rfl) (Mapping.new_ok hy (hmap m rfl)) text
  | regex p r =>
    cases hp : env.regex p with
    | none => exact absurd hp (hre p r rfl)
    | some find =>
      refine ⟨RegexFilter.filter ⟨find, r⟩, by simp only [CharFilterSetting.new, hp], fun text h => ?_⟩
      obtain ⟨hlit, find', ps, hf, hm, hne⟩ := h
      rw [hp] at hf; cases hf
      exact ⟨ps, ⟨find, hp, hm⟩, c38_regex_filtered ⟨find, r⟩ text ps hlit hm hne⟩
  | unicodeNormalize form =>
    refine ⟨_, rfl, fun text h => ?_⟩
    exact ⟨_, rfl, c38_unicode_normalize_filtered ⟨env.graphemes, env.normalForm form⟩ text h.1 h.2⟩

/-- C66 is violated for tags: a filter whose tag has more than four parts brings the program down while the configuration is read. -/
theorem c66_long_tags_fails (env : FilterEnv) (pre post : List Str) (hpre : ∀ tag ∈ pre, tag.count ',' ≤ 3) (tag : Str) (h : 4 ≤ tag.count ',') :
    env.tokenFilter "japanese_stop_tags".toList (.obj [("tags".toList, .arr ((pre ++ tag :: post).map .str))]) = .error .panic := by
  rw [(c66_token_partial env _ (.obj [("tags".toList, .arr ((pre ++ tag :: post).map .str))])).1 (.japaneseStopTags (pre ++ tag :: post)) ⟨rfl, [], [], rfl, by simp⟩]
  simp only [TokenFilterSetting.new, c40_long_tag_fails pre post hpre tag h, bind_error]

/-! ### C67 An analyzer configuration is read as it is written -/

/-- C67: an analyzer is made from a file exactly if the file can be read, holds a JSON document, and the analyzer is the one that this document describes: the listed character filters, the
tokenizer and the listed token filters, in order. Of members with the same name the last one counts, at every level. -/
theorem c67_analyzer (env : AnalyzerEnv) (path : Path) (a : Analyzer) : env.fromFile path = .ok a ↔
    ∃ data j v, env.load.files path = some data ∧ JsonText.File env.finite data j ∧ SameDoc j v ∧ Canonical v ∧ Configured env v a := by
  unfold AnalyzerEnv.fromFile LoadEnv.readFile
  cases hf : env.load.files path with
  | none => simp
  | some data =>
    unfold AnalyzerEnv.configValue
    cases hj : env.json data with
    | none =>
      have hn := parseJsonBytes_none.mp hj
      simp only [bind_ok, hj, bind_error, reduceCtorEq, false_iff, Option.some.injEq]
      rintro ⟨_, j, _, rfl, h, _⟩
      exact hn j h
    | some j =>
      simp only [bind_ok, hj, Option.some.injEq]
      rw [fromValue_iff]
      constructor
      · intro h; exact ⟨data, j, _, rfl, parseJsonBytes_iff.mp hj, value_sameDoc j, canonical_value j, h⟩
      · rintro ⟨data', j', v, rfl, hj', h1, h2, h3⟩
        have hj' : env.json data = some j' := parseJsonBytes_iff.mpr hj'
        rw [hj] at hj'; cases hj'
        rw [value_iff.mpr ⟨h1, h2⟩]; exact h3

/-- C67: documents that differ only in the order of members, or in members that are overridden, give the same result, also if it is an error. -/
theorem c67_same (env : AnalyzerEnv) (path path' : Path) (data data' : List UInt8) (j j' : Json) (h : env.load.files path = some data)
    (h' : env.load.files path' = some data') (hj : JsonText.File env.finite data j) (hj' : JsonText.File env.finite data' j') (hs : SameDoc j j') :
    env.fromFile path = env.fromFile path' := by
  have hj : env.json data = some j := parseJsonBytes_iff.mpr hj
  have hj' : env.json data' = some j' := parseJsonBytes_iff.mpr hj'
  unfold AnalyzerEnv.fromFile LoadEnv.readFile AnalyzerEnv.configValue
  simp only [h, h', hj, hj', bind_ok, sameDoc_value hs]

theorem forall₂_left {α β : Type} {P : α → β → Prop} {as : List α} {bs : List β} (h : List.Forall₂ P as bs) {a : α} (ha : a ∈ as) : ∃ b ∈ bs, P a b := by
  induction h with
  | nil => cases ha
  | cons h1 _ ih =>
    rcases List.mem_cons.mp ha with rfl | ha
    · exact ⟨_, by simp, h1⟩
    · obtain ⟨b, hb, hp⟩ := ih ha; exact ⟨b, by simp [hb], hp⟩

/-- C67: the errors before the document is understood: an unreadable file is an I/O error, a text that is not JSON a deserialization error. A document that lists an entry that is no filter, or
without a usable tokenizer, never gives an analyzer. -/
theorem c67_errors (env : AnalyzerEnv) (path : Path) (a : Analyzer) :
    (env.load.files path = none → env.fromFile path = .error (.err .io)) ∧
    (∀ data, env.load.files path = some data → (∀ j, ¬ JsonText.File env.finite data j) → env.fromFile path = .error (.err .deserialize)) ∧
    (∀ data j v, env.load.files path = some data → JsonText.File env.finite data j → SameDoc j v → Canonical v →
      (∀ es, Listed v "character_filters" es → (∃ e ∈ es, ∀ s, ¬ CharSetting e.1 e.2 s) → env.fromFile path ≠ .ok a) ∧
      (∀ es, Listed v "token_filters" es → (∃ e ∈ es, ∀ s, ¬ TokenSetting e.1 e.2 s) → env.fromFile path ≠ .ok a) ∧
      ((∀ kvs c, HasMember v "tokenizer" (.obj kvs) → ¬ ConfigMembers kvs c) → env.fromFile path ≠ .ok a)) := by
  have key : ∀ data j v, env.load.files path = some data → JsonText.File env.finite data j → SameDoc j v → Canonical v → env.fromFile path = .ok a → Configured env v a := by
    intro data j v hf hj h1 h2 h
    obtain ⟨data', j', v', hf', hj', h1', h2', hc⟩ := (c67_analyzer env path a).mp h
    rw [hf] at hf'; cases hf'
    have := parseJsonBytes_iff.mpr hj
    rw [parseJsonBytes_iff.mpr hj'] at this; cases this
    rw [← value_iff.mpr ⟨h1, h2⟩, value_iff.mpr ⟨h1', h2'⟩]; exact hc
  refine ⟨fun h => ?_, fun data h hj => ?_, fun data j v hf hj h1 h2 => ⟨?_, ?_, ?_⟩⟩
  · unfold AnalyzerEnv.fromFile LoadEnv.readFile; rw [h]; rfl
  · have hj : env.json data = none := parseJsonBytes_none.mpr hj
    unfold AnalyzerEnv.fromFile LoadEnv.readFile AnalyzerEnv.configValue; simp only [h, bind_ok, hj]; rfl
  · rintro es hes ⟨e, he, hn⟩ h
    obtain ⟨es', hes', hall⟩ := (key data j v hf hj h1 h2 h).characterFilters
    rw [listed_unique hes' hes] at hall
    obtain ⟨f, _, s, hs, _⟩ := forall₂_left hall he
    exact hn s hs
  · rintro es hes ⟨e, he, hn⟩ h
    obtain ⟨es', hes', hall⟩ := (key data j v hf hj h1 h2 h).tokenFilters
    rw [listed_unique hes' hes] at hall
    obtain ⟨f, _, s, hs, _⟩ := forall₂_left hall he
    exact hn s hs
  · intro hn h
    obtain ⟨kvs, c, hm, hc, _⟩ := (key data j v hf hj h1 h2 h).tokenizer
    exact hn kvs c hm hc

/-- C67 is violated for entries that are not understood: an entry without a string `kind` (say, with the misspelt member `kinds`), is passed over without an error, and so is a list that is not
an array. -/
theorem c67_ignored_fails (env : AnalyzerEnv) (tokenizer junk : Json) (h : ∀ kind, ¬ HasMember junk "kind" (.str kind)) (hj : ∀ xs, junk ≠ .arr xs) :
    env.fromValue (.obj [("token_filters".toList, .arr [junk]), ("tokenizer".toList, tokenizer)]) = env.fromValue (.obj [("tokenizer".toList, tokenizer)]) ∧
    env.fromValue (.obj [("character_filters".toList, junk), ("tokenizer".toList, tokenizer)]) = env.fromValue (.obj [("tokenizer".toList, tokenizer)]) := by
  have hs : (junk.index "kind".toList).asStr = none := by
    rw [Option.eq_none_iff_forall_ne_some]; exact fun k hk => h k (index_str.mp hk)
  have ha : junk.asArray = none := by
    cases junk <;> first | rfl | exact absurd rfl (hj _)
  have g : ∀ k v, Json.get (.obj [(k, v), ("tokenizer".toList, tokenizer)]) "tokenizer".toList = some tokenizer := by
    intro k v; simp [Json.get]
  constructor
  · unfold AnalyzerEnv.fromValue tokenizerMember loadEntries
    have e1 : Json.index (.obj [("token_filters".toList, .arr [junk]), ("tokenizer".toList, tokenizer)]) "character_filters".toList = .null := rfl
    have e2 : Json.index (.obj [("token_filters".toList, .arr [junk]), ("tokenizer".toList, tokenizer)]) "tokenizer".toList = tokenizer := rfl
    have e3 : Json.index (.obj [("token_filters".toList, .arr [junk]), ("tokenizer".toList, tokenizer)]) "token_filters".toList = .arr [junk] := rfl
    have f1 : Json.index (.obj [("tokenizer".toList, tokenizer)]) "character_filters".toList = .null := rfl
    have f2 : Json.index (.obj [("tokenizer".toList, tokenizer)]) "tokenizer".toList = tokenizer := rfl
    have f3 : Json.index (.obj [("tokenizer".toList, tokenizer)]) "token_filters".toList = .null := rfl
    rw [e1, e2, e3, f1, f2, f3]
    simp only [Json.asArray, List.foldlM_cons, List.foldlM_nil]
    unfold loadEntry
    rw [hs]
    simp only [bind_ok, pure_eq_ok]
  · unfold AnalyzerEnv.fromValue tokenizerMember loadEntries
    have e1 : Json.index (.obj [("character_filters".toList, junk), ("tokenizer".toList, tokenizer)]) "character_filters".toList = junk := rfl
    have e2 : Json.index (.obj [("character_filters".toList, junk), ("tokenizer".toList, tokenizer)]) "tokenizer".toList = tokenizer := rfl
    have e3 : Json.index (.obj [("character_filters".toList, junk), ("tokenizer".toList, tokenizer)]) "token_filters".toList = .null := rfl
    have f1 : Json.index (.obj [("tokenizer".toList, tokenizer)]) "character_filters".toList = .null := rfl
    have f2 : Json.index (.obj [("tokenizer".toList, tokenizer)]) "tokenizer".toList = tokenizer := rfl
    have f3 : Json.index (.obj [("tokenizer".toList, tokenizer)]) "token_filters".toList = .null := rfl
    rw [e1, e2, e3, f1, f2, f3, ha]
    rfl

/-! ### C68 The command line and the configuration file agree -/

theorem mapM_flags {α β γ : Type} {P : α → β → Prop} {f : α → R γ} {g : β → R γ} (h : ∀ a b, P a b → f a = g b) {as : List α} {bs : List β}
    (hab : List.Forall₂ P as bs) : as.mapM f = bs.mapM g := by
  induction hab with
  | nil => rfl
  | cons h1 _ ih => rw [List.mapM_cons, List.mapM_cons, h _ _ h1, ih]

theorem parseFlag_flagFor {env : AnalyzerEnv} {flag : Str} {e : Str × Json} (h : FlagFor env flag e) : env.parseFlag flag = .ok e := by
  obtain ⟨hk, text, j, rfl, hj, h1, h2⟩ := h
  have hs : splitFlag (e.1 ++ ':' :: text) = (e.1, text) := by
    unfold splitFlag
    rw [if_pos (by simp)]
    have h1 : (e.1 ++ ':' :: text).takeWhile (· ≠ ':') = e.1 := by
      rw [List.takeWhile_append_of_pos (by intro c hc; simp; rintro rfl; exact hk hc)]; simp
    have h2 : (e.1 ++ ':' :: text).dropWhile (· ≠ ':') = ':' :: text := by
      rw [List.dropWhile_append_of_pos (by intro c hc; simp; rintro rfl; exact hk hc)]; simp
    rw [h1, h2]; rfl
  have hj : env.json (utf8 text) = some j := parseJsonBytes_iff.mpr ⟨text, rfl, hj⟩
  unfold AnalyzerEnv.parseFlag
  rw [hs]
  dsimp only
  rw [hj]
  dsimp only
  rw [value_iff.mpr ⟨h1, h2⟩]

theorem splitAt_colon {flag : Str} (h : ':' ∈ flag) :
    flag = flag.takeWhile (· ≠ ':') ++ ':' :: (flag.dropWhile (· ≠ ':')).drop 1 ∧ ':' ∉ flag.takeWhile (· ≠ ':') := by
  induction flag with
  | nil => cases h
  | cons c flag ih =>
    by_cases hc : c = ':'
    · subst hc; simp
    · have hd : decide (c ≠ ':') = true := by simpa using hc
      obtain ⟨h1, h2⟩ := ih (by simpa [Ne.symm hc] using h)
      rw [List.takeWhile_cons_of_pos (p := fun x => decide (x ≠ ':')) hd, List.dropWhile_cons_of_pos (p := fun x => decide (x ≠ ':')) hd]
      refine ⟨by rw [List.cons_append, ← h1], ?_⟩
      simp only [List.mem_cons, not_or]
      exact ⟨Ne.symm hc, h2⟩

/-- C68: a flag `kind:arguments` makes the same filter, or gives the same error, as an entry with this kind and these arguments in a configuration file. Every
other flag is a content error. -/
theorem c68_flag (env : AnalyzerEnv) (flag : Str) :
    (∀ kind args, FlagFor env flag (kind, args) → env.charFlag flag = env.filter.charFilter kind args ∧ env.tokenFlag flag = env.filter.tokenFilter kind args) ∧
    ((∀ entry, ¬ FlagFor env flag entry) → env.charFlag flag = .error (.err .content) ∧ env.tokenFlag flag = .error (.err .content)) := by
  constructor
  · intro kind args h
    unfold AnalyzerEnv.charFlag AnalyzerEnv.tokenFlag
    rw [parseFlag_flagFor h]
    exact ⟨rfl, rfl⟩
  · intro hn
    have he : env.json [] = none := rfl
    have : env.parseFlag flag = .error (.err .content) := by
      unfold AnalyzerEnv.parseFlag
      cases hj : env.json (utf8 (splitFlag flag).2) with
      | none => rfl
      | some j =>
        exfalso
        unfold splitFlag at hj
        by_cases hc : ':' ∈ flag
        · rw [if_pos hc] at hj
          obtain ⟨h1, h2⟩ := splitAt_colon hc
          unfold AnalyzerEnv.json at hj
          rw [parseJsonBytes_utf8, parseJson_read] at hj
          exact hn (flag.takeWhile (· ≠ ':'), j.value) ⟨h2, (flag.dropWhile (· ≠ ':')).drop 1, j, h1, hj, value_sameDoc j, canonical_value j⟩
        · rw [if_neg hc] at hj
          simp [utf8, he] at hj
    unfold AnalyzerEnv.charFlag AnalyzerEnv.tokenFlag
    rw [this]
    exact ⟨rfl, rfl⟩

/-- C68 is violated for filters without arguments: the empty text is no JSON document, so a flag without a colon is rejected, although an entry needs no arguments in a configuration file: a
`lowercase` filter can be made from the entry `{"kind": "lowercase"}`, but not with the flag `lowercase`. -/
theorem c68_bare_flag_fails (env : AnalyzerEnv) (flag : Str) (h : ':' ∉ flag) :
    env.charFlag flag = .error (.err .content) ∧ env.tokenFlag flag = .error (.err .content) ∧
    IsEntry (.obj [("kind".toList, .str "lowercase".toList)]) "lowercase".toList .null ∧
    env.filter.tokenFilter "lowercase".toList .null = .ok (lowercase env.filter.toLowercase) := by
  obtain ⟨h1, h2⟩ := (c68_flag env flag).2 (by
    rintro entry ⟨_, text, _, rfl, _⟩
    exact h (by simp))
  exact ⟨h1, h2, entry_iff.mpr ⟨rfl, rfl⟩, rfl⟩

/-- What the command line and a document have in common: the document lists the filters that the flags say, and its tokenizer has the dictionary, user dictionary and mode of the options. The
user dictionary is of the kind of the dictionary. -/
structure SameSettings (env : AnalyzerEnv) (args : TokenizeArgs) (doc : Json) : Prop where
  characterFilters : ∃ es, Listed doc "character_filters" es ∧ List.Forall₂ (FlagFor env) args.characterFilters es
  tokenFilters : ∃ es, Listed doc "token_filters" es ∧ List.Forall₂ (FlagFor env) args.tokenFilters es
  tokenizer : ∃ kvs user, HasMember doc "tokenizer" (.obj kvs) ∧ ConfigMembers kvs ⟨⟨args.dicType, args.dicDir⟩, user, args.mode⟩ ∧
    ((args.userDicFile = none ∧ user = none) ∨ ∃ p, args.userDicFile = some p ∧ user = some ⟨p, args.dicType⟩)

/-- C68: the command line makes the analyzer that a configuration with the same settings describes, if it names an output format. -/
theorem c68_same (env : AnalyzerEnv) (args : TokenizeArgs) (doc : Json) (h : SameSettings env args doc) (format : Format)
    (hf : Format.fromStr args.outputFormat = .ok format) (a : Analyzer) : env.cliAnalyzer args = .ok (a, format) ↔ Configured env doc a := by
  obtain ⟨ces, hc, hcf⟩ := h.characterFilters
  obtain ⟨tes, ht, htf⟩ := h.tokenFilters
  obtain ⟨kvs, user, hm, hcfg, hu⟩ := h.tokenizer
  have huser : args.userConfig = user := by
    unfold TokenizeArgs.userConfig
    rcases hu with ⟨h1, rfl⟩ | ⟨p, h1, rfl⟩ <;> rw [h1] <;> rfl
  have hcm : args.characterFilters.mapM env.charFlag = ces.mapM fun e => env.filter.charFilter e.1 e.2 :=
    mapM_flags (fun f e he => ((c68_flag env f).1 e.1 e.2 he).1) hcf
  have htm : args.tokenFilters.mapM env.tokenFlag = tes.mapM fun e => env.filter.tokenFilter e.1 e.2 :=
    mapM_flags (fun f e he => ((c68_flag env f).1 e.1 e.2 he).2) htf
  rw [← fromValue_iff]
  unfold AnalyzerEnv.cliAnalyzer AnalyzerEnv.fromValue
  rw [loadEntries_listed hc, loadEntries_listed ht, tokenizerMember_iff.mpr ⟨kvs, hm, hcfg⟩, huser, hcm, htm, hf]
  unfold LoadEnv.tokenizer
  simp only [bind_ok, bind_eq_ok, pure_eq_ok, Except.ok.injEq, Prod.mk.injEq]
  constructor
  · rintro ⟨d, hd, u, hu, cs, hcs, ts, hts, rfl, _⟩
    exact ⟨cs, hcs, _, ⟨d, hd, u, hu, rfl⟩, ts, hts, rfl⟩
  · rintro ⟨cs, hcs, _, ⟨d, hd, u, hu, rfl⟩, ts, hts, rfl⟩
    exact ⟨d, hd, u, hu, cs, hcs, ts, hts, rfl, trivial⟩

/-- C68: the whole run of `tokenize`. The input is the input file, or else the standard input. Line by line it is analyzed with the analyzer of a configuration with the same settings, and the
outputs are printed in order; the first line that is not UTF-8 or cannot be analyzed ends the run with its error. -/
theorem c68_session (env : AnalyzerEnv) (pretty : Json → Str) (stdin : List UInt8) (args : TokenizeArgs) (doc : Json) (h : SameSettings env args doc) (format : Format)
    (hf : Format.fromStr args.outputFormat = .ok format) (a : Analyzer) (ha : Configured env doc a) (input : List UInt8)
    (hi : (args.inputFile = none ∧ input = stdin) ∨ ∃ p, args.inputFile = some p ∧ env.load.files p = some input) :
    ∀ pre rest, Lines 0x0A input (pre ++ rest) →
    ∀ outs, List.Forall₂ (fun l o => ∃ text t tokens, l = utf8 text ∧ Trimmed text t ∧ a.analyze t = .ok tokens ∧ format.output pretty tokens = (o, .ok ())) pre outs →
    (rest = [] → env.cliTokenize pretty stdin args = (outs.flatten, .ok ())) ∧
    (∀ l post, rest = l :: post → (∀ text, l ≠ utf8 text) → env.cliTokenize pretty stdin args = (outs.flatten, .error (.err .io))) ∧
    (∀ l post text t e, rest = l :: post → l = utf8 text → Trimmed text t → a.analyze t = .error e → env.cliTokenize pretty stdin args = (outs.flatten, .error e)) := by
  have hin : env.input stdin args = .ok input := by
    unfold AnalyzerEnv.input LoadEnv.readFile
    rcases hi with ⟨h1, rfl⟩ | ⟨p, h1, h2⟩
    · rw [h1]
    · rw [h1]; dsimp only; rw [h2]
  have hrun : env.cliTokenize pretty stdin args = cliLoop a.analyze format pretty (readLines input) := by
    unfold AnalyzerEnv.cliTokenize
    rw [(c68_same env args doc h format hf a).mpr ha, hin]
    rfl
  rw [hrun]
  exact (c53_session a.analyze format pretty input).2

/-- C68: if no analyzer can be made, the output format is unknown or the input file cannot be read, nothing is printed. -/
theorem c68_failure (env : AnalyzerEnv) (pretty : Json → Str) (stdin : List UInt8) (args : TokenizeArgs)
    (h : (∃ doc, SameSettings env args doc ∧ ∀ a, ¬ Configured env doc a) ∨ (∀ f, Format.fromStr args.outputFormat ≠ .ok f) ∨
      ∃ p, args.inputFile = some p ∧ env.load.files p = none) :
    ∃ e, env.cliTokenize pretty stdin args = ([], .error e) := by
  unfold AnalyzerEnv.cliTokenize
  cases hr : (do let a ← env.cliAnalyzer args; let input ← env.input stdin args; return (a, input) : R ((Analyzer × Format) × List UInt8)) with
  | error e => exact ⟨e, rfl⟩
  | ok r =>
    exfalso
    obtain ⟨⟨a, format⟩, ha, hr⟩ := bind_eq_ok.mp hr
    obtain ⟨input, hi, _⟩ := bind_eq_ok.mp hr
    have hf : Format.fromStr args.outputFormat = .ok format := by
      unfold AnalyzerEnv.cliAnalyzer at ha
      simp only [bind_eq_ok, pure_eq_ok, Except.ok.injEq, Prod.mk.injEq] at ha
      obtain ⟨_, _, _, _, f, hf, _, _, _, _, _, rfl⟩ := ha
      exact hf
    rcases h with ⟨doc, hs, hn⟩ | hn | ⟨p, hp, hn⟩
    · exact hn a ((c68_same env args doc hs format hf a).mp ha)
    · exact hn format hf
    · unfold AnalyzerEnv.input LoadEnv.readFile at hi
      rw [hp] at hi; dsimp only at hi; rw [hn] at hi; cases hi

/-! ### A sample configuration -/

namespace Ac
def s (x : String) : Json := .str x.toList
def o (kvs : List (String × Json)) : Json := .obj (kvs.map fun p => (p.1.toList, p.2))
def min2 : Json := o [("max", .null), ("min", .int 2)]
def mapping : Json := o [("mapping", o [("猫", s "c")])]
def tokenizer : Json := o [("dictionary", o [("kind", s "ipadic")])]
/-- The members are not in order, `token_filters` is given twice, and there is a note that is no entry. -/
def doc : Json := o [("token_filters", .arr [s "x"]), ("tokenizer", tokenizer),
  ("token_filters", .arr [o [("kind", s "length"), ("args", min2)], s "note", o [("kind", s "uppercase")]]), ("character_filters", .arr [o [("args", mapping), ("kind", s "mapping")]])]
/-- The text of the document, with white space and an escape. -/
def text : String := "{\"token_filters\": [\"x\"],\n \"tokenizer\": {\"dictionary\": {\"kind\": \"ipadic\"} },
 \"token_filters\": [{\"kind\": \"length\", \"args\": {\"max\": null, \"min\": 2}}, \"note\", {\"kind\": \"upper\\u0063ase\"}],
 \"character_filters\": [{\"args\": {\"mapping\": {\"猫\": \"c\"}}, \"kind\": \"mapping\"}]}\n"
def filterEnv : FilterEnv := ⟨Tf.all, Src.yada, fun _ => none, fun s => s.map ([·]), fun _ s => s, fun s => s.map Char.toUpper, fun s => s.map Char.toLower, id, id, Tf.block⟩
def env : AnalyzerEnv :=
  ⟨{ Cf.env with builtin := fun _ => .ok Cf.tok.dictionary, files := fun p => if p = Cf.path "a.json" then some (utf8 text.toList) else none }, filterEnv, fun _ => false⟩
def args : TokenizeArgs := ⟨some .ipadic, none, none, .normal, "wakati".toList, ["mapping:{ \"mapping\": {\"\\u732b\": \"c\"}}".toList], ["length:{\"max\":null,\"min\":2}".toList, "uppercase:null".toList], none⟩
end Ac

/-- Non-vacuity of C66: the settings of the filters in the sample configuration, with a member that is ignored and as an array; a tag of two parts; arguments without a setting. -/
example : TokenSetting "length".toList Ac.min2 (.length (some 2) none) ∧ TokenSetting "length".toList (.arr [.int 2, .null]) (.length (some 2) none) ∧
    TokenSetting "japanese_stop_tags".toList (Ac.o [("note", .null), ("tags", .arr [Ac.s "名詞,接尾"])]) (.japaneseStopTags ["名詞,接尾".toList]) ∧
    CharSetting "mapping".toList Ac.mapping (.mapping [(['猫'], ['c'])]) ∧ (∀ s, ¬ TokenSetting "length".toList (.arr [.int 2]) s) ∧ (∀ s, ¬ TokenSetting "longth".toList Ac.min2 s) := by
  have none : ∀ {k j}, (readTokenFilter k j).isNone = true → ∀ s, ¬ TokenSetting k j s := by
    intro k j h s hs
    rw [tokenFilter_iff.mpr hs] at h; cases h
  refine ⟨tokenFilter_iff.mp ?_, tokenFilter_iff.mp ?_, tokenFilter_iff.mp ?_, charFilter_iff.mp ?_, none (by decide +kernel), none (by decide +kernel)⟩
  · rfl
  · rfl
  · rfl
  · rfl

/-- Non-vacuity of the effects: the sample tokens are accepted by all kinds of settings. -/
example : YadaContract Ac.filterEnv.yada ∧ TokenAccepts Ac.filterEnv (.japaneseBaseForm .ipadic) Tf.tokens ∧ TokenAccepts Ac.filterEnv (.japaneseCompoundWord .ipadic ["名詞".toList] none) Tf.tokens ∧
    TokenAccepts Ac.filterEnv (.japaneseNumber (some ["名詞,数".toList])) (Tf.tokens.drop 1) ∧ ShortTags (.japaneseNumber (some ["名詞,数".toList])) ∧
    CharAccepts Ac.filterEnv (.unicodeNormalize .nfkc) "ab猫".toList ∧ CharAccepts Ac.filterEnv (.iterationMark true true) "人々".toList := by
  refine ⟨Src.yadaOk, ?_, ?_, ?_, ?_, ?_, ?_⟩
  · intro t ht
    simp only [Tf.tokens, List.mem_cons, List.not_mem_nil, or_false] at ht
    have col : ∀ i, baseColumn Ac.filterEnv.features .ipadic i → i = 6 := by
      rintro i (⟨_, _, h⟩ | ⟨h, _⟩ | ⟨h, _⟩)
      · exact h
      · cases h
      · cases h
    rcases ht with rfl | rfl | rfl | rfl
    · exact ⟨by simp [Tf.tok], .inr fun i hi => by rw [col i hi]; simp [Tf.tok]⟩
    · exact ⟨by simp [Tf.tok], .inr fun i hi => by rw [col i hi]; simp [Tf.tok]⟩
    · exact ⟨by simp [Tf.tok], .inr fun i hi => by rw [col i hi]; simp [Tf.tok]⟩
    · exact ⟨by simp [Tf.tok], .inl rfl⟩
  · show ∀ t ∈ Tf.tokens, t.details ≠ []
    decide
  · have : ∀ t ∈ Tf.tokens.drop 1, t.details ≠ [] ∧ ∀ c ∈ t.text, c ∉ unitChars := by decide
    exact fun t ht => ⟨(this t ht).1, .inr (this t ht).2⟩
  · intro ts h tag ht
    cases h
    simp only [List.mem_cons, List.not_mem_nil, or_false] at ht
    subst ht; decide
  · exact ⟨by decide, by decide⟩
  · intro s k j c hg hj hc
    have : ∀ c ∈ "人々".toList, c.utf8Size = 3 := by decide
    exact this c (List.mem_of_getElem? hc)

/-- Non-vacuity of C67: the analyzer of the sample file replaces `猫` by `c`, drops tokens shorter than two characters and writes the others in capitals. -/
example : (do return (← (← Ac.env.fromFile (Cf.path "a.json")).analyze "ab猫".toList).map (fun t => (t.text, t.byteStart, t.byteEnd))) = (.ok [("AB".toList, 0, 2)] : R _) := by
  decide +kernel

/-- Non-vacuity of C67: the text of the sample file reads as the sample document. -/
example : JsonText.File Ac.env.finite (utf8 Ac.text.toList) Ac.doc ∧ Ac.env.load.files (Cf.path "a.json") = some (utf8 Ac.text.toList) :=
  ⟨⟨_, rfl, parseJson_read.mp (by decide +kernel)⟩, by decide +kernel⟩

theorem Ac.same : SameSettings Ac.env Ac.args Ac.doc where
  characterFilters := ⟨[("mapping".toList, Ac.mapping)], .inl ⟨_, get_eq_some.mp rfl, .entry (entry_iff.mpr ⟨rfl, rfl⟩) .nil⟩,
    .cons ⟨by decide, "{ \"mapping\": {\"\\u732b\": \"c\"}}".toList, Ac.mapping, by decide, parseJson_read.mp (by decide +kernel), .refl _, by simp [Ac.mapping, Ac.o, Ac.s, Canonical, CanonicalMembers]⟩ .nil⟩
  tokenFilters := ⟨[("length".toList, Ac.min2), ("uppercase".toList, .null)], .inl ⟨_, get_eq_some.mp rfl, .entry (entry_iff.mpr ⟨rfl, rfl⟩) (.skip (fun kind args h => by cases (entry_iff.mp h).1) (.entry (entry_iff.mpr ⟨rfl, rfl⟩) .nil))⟩,
    .cons ⟨by decide, "{\"max\":null,\"min\":2}".toList, Ac.min2, by decide, parseJson_read.mp (by decide +kernel), .refl _, by simp [Ac.min2, Ac.o, Canonical, CanonicalMembers]; decide⟩
    (.cons ⟨by decide, "null".toList, .null, by decide, parseJson_read.mp (by decide +kernel), .refl _, trivial⟩ .nil)⟩
  tokenizer := ⟨_, none, get_eq_some.mp rfl, config_de.mp rfl, .inl ⟨rfl, rfl⟩⟩

/-- Non-vacuity of C68: the same settings on the command line (the first colon of a flag ends the kind; the others belong to the arguments), and what is printed. -/
example : SameSettings Ac.env Ac.args Ac.doc ∧
    Ac.env.cliTokenize (fun _ => []) (utf8 "ab猫\nabab\n".toList) Ac.args = ("AB\nAB AB\n".toList, .ok ()) := ⟨Ac.same, by decide +kernel⟩
end Verif.Props
