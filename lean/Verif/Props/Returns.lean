import Verif.Proofs.Returns
import Verif.Props.Renamed
/-! When analysis returns: C101. -/
namespace Verif.Props
open Verif.Model Verif.Spec

/-- C101, for one token filter: it returns exactly if it can handle every token, and panics otherwise. -/
theorem c101_filter (env : FilterEnv) (hy : YadaContract env.yada) (hb : KatakanaBlock env.block) (s : TokenFilterSetting) (f : TokenFilter) (hf : s.new env = .ok f)
    (hm : ∀ m, s = .mapping m → MappingOk m) (tokens : List FToken) : ReturnsIff (f tokens) (∀ t ∈ tokens, Handles env s t) := setting_returns hy hb hf hm tokens

/-- C101, exactly: for an analyzer with any filters over a tokenizer that answers every text, the analysis of a text returns exactly if each token filter can handle the tokens that the
analyzer with only the filters before it makes of the text; otherwise it panics. Neither the character filters nor the tokenizer nor the correction of the offsets ever fail. -/
theorem c101_exact (env : FilterEnv) (hy : YadaContract env.yada) (hb : KatakanaBlock env.block) (hr : RegexContract env.regex)
    (charFilters : List CharFilterSetting) (tokenFilters : List TokenFilterSetting) (hcm : ∀ m, .mapping m ∈ charFilters → MappingOk m) (htm : ∀ m, .mapping m ∈ tokenFilters → MappingOk m)
    (a : Analyzer) (hc : List.Forall₂ (fun s f => s.new env = .ok f) charFilters a.characterFilters) (ht : List.Forall₂ (fun s f => s.new env = .ok f) tokenFilters a.tokenFilters)
    (L : Lexicon) (hl : L.AnsweredBy a.tokenizer) (text : Str) :
    ReturnsIff (a.analyze text) (∀ i s, tokenFilters[i]? = some s → ∀ out, (firstFilters a i).analyze text = .ok out → ∀ t ∈ out, Handles env s t) := by
  obtain ⟨st, hst, hbal⟩ := charFilters_return hy hr hc hcm ⟨text, []⟩ (by simp)
  obtain ⟨toks, segs, h3, h4, h5⟩ := hl st.text _ (sentences_exist st.text)
  obtain ⟨fts, h6, -⟩ := analyzed_shown h4 (fun tok htok => by
    obtain ⟨i, hi⟩ := List.getElem?_of_mem htok
    exact (c03_positions h3 hi).2)
  have run : ∀ fs : List TokenFilter, (⟨a.characterFilters, a.tokenizer, fs⟩ : Analyzer).analyze text =
      (do let mid ← fs.foldlM (fun ts f => f ts) fts; mid.mapM fun t => st.tables.foldlM FToken.correctBy t) := by
    intro fs
    unfold Analyzer.analyze Analyzer.tokens
    rw [hst, bind_ok]
    dsimp only
    rw [h3, bind_ok, h6, bind_ok]
  have main := filters_return hy hb ht htm fts
  rw [show a.analyze text = (⟨a.characterFilters, a.tokenizer, a.tokenFilters⟩ : Analyzer).analyze text from rfl, run]
  refine ((main.bind (d := True) fun mid _ => ?_).congr ((and_iff_left trivial).trans ?_))
  · obtain ⟨out, ho, -⟩ := corrected_return hbal mid
    rw [ho]
    exact .ok trivial
  · refine forall₃_congr fun i s _ => ?_
    unfold firstFilters
    rw [run]
    constructor
    · intro h out ho t hto
      rw [bind_eq_ok] at ho
      obtain ⟨mid, hmid, ho⟩ := ho
      obtain ⟨out', ho', hall⟩ := corrected_return hbal mid
      rw [ho] at ho'
      cases ho'
      obtain ⟨j, hj, he⟩ := List.mem_iff_getElem.mp hto
      obtain ⟨hlen, hget⟩ := List.forall₂_iff_get.mp hall
      have := hget j (by omega) hj
      simp only [List.get_eq_getElem, he] at this
      exact (Handles.congr this).mpr (h mid hmid _ (List.getElem_mem (by omega)))
    · intro h mid hmid t htm
      obtain ⟨out, ho, hall⟩ := corrected_return hbal mid
      obtain ⟨j, hj, he⟩ := List.mem_iff_getElem.mp htm
      obtain ⟨hlen, hget⟩ := List.forall₂_iff_get.mp hall
      have := hget j hj (by omega)
      simp only [List.get_eq_getElem, he] at this
      exact (Handles.congr this).mp (h out (by rw [hmid, bind_ok]; exact ho) _ (List.getElem_mem (by omega)))

/-- C101, for analyzers without the katakana stem filter and the number filter: if every word of the lexicon has the details that the filters read, every text is analyzed. (Unknown words need not
have them, and compound words have them unless a compound filter for another dictionary is combined with the base forms of UniDic.) Missing: the two filters, which panic on some texts
(`c101_number_fails`, `c101_stem_fails`), and words with fewer details (`c101_details_fails`); `c101_exact` says for which texts. -/
theorem c101_total_partial (env : FilterEnv) (hy : YadaContract env.yada) (hb : KatakanaBlock env.block) (hr : RegexContract env.regex)
    (charFilters : List CharFilterSetting) (tokenFilters : List TokenFilterSetting) (hcm : ∀ m, .mapping m ∈ charFilters → MappingOk m) (htm : ∀ m, .mapping m ∈ tokenFilters → MappingOk m)
    (a : Analyzer) (hc : List.Forall₂ (fun s f => s.new env = .ok f) charFilters a.characterFilters) (ht : List.Forall₂ (fun s f => s.new env = .ok f) tokenFilters a.tokenFilters)
    (L : Lexicon) (hl : L.AnsweredBy a.tokenizer)
    (hstem : ∀ min, .japaneseKatakanaStem min ∉ tokenFilters) (hnumber : ∀ tags, .japaneseNumber tags ∉ tokenFilters)
    (hcompound : ∀ kind tags newTag, .japaneseCompoundWord kind tags newTag ∈ tokenFilters → .japaneseBaseForm .unidic ∈ tokenFilters → kind = .unidic)
    (hwords : ∀ w ∈ L.words, w.details ≠ [] ∧ ∀ s ∈ tokenFilters, ∀ i, Reads env s i → w.details.head? = some "UNK".toList ∨ i < w.details.length) (text : Str) :
    ∃ out, a.analyze text = .ok out := by
  obtain ⟨st, hst, hbal⟩ := charFilters_return hy hr hc hcm ⟨text, []⟩ (by simp)
  obtain ⟨toks, segs, h3, h4, h5⟩ := hl st.text _ (sentences_exist st.text)
  obtain ⟨fts, h6, h7⟩ := analyzed_shown h4 (fun tok htok => by
    obtain ⟨i, hi⟩ := List.getElem?_of_mem htok
    exact (c03_positions h3 hi).2)
  have hshort : ∀ s ∈ tokenFilters, ShortTags s := by
    intro s hs
    obtain ⟨i, hi, he⟩ := List.mem_iff_getElem.mp hs
    obtain ⟨hlen, hget⟩ := List.forall₂_iff_get.mp ht
    have := hget i hi (by omega)
    simp only [List.get_eq_getElem, he] at this
    exact setting_short this
  have henough : ∀ t ∈ fts, EnoughFor env tokenFilters t.details := by
    intro t ht'
    obtain ⟨w, hw, e⟩ := shown_details h7 t ht'
    obtain ⟨ws, hws, hw⟩ := List.mem_flatten.mp hw
    obtain ⟨i, hi, he⟩ := List.mem_iff_getElem.mp hws
    obtain ⟨hlen, hget⟩ := List.forall₂_iff_get.mp h5
    have := (hget i (by omega) hi).1
    simp only [List.get_eq_getElem, he] at this
    rw [e]
    rcases segFrom_words this w hw with h | h
    · exact hwords w h
    · rw [h]
      exact ⟨by simp, fun _ _ _ _ => .inl rfl⟩
  obtain ⟨mid, -, h8⟩ := tokenFilters_run hy hb ht htm hshort fts (enough_ok tokenFilters (fun _ h => h) hshort hstem hnumber hcompound fts henough)
  obtain ⟨out, ho, -⟩ := corrected_return hbal mid
  refine ⟨out, ?_⟩
  unfold Analyzer.analyze Analyzer.tokens
  rw [hst, bind_ok, h3, bind_ok, h6, bind_ok, h8, bind_ok]
  exact ho

/-- C101, from source files: compile good sources and an optional user dictionary, and configure any filters but the two above. If every word of the sources and of the user dictionary has the details that the
filters read, then the analyzer returns a result for every text, in every mode. -/
theorem c101_sources_partial {build : BuildEnv} {kind : DictionaryKind} {src : SourceDir} {c : Contents} {user : Option (DictionaryKind × List Row)} (hready : Ready build kind src c user)
    (env : FilterEnv) (hy : YadaContract env.yada) (hb : KatakanaBlock env.block) (hr : RegexContract env.regex)
    (charFilters : List CharFilterSetting) (tokenFilters : List TokenFilterSetting) (hcm : ∀ m, .mapping m ∈ charFilters → MappingOk m) (htm : ∀ m, .mapping m ∈ tokenFilters → MappingOk m)
    (hstem : ∀ min, .japaneseKatakanaStem min ∉ tokenFilters) (hnumber : ∀ tags, .japaneseNumber tags ∉ tokenFilters)
    (hcompound : ∀ kind tags newTag, .japaneseCompoundWord kind tags newTag ∈ tokenFilters → .japaneseBaseForm .unidic ∈ tokenFilters → kind = .unidic)
    (hwords : ∀ w ∈ sourceWords (sourceFormat kind).unify c.rows ++ userWords user, w.details ≠ [] ∧
      ∀ s ∈ tokenFilters, ∀ i, Reads env s i → w.details.head? = some "UNK".toList ∨ i < w.details.length) :
    ∃ parts m u, compile build kind src = .ok parts ∧ ConnMatrix.load parts.matrix = .ok m ∧ compileUser build.yada user = .ok u ∧
      ∀ mode cs ts, List.Forall₂ (fun s f => s.new env = .ok f) charFilters cs → List.Forall₂ (fun s f => s.new env = .ok f) tokenFilters ts →
        ∀ text, ∃ out, (⟨cs, ⟨parts.dictionary m, u, mode⟩, ts⟩ : Analyzer).analyze text = .ok out := by
  obtain ⟨parts, m, u, h1, h2, h3, h4⟩ := c64_source_semantics build hready.yada hready.hashOrder kind src c hready.contents hready.good user hready.user
  refine ⟨parts, m, u, h1, h2, h3, fun mode cs ts hc ht => c101_total_partial env hy hb hr charFilters tokenFilters hcm htm ⟨cs, _, ts⟩ hc ht _ (h4 mode) hstem hnumber hcompound fun w hw => ?_⟩
  simp only [Contents.lexicon, List.mem_append, List.mem_map] at hw hwords
  rcases hw with ⟨w, hw, rfl⟩ | ⟨w, hw, rfl⟩
  · exact hwords w (.inr hw)
  · have h := hwords w (.inl hw)
    rwa [show w.systemItem.details = w.details by unfold SourceWord.systemItem shown; simp [h.1]]

namespace Ret
/-- The tokenizer compiled from the sample sources. -/
def tok : Tokenizer := match ConnMatrix.load Lang.compiled.matrix with
  | .ok m => ⟨Lang.compiled.dictionary m, none, .normal⟩
  | .error _ => Cf.tok

theorem answered : (Lang.contents.lexicon .unidic none).AnsweredBy tok := by
  obtain ⟨parts, m, u, h1, h2, h3, h4⟩ := c64_source_semantics Dir.env Src.yadaOk (fun _ => .refl _) .unidic Lang.source Lang.contents Lang.saysSo Lang.good none (by simp)
  rw [Lang.compiles] at h1
  cases h1
  cases h3
  unfold tok
  rw [h2]
  exact h4 .normal
end Ret

/-- C101 does not hold with the number filter: 二十日 (the 20th of a month) makes it panic, if the tokenizer takes it for one word. -/
theorem c101_number_fails : (Lang.contents.lexicon .unidic none).AnsweredBy Ret.tok ∧
    (⟨[], Ret.tok, [japaneseNumber none]⟩ : Analyzer).analyze "二十日".toList = .error .panic := ⟨Ret.answered, by decide +kernel⟩

/-- C101 does not hold with the katakana stem filter: a text with a character that is in no Unicode block makes it panic. -/
theorem c101_stem_fails : (Lang.contents.lexicon .unidic none).AnsweredBy Ret.tok ∧ KatakanaBlock Tf.block ∧
    (⟨[], Ret.tok, [katakanaStem Tf.block 3]⟩ : Analyzer).analyze [Char.ofNat 0x2FE0] = .error .panic := ⟨Ret.answered, E2e.block, by decide +kernel⟩

/-- C101 does not hold if a word of the dictionary has fewer details than the filter reads. -/
theorem c101_details_fails : (Lang.contents.lexicon .unidic none).AnsweredBy Ret.tok ∧
    (⟨[], Ret.tok, [japaneseBaseForm Tf.all .unidic]⟩ : Analyzer).analyze ['a'] = .error .panic := ⟨Ret.answered, by decide +kernel⟩

namespace Ret
/-- The filters' crates, with regular expressions that match the first character of a text. -/
def env : FilterEnv := { Ac.filterEnv with regex := fun _ => some fun text => match text with | [] => [] | c :: _ => [⟨0, c.utf8Size, fun _ => [c]⟩] }

theorem regex : RegexContract env.regex := by
  rintro pattern find h text
  cases h
  cases text with
  | nil => exact ⟨_, .done 0 []⟩
  | cons c s => exact ⟨_, .hit 0 ⟨0, c.utf8Size, fun _ => [c]⟩ [] [] [c] s _ rfl (by simp [blen]) (.done _ _)⟩

/-- The first character is doubled; 猫 becomes c. -/
def charFilters : List CharFilterSetting := [.regex ['^', '.'] ['$', '0', '$', '0'], .mapping [(['猫'], ['c'])]]
/-- Words tagged y are put together, those tagged x are dropped; the rest gets capitals. -/
def tokenFilters : List TokenFilterSetting := [.japaneseCompoundWord .unidic [['y']] none, .japaneseStopTags [['x']], .uppercase]

theorem mappings : ∀ m, .mapping m ∈ charFilters → MappingOk m := fun m h => E2e.valid none |>.charMappings m (by
  simp only [charFilters, List.mem_cons, CharFilterSetting.mapping.injEq, List.not_mem_nil, or_false, reduceCtorEq, false_or] at h
  subst h
  simp [E2e.settings])
end Ret

/-- Non-vacuity of `c101_total_partial`: an analyzer with filters that look at the details, over the compiled sample sources. -/
example : ∃ a : Analyzer, a.tokenizer = Ret.tok ∧ a.characterFilters.length = 2 ∧ a.tokenFilters.length = 3 ∧ ∀ text, ∃ out, a.analyze text = .ok out := by
  obtain ⟨cs, hc, -⟩ := settings_make (P := fun (_ : CharFilterSetting) _ => True) (new := CharFilterSetting.new Ret.env) (as := Ret.charFilters) (bs := Ret.charFilters)
    (.cons trivial (.cons trivial .nil)) (by
      simp only [Ret.charFilters, List.mem_cons, List.not_mem_nil, or_false, forall_eq_or_imp, forall_eq]
      exact ⟨⟨_, rfl⟩, _, rfl⟩)
  obtain ⟨ts, ht, -⟩ := settings_make (P := fun (_ : TokenFilterSetting) _ => True) (new := TokenFilterSetting.new Ret.env) (as := Ret.tokenFilters) (bs := Ret.tokenFilters)
    (.cons trivial (.cons trivial (.cons trivial .nil))) (by
      simp only [Ret.tokenFilters, List.mem_cons, List.not_mem_nil, or_false, forall_eq_or_imp, forall_eq]
      exact ⟨⟨_, rfl⟩, ⟨_, rfl⟩, _, rfl⟩)
  refine ⟨⟨cs, Ret.tok, ts⟩, rfl, hc.length_eq.symm, ht.length_eq.symm, c101_total_partial Ret.env Src.yadaOk E2e.block Ret.regex Ret.charFilters Ret.tokenFilters Ret.mappings
    (by simp [Ret.tokenFilters]) _ hc ht _ Ret.answered (by simp [Ret.tokenFilters]) (by simp [Ret.tokenFilters]) (by simp [Ret.tokenFilters]) ?_⟩
  have h : ∀ w ∈ (Lang.contents.lexicon .unidic none).words, w.details ≠ [] := by decide +kernel
  refine fun w hw => ⟨h w hw, fun s hs i hi => ?_⟩
  simp only [Ret.tokenFilters, List.mem_cons, List.not_mem_nil, or_false] at hs
  rcases hs with rfl | rfl | rfl <;> exact hi.elim

/-- Non-vacuity of `c101_sources_partial`: the sample sources with a user dictionary. -/
example : ∃ parts m u, compile Dir.env .unidic Lang.source = .ok parts ∧ ConnMatrix.load parts.matrix = .ok m ∧ compileUser Dir.env.yada Lang.user = .ok u ∧
    ∀ mode cs ts, List.Forall₂ (fun s f => s.new Ret.env = .ok f) Ret.charFilters cs → List.Forall₂ (fun s f => s.new Ret.env = .ok f) Ret.tokenFilters ts →
      ∀ text, ∃ out, (⟨cs, ⟨parts.dictionary m, u, mode⟩, ts⟩ : Analyzer).analyze text = .ok out := by
  refine c101_sources_partial (c := Lang.contents) ⟨Src.yadaOk, fun _ => .refl _, Lang.saysSo, Lang.good, Lang.users⟩ Ret.env Src.yadaOk E2e.block Ret.regex Ret.charFilters Ret.tokenFilters Ret.mappings
    (by simp [Ret.tokenFilters]) (by simp [Ret.tokenFilters]) (by simp [Ret.tokenFilters]) (by simp [Ret.tokenFilters]) ?_
  have h : ∀ w ∈ sourceWords (sourceFormat .unidic).unify Lang.contents.rows ++ userWords Lang.user, w.details ≠ [] := by decide +kernel
  refine fun w hw => ⟨h w hw, fun s hs i hi => ?_⟩
  simp only [Ret.tokenFilters, List.mem_cons, List.not_mem_nil, or_false] at hs
  rcases hs with rfl | rfl | rfl <;> exact hi.elim

/-- Non-vacuity of `c101_exact`: with the number filter, which returns for 三千 and panics for 二十日. -/
example : ReturnsIff ((⟨[], Ret.tok, [japaneseNumber none]⟩ : Analyzer).analyze "三千".toList) (∀ i s, [TokenFilterSetting.japaneseNumber none][i]? = some s →
      ∀ out, (firstFilters ⟨[], Ret.tok, [japaneseNumber none]⟩ i).analyze "三千".toList = .ok out → ∀ t ∈ out, Handles Ret.env s t) ∧
    ((⟨[], Ret.tok, [japaneseNumber none]⟩ : Analyzer).analyze "三千".toList).toOption.map (·.map (·.text)) = some ["3000".toList] := by
  have h : TokenFilterSetting.new Ret.env (.japaneseNumber none) = .ok (japaneseNumber none) := rfl
  refine ⟨?_, by decide +kernel⟩
  exact c101_exact Ret.env Src.yadaOk E2e.block Ret.regex [] [.japaneseNumber none] (by simp) (by simp) ⟨[], Ret.tok, [japaneseNumber none]⟩ .nil (.cons h .nil) _ Ret.answered _

end Verif.Props
