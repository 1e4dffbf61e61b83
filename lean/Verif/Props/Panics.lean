import Verif.Props.Rows
/-! C66 and C102: exactly when making an analyzer panics. -/
namespace Verif.Props
open Verif.Model Verif.Spec

private theorem bind_panic {α β : Type} {m : R α} {k : α → R β} : (m >>= k) = .error .panic ↔ m = .error .panic ∨ ∃ a, m = .ok a ∧ k a = .error .panic := by
  cases m with
  | ok a => simp [bind_ok]
  | error e => simp [bind_error]

private theorem mapM_panic {α β : Type} {f : α → R β} {xs : List α} :
    xs.mapM f = .error .panic ↔ ∃ pre x post, xs = pre ++ x :: post ∧ (∀ y ∈ pre, ∃ b, f y = .ok b) ∧ f x = .error .panic := by
  induction xs with
  | nil => simp
  | cons x xs ih =>
    rw [List.mapM_cons, bind_panic]
    constructor
    · rintro (h | ⟨b, h, h'⟩)
      · exact ⟨[], x, xs, rfl, by simp, h⟩
      · rw [bind_panic] at h'
        rcases h' with h' | ⟨_, -, h'⟩
        · obtain ⟨pre, y, post, rfl, h1, h2⟩ := ih.mp h'
          exact ⟨x :: pre, y, post, rfl, by simpa using ⟨⟨b, h⟩, h1⟩, h2⟩
        · cases h'
    · rintro ⟨pre, y, post, he, h1, h2⟩
      cases pre with
      | nil => cases he; exact .inl h2
      | cons z pre =>
        cases he
        obtain ⟨b, hb⟩ := h1 x (by simp)
        refine .inr ⟨b, hb, bind_panic.mpr (.inl (ih.mpr ⟨pre, y, post, rfl, fun w hw => h1 w (by simp [hw]), h2⟩))⟩

private theorem mapM_loads {α β : Type} {f : α → R β} {xs : List α} : (∃ ys, xs.mapM f = .ok ys) ↔ ∀ x ∈ xs, ∃ b, f x = .ok b := by
  induction xs with
  | nil => simp [pure_eq_ok]
  | cons x xs ih =>
    simp only [List.mapM_cons, bind_eq_ok, pure_eq_ok, List.forall_mem_cons, ← ih]
    constructor
    · rintro ⟨_, b, h, bs, h', -⟩; exact ⟨⟨b, h⟩, bs, h'⟩
    · rintro ⟨⟨b, h⟩, bs, h'⟩; exact ⟨_, b, h, bs, h', rfl⟩

private theorem reported_not_panic {α : Type} {r : R α} (h : Reported r) : r ≠ .error .panic := by
  rintro rfl
  rcases h with ⟨_, h⟩ | ⟨_, h⟩ <;> cases h

private theorem returnsIff_panic {α : Type} {x : R α} {c : Prop} (h : ReturnsIff x c) : x = .error .panic ↔ ¬ c := by
  rcases h with ⟨hc, a, rfl⟩ | ⟨hc, rfl⟩
  · exact ⟨fun h => (by cases h), fun h => absurd hc h⟩
  · exact ⟨fun _ => hc, fun _ => rfl⟩

private theorem formatTags_returns (tags : List Str) : ReturnsIff (formatTags tags) (∀ tag ∈ tags, tag.count ',' ≤ 3) := ReturnsIff.mapM fun tag _ => formatTag_returns tag

/-- C66: exactly when making a token filter panics: the arguments are right for the filter, and a Japanese part-of-speech tag has more than four parts. -/
theorem c66_panic_exact (env : FilterEnv) (kind : Str) (args : Json) : env.tokenFilter kind args = .error .panic ↔ LongTags (kind, args) := by
  constructor
  · intro h
    by_contra hn
    exact reported_not_panic (reported_tokenFilter env kind args fun s hs => by_contra fun hl => hn ⟨s, hs, hl⟩) h
  · rintro ⟨s, hs, hl⟩
    rw [(c66_token_partial env kind args).1 s hs]
    cases s with
    | japaneseCompoundWord k tags newTag =>
      have : ReturnsIff (TokenFilterSetting.new env (.japaneseCompoundWord k tags newTag)) (ShortTags (.japaneseCompoundWord k tags newTag)) := by
        refine ReturnsIff.congr (ReturnsIff.bind (ReturnsIff.bind (formatTags_returns tags) fun _ _ => ReturnsIff.bind (x := formatNewTag newTag) (c := ∀ tag, newTag = some tag → tag.count ',' ≤ 3) ?_ fun _ _ => .ok trivial) fun _ _ => .ok trivial) (c := (_ ∧ _ ∧ True) ∧ True) (by simp [ShortTags])
        cases newTag with
        | none => exact .ok (by simp)
        | some tag => exact ReturnsIff.congr ((formatTag_returns tag).map) (by simp)
      exact (returnsIff_panic this).mpr hl
    | japaneseKeepTags tags => exact (returnsIff_panic ((formatTags_returns tags).map)).mpr hl
    | japaneseStopTags tags => exact (returnsIff_panic ((formatTags_returns tags).map)).mpr hl
    | japaneseNumber tags =>
      cases tags with
      | none => exact absurd (by simp [ShortTags]) hl
      | some tags =>
        refine (returnsIff_panic (c := ∀ tag ∈ tags, tag.count ',' ≤ 3) ?_).mpr fun h => hl (by rintro ts ⟨⟩; exact h)
        exact ReturnsIff.map (x := formatNumberTags (some tags)) ((formatTags_returns tags).map)
    | _ => exact absurd trivial hl

/-- C102: exactly when making a tokenizer panics. In all other cases it is made, or an error is returned. -/
theorem c102_tokenizer_exact (env : LoadEnv) (c : TokenizerConfig) : env.tokenizer c = .error .panic ↔ TokenizerPanics env c := by
  have hdict : env.loadFromConfig c.dictionary = .error .panic ↔ DictionaryPanics env c.dictionary := by
    unfold DictionaryPanics
    obtain ⟨⟨kind, path⟩, user, mode⟩ := c
    cases kind with
    | some k =>
      by_cases hf : CompiledIn env.features k
      · have hl : env.loadFromConfig ⟨some k, path⟩ = mapErr .dictionaryNotFound (env.builtin k) := by
          simp [LoadEnv.loadFromConfig, LoadEnv.loadFromKind, has_iff.mpr hf]
        rw [hl]
        simp only [Option.some.injEq, reduceCtorEq, false_and, or_false]
        constructor
        · intro h
          refine ⟨k, rfl, hf, ?_⟩
          cases hb : env.builtin k with
          | ok d => rw [hb] at h; cases h
          | error e => rw [hb] at h; cases e <;> simp_all [mapErr]
        · rintro ⟨_, rfl, -, hb⟩
          rw [hb]; rfl
      · rw [(c50_kind env k path).1 hf]
        simp only [Option.some.injEq, reduceCtorEq, false_and, or_false]
        refine ⟨fun h => (by cases h), ?_⟩
        rintro ⟨_, rfl, h, -⟩
        exact absurd h hf
    | none =>
      simp only [reduceCtorEq, false_and, exists_false, false_or, true_and]
      cases path with
      | none => rw [(c50_path env).1]; simp
      | some dir =>
        show env.loadDictionary dir = .error .panic ↔ _
        rw [(c102_directory_exact env dir).2.1]
        simp
  have huser : env.loadUser c.userDictionary = .error .panic ↔ ∃ u, c.userDictionary = some u ∧ UserPanics env u := by
    unfold LoadEnv.loadUser
    cases c.userDictionary with
    | none => simp
    | some u =>
      obtain ⟨path, kind⟩ := u
      simp only [bind_panic, Option.some.injEq, exists_eq_left', reduceCtorEq, and_false, exists_false, or_false, pure_eq_ok]
      exact (c102_user_exact env path kind).1
  unfold LoadEnv.tokenizer TokenizerPanics
  simp only [bind_panic, hdict, huser, pure_eq_ok, reduceCtorEq, and_false, exists_false, or_false]
  refine or_congr_right ⟨?_, ?_⟩
  · rintro ⟨d, h1, h2⟩; exact ⟨⟨d, h1⟩, h2⟩
  · rintro ⟨⟨d, h1⟩, h2⟩; exact ⟨d, h1, h2⟩

/-- C102: exactly when making an analyzer from a configuration file panics. The file is read as JSON, all character filters can be made and the tokenizer's settings can be read. Then making the tokenizer
panics, or it is made and, after token filters that can be made, comes one with a tag that has more than four parts. -/
theorem c102_file_exact (env : AnalyzerEnv) (path : Path) : env.fromFile path = .error .panic ↔
    ∃ data j v, env.load.files path = some data ∧ JsonText.File env.finite data j ∧ SameDoc j v ∧ Canonical v ∧
      (∃ es, Listed v "character_filters" es ∧ ∀ e ∈ es, ∃ f, env.filter.charFilter e.1 e.2 = .ok f) ∧
      ∃ kvs c, HasMember v "tokenizer" (.obj kvs) ∧ ConfigMembers kvs c ∧
        (TokenizerPanics env.load c ∨ (∃ t, env.load.tokenizer c = .ok t) ∧
          ∃ pre e post, Listed v "token_filters" (pre ++ e :: post) ∧ (∀ e' ∈ pre, ∃ f, env.filter.tokenFilter e'.1 e'.2 = .ok f) ∧ LongTags e) := by
  have hval : ∀ v, env.fromValue v = .error .panic ↔ (∃ es, Listed v "character_filters" es ∧ ∀ e ∈ es, ∃ f, env.filter.charFilter e.1 e.2 = .ok f) ∧
      ∃ kvs c, HasMember v "tokenizer" (.obj kvs) ∧ ConfigMembers kvs c ∧
        (TokenizerPanics env.load c ∨ (∃ t, env.load.tokenizer c = .ok t) ∧
          ∃ pre e post, Listed v "token_filters" (pre ++ e :: post) ∧ (∀ e' ∈ pre, ∃ f, env.filter.tokenFilter e'.1 e'.2 = .ok f) ∧ LongTags e) := by
    intro v
    obtain ⟨ces, hc⟩ := listed_exist v "character_filters"
    obtain ⟨tes, ht⟩ := listed_exist v "token_filters"
    have hcs : (ces.mapM fun e => env.filter.charFilter e.1 e.2) ≠ .error .panic := reported_not_panic (reported_mapM _ fun e _ => reported_charFilter _ _ _)
    have hmem : tokenizerMember v ≠ .error .panic := by
      unfold tokenizerMember
      split
      · split <;> simp
      · simp
    unfold AnalyzerEnv.fromValue
    rw [loadEntries_listed hc, loadEntries_listed ht]
    simp only [bind_panic, hcs, false_or, hmem, pure_eq_ok, reduceCtorEq, and_false, exists_false, or_false, c102_tokenizer_exact, mapM_panic, c66_panic_exact, tokenizerMember_iff]
    constructor
    · rintro ⟨fs, hfs, c, ⟨kvs, h1, h2⟩, h⟩
      refine ⟨⟨ces, hc, fun e he => ?_⟩, kvs, c, h1, h2, ?_⟩
      · exact mapM_loads.mp ⟨fs, hfs⟩ e he
      · rcases h with h | ⟨t, h3, pre, e, post, rfl, h4, h5⟩
        · exact .inl h
        · exact .inr ⟨⟨t, h3⟩, pre, e, post, ht, h4, h5⟩
    · rintro ⟨⟨es, hes, hall⟩, kvs, c, h1, h2, h⟩
      cases listed_unique hc hes
      obtain ⟨fs, hfs⟩ := (mapM_loads (f := fun e : Str × Json => env.filter.charFilter e.1 e.2)).mpr hall
      refine ⟨fs, hfs, c, ⟨kvs, h1, h2⟩, ?_⟩
      rcases h with h | ⟨⟨t, h3⟩, pre, e, post, hl, h4, h5⟩
      · exact .inl h
      · exact .inr ⟨t, h3, pre, e, post, listed_unique ht hl, h4, h5⟩
  unfold AnalyzerEnv.fromFile LoadEnv.readFile
  cases hf : env.load.files path with
  | none => simp
  | some data =>
    unfold AnalyzerEnv.configValue
    cases hj : env.json data with
    | none =>
      have hn := parseJsonBytes_none.mp hj
      simp only [bind_ok, hj, bind_error, Except.error.injEq, reduceCtorEq, false_iff, Option.some.injEq]
      rintro ⟨_, j, _, rfl, h, _⟩
      exact hn j h
    | some j =>
      simp only [bind_ok, hj, Option.some.injEq, hval]
      constructor
      · intro h; exact ⟨data, j, _, rfl, parseJsonBytes_iff.mp hj, value_sameDoc j, canonical_value j, h⟩
      · rintro ⟨data', j', v, rfl, hj', h1, h2, h3⟩
        have hj' : env.json data = some j' := parseJsonBytes_iff.mpr hj'
        rw [hj] at hj'; cases hj'
        rw [value_iff.mpr ⟨h1, h2⟩]; exact h3

/-- C102: exactly when making the analyzer of the command line panics. Making the tokenizer panics, or it is made, the output format is known, all character filters can be made and, after flags of token
filters that can be made, comes one with a tag that has more than four parts. -/
theorem c102_command_exact (env : AnalyzerEnv) (args : TokenizeArgs) : env.cliAnalyzer args = .error .panic ↔
    TokenizerPanics env.load ⟨⟨args.dicType, args.dicDir⟩, args.userDicFile.map fun path => ⟨path, args.dicType⟩, args.mode⟩ ∨
      (∃ t, env.load.tokenizer ⟨⟨args.dicType, args.dicDir⟩, args.userDicFile.map fun path => ⟨path, args.dicType⟩, args.mode⟩ = .ok t) ∧
      (∃ f, Format.fromStr args.outputFormat = .ok f) ∧
      (∀ flag ∈ args.characterFilters, ∃ e, FlagFor env flag e ∧ ∃ f, env.filter.charFilter e.1 e.2 = .ok f) ∧
      ∃ pre flag post, args.tokenFilters = pre ++ flag :: post ∧ (∀ flag' ∈ pre, ∃ e, FlagFor env flag' e ∧ ∃ f, env.filter.tokenFilter e.1 e.2 = .ok f) ∧ ∃ e, FlagFor env flag e ∧ LongTags e := by
  have hflag : ∀ flag, (∃ e, FlagFor env flag e) ∨ ∀ e, ¬ FlagFor env flag e := fun flag => by
    by_cases h : ∃ e, FlagFor env flag e
    · exact .inl h
    · exact .inr fun e he => h ⟨e, he⟩
  have hco : ∀ flag r, env.charFlag flag = r → (∃ e, FlagFor env flag e ∧ env.filter.charFilter e.1 e.2 = r) ∨ r = .error (.err .content) := by
    rintro flag _ rfl
    rcases hflag flag with ⟨e, he⟩ | hn
    · exact .inl ⟨e, he, ((c68_flag env flag).1 e.1 e.2 he).1.symm⟩
    · exact .inr ((c68_flag env flag).2 hn).1
  have hto : ∀ flag r, env.tokenFlag flag = r → (∃ e, FlagFor env flag e ∧ env.filter.tokenFilter e.1 e.2 = r) ∨ r = .error (.err .content) := by
    rintro flag _ rfl
    rcases hflag flag with ⟨e, he⟩ | hn
    · exact .inl ⟨e, he, ((c68_flag env flag).1 e.1 e.2 he).2.symm⟩
    · exact .inr ((c68_flag env flag).2 hn).2
  have hcok : ∀ flag, (∃ f, env.charFlag flag = .ok f) ↔ ∃ e, FlagFor env flag e ∧ ∃ f, env.filter.charFilter e.1 e.2 = .ok f := fun flag => by
    constructor
    · rintro ⟨f, h⟩
      rcases hco flag _ h with ⟨e, he, h⟩ | h
      · exact ⟨e, he, f, h⟩
      · cases h
    · rintro ⟨e, he, f, h⟩
      exact ⟨f, (((c68_flag env flag).1 e.1 e.2 he).1).trans h⟩
  have htok : ∀ flag, (∃ f, env.tokenFlag flag = .ok f) ↔ ∃ e, FlagFor env flag e ∧ ∃ f, env.filter.tokenFilter e.1 e.2 = .ok f := fun flag => by
    constructor
    · rintro ⟨f, h⟩
      rcases hto flag _ h with ⟨e, he, h⟩ | h
      · exact ⟨e, he, f, h⟩
      · cases h
    · rintro ⟨e, he, f, h⟩
      exact ⟨f, (((c68_flag env flag).1 e.1 e.2 he).2).trans h⟩
  have htp : ∀ flag, env.tokenFlag flag = .error .panic ↔ ∃ e, FlagFor env flag e ∧ LongTags e := fun flag => by
    constructor
    · intro h
      rcases hto flag _ h with ⟨e, he, h⟩ | h
      · exact ⟨e, he, (c66_panic_exact _ _ _).mp h⟩
      · cases h
    · rintro ⟨e, he, h⟩
      exact (((c68_flag env flag).1 e.1 e.2 he).2).trans ((c66_panic_exact _ _ _).mpr h)
  have hcp : args.characterFilters.mapM env.charFlag ≠ .error .panic := by
    rw [Ne, mapM_panic]
    rintro ⟨_, flag, _, -, -, h⟩
    rcases hco flag _ h with ⟨e, he, h⟩ | h
    · exact reported_not_panic (reported_charFilter _ _ _) h
    · cases h
  have hfp : Format.fromStr args.outputFormat ≠ .error .panic := by
    unfold Format.fromStr
    repeat' split
    all_goals simp
  have hall : (∃ fs, args.characterFilters.mapM env.charFlag = .ok fs) ↔ ∀ flag ∈ args.characterFilters, ∃ e, FlagFor env flag e ∧ ∃ f, env.filter.charFilter e.1 e.2 = .ok f := by
    simp only [← hcok]; exact mapM_loads
  have ht := c102_tokenizer_exact env.load ⟨⟨args.dicType, args.dicDir⟩, args.userConfig, args.mode⟩
  rw [← hall]
  change _ ↔ TokenizerPanics env.load ⟨⟨args.dicType, args.dicDir⟩, args.userConfig, args.mode⟩ ∨ (∃ t, env.load.tokenizer ⟨⟨args.dicType, args.dicDir⟩, args.userConfig, args.mode⟩ = .ok t) ∧ _
  rw [← ht]
  unfold AnalyzerEnv.cliAnalyzer LoadEnv.tokenizer
  simp only [bind_panic, hcp, hfp, false_or, mapM_panic, htok, htp, pure_eq_ok, reduceCtorEq, and_false, exists_false, or_false, bind_eq_ok, Except.ok.injEq]
  constructor
  · rintro (h | ⟨d, h1, h | ⟨u, h2, f, h3, fs, h4, h⟩⟩)
    · exact .inl (.inl h)
    · exact .inl (.inr ⟨d, h1, h⟩)
    · exact .inr ⟨⟨_, d, h1, u, h2, rfl⟩, ⟨f, h3⟩, ⟨fs, h4⟩, h⟩
  · rintro ((h | ⟨d, h1, h⟩) | ⟨⟨_, d, h1, u, h2, -⟩, ⟨f, h3⟩, ⟨fs, h4⟩, h⟩)
    · exact .inl h
    · exact .inr ⟨d, h1, .inl h⟩
    · exact .inr ⟨d, h1, .inr ⟨u, h2, f, h3, fs, h4, h⟩⟩

namespace Pa
/-- A filter with a tag of five parts. -/
def long : Json := Ac.o [("tags", .arr [Ac.s "a,b,c,d,e"])]
def text : String := "{\"token_filters\": [{\"kind\": \"uppercase\"}, {\"args\": {\"tags\": [\"a,b,c,d,e\"]}, \"kind\": \"japanese_stop_tags\"}], \"tokenizer\": {\"dictionary\": {\"kind\": \"ipadic\"} }}"
def env : AnalyzerEnv := { Ac.env with load := { Ac.env.load with files := fun p => if p = Cf.path "p.json" then some (utf8 text.toList) else if p = Cf.path "u.csv" then some [1] else none
                                                                  csv := fun _ => some [⟨['a'], [['n']]⟩] } }
theorem longTags : LongTags ("japanese_stop_tags".toList, long) := ⟨.japaneseStopTags ["a,b,c,d,e".toList], tokenFilter_iff.mp rfl, fun h => absurd (h "a,b,c,d,e".toList (by simp)) (by decide)⟩
def doc : Json := Ac.o [("token_filters", .arr [Ac.o [("kind", Ac.s "uppercase")], Ac.o [("args", long), ("kind", Ac.s "japanese_stop_tags")]]), ("tokenizer", Ac.tokenizer)]
end Pa

/-- Non-vacuity of C66: a tag with five parts, and one with four in another filter. -/
example : (Pa.env.filter.tokenFilter "japanese_stop_tags".toList Pa.long = .error .panic) ∧ ¬ LongTags ("japanese_stop_tags".toList, Ac.o [("tags", .arr [Ac.s "a,b,c,d"])]) := by
  refine ⟨(c66_panic_exact _ _ _).mpr Pa.longTags, ?_⟩
  rintro ⟨s, hs, hl⟩
  have := tokenFilter_iff.mpr hs
  have h' : readTokenFilter "japanese_stop_tags".toList (Ac.o [("tags", .arr [Ac.s "a,b,c,d"])]) = some (.japaneseStopTags ["a,b,c,d".toList]) := rfl
  rw [h'] at this; cases this
  refine hl fun tag ht => ?_
  simp only [List.mem_cons, List.not_mem_nil, or_false] at ht
  subst ht; decide

/-- Non-vacuity of C102: a user dictionary with a row of two columns; a file and a command line whose second token filter has a tag with five parts. -/
example : TokenizerPanics Pa.env.load ⟨⟨some .ipadic, none⟩, some ⟨Cf.path "u.csv", some .ipadic⟩, .normal⟩ ∧
    Pa.env.fromFile (Cf.path "p.json") = .error .panic ∧
    FlagFor Pa.env "japanese_stop_tags:{\"tags\":[\"a,b,c,d,e\"]}".toList ("japanese_stop_tags".toList, Pa.long) := by
  refine ⟨.inr ⟨⟨Cf.tok.dictionary, rfl⟩, _, rfl, ?_, .ipadic, [1], [⟨['a'], [['n']]⟩], rfl, by decide +kernel, rfl, .inl rfl, 0, ⟨['a'], [['n']]⟩, rfl, by decide, ?_⟩,
    (c102_file_exact _ _).mpr ⟨utf8 Pa.text.toList, Pa.doc, Pa.doc, by decide +kernel, ⟨_, rfl, parseJson_read.mp (by decide +kernel)⟩, .refl _, ?_, ⟨[], .inr ⟨?_, rfl⟩, by simp⟩, ?_⟩,
    by decide, "{\"tags\":[\"a,b,c,d,e\"]}".toList, Pa.long, by decide, parseJson_read.mp (by decide +kernel), .refl _, by simp [Pa.long, Ac.o, Ac.s, Canonical, CanonicalMembers, CanonicalList]⟩
  · exact (extension_iff (by decide)).mp (by decide +kernel)
  · intro j r hj hs
    match j with
    | 0 => cases hj; rintro ⟨_, _, _, _, _, h, -⟩; cases h
    | j + 1 => cases hj
  · simp [Pa.doc, Pa.long, Ac.tokenizer, Ac.o, Ac.s, Canonical, CanonicalMembers, CanonicalList]; decide
  · intro xs h
    cases get_eq_some.mpr h
  · exact ⟨_, _, get_eq_some.mp rfl, config_de.mp rfl, .inr ⟨⟨_, rfl⟩, [("uppercase".toList, .null)], _, [], .inl ⟨_, get_eq_some.mp rfl, .entry (entry_iff.mpr ⟨rfl, rfl⟩) (.entry (entry_iff.mpr ⟨rfl, rfl⟩) .nil)⟩,
      fun e he => by cases List.mem_singleton.mp he; exact ⟨_, rfl⟩, Pa.longTags⟩⟩

end Verif.Props
