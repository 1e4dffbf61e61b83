import Verif.Spec.EndToEnd
import Verif.Props.Language
import Verif.Props.AnalyzerConfig
/-! The whole way from source files and a configuration document to the analyzed tokens: C70. -/
namespace Verif.Props
open Verif.Model Verif.Spec

theorem charFilters_run {env : FilterEnv} (hy : YadaContract env.yada) {ss : List CharFilterSetting} {fs : List CharFilter}
    (h : List.Forall₂ (fun s f => s.new env = .ok f) ss fs) (hm : ∀ m, .mapping m ∈ ss → MappingOk m) (hr : ∀ p r, .regex p r ∈ ss → env.regex p ≠ none) :
    ∀ text, CharOk env ss text → ∃ stages final, CharChain env ss text stages final ∧ FilterChain fs text stages final := by
  induction h with
  | nil => exact fun text _ => ⟨[], text, .nil _, .nil _⟩
  | @cons s f ss fs h1 _ ih =>
    rintro text ⟨ha, hrest⟩
    obtain ⟨f', hf', hall⟩ := c66_char_effect_partial env hy s (fun m e => hm m (by simp [e])) (fun p r e => hr p r (by simp [e]))
    rw [h1] at hf'; cases hf'
    obtain ⟨ps, hcut, hfil⟩ := hall text ha
    obtain ⟨stages, final, hc, hf⟩ := ih (fun m e => hm m (by simp [e])) (fun p r e => hr p r (by simp [e])) _ (hrest ps hfil.cut hcut)
    exact ⟨ps :: stages, final, .cons hfil.cut hcut hc, .cons _ _ _ _ _ _ hfil hf⟩

theorem tokenFilters_run {env : FilterEnv} (hy : YadaContract env.yada) (hb : KatakanaBlock env.block) {ss : List TokenFilterSetting} {fs : List TokenFilter}
    (h : List.Forall₂ (fun s f => s.new env = .ok f) ss fs) (hm : ∀ m, .mapping m ∈ ss → MappingOk m) (ht : ∀ s ∈ ss, ShortTags s) :
    ∀ tokens, TokenOk env ss tokens → ∃ out, TokenChain env ss tokens out ∧ fs.foldlM (fun ts f => f ts) tokens = .ok out := by
  induction h with
  | nil => exact fun tokens _ => ⟨tokens, .nil _, rfl⟩
  | @cons s f ss fs h1 _ ih =>
    rintro tokens ⟨ha, hrest⟩
    obtain ⟨f', hf', hall⟩ := c66_token_effect_partial env hy hb s (ht s (by simp)) (fun m e => hm m (by simp [e]))
    rw [h1] at hf'; cases hf'
    obtain ⟨mid, hrun, heff⟩ := hall tokens ha
    obtain ⟨out, hc, hf⟩ := ih (fun m e => hm m (by simp [e])) (fun s e => ht s (by simp [e])) _ (hrest mid heff)
    exact ⟨out, .cons heff hc, by rw [List.foldlM_cons, hrun]; exact hf⟩

theorem analyzed_shown {t : Tokenizer} {toks : List Token} : ∀ {byte pos : Nat} {items : List Item}, Lexicon.visible t toks = .ok (Lexicon.tokensFor byte pos items) →
    (∀ tok ∈ toks, tok.positionLength = 1) →
    ∃ fts, toks.mapM (Token.analyzed t.dictionary t.userDictionary) = .ok fts ∧ Shown byte pos items fts := by
  induction toks with
  | nil =>
    intro byte pos items h _
    cases items with
    | nil => exact ⟨[], rfl, .nil _ _⟩
    | cons w ws => simp [Lexicon.visible, Lexicon.tokensFor] at h
  | cons tok toks ih =>
    intro byte pos items h hl
    unfold Lexicon.visible at h
    rw [List.mapM_cons] at h
    simp only [bind_eq_ok] at h
    obtain ⟨v, ⟨⟨d, tok'⟩, hd, hv⟩, vs, hvs, hcons⟩ := h
    cases items with
    | nil => simp [Lexicon.tokensFor] at hcons
    | cons w ws =>
      simp only [pure_eq_ok, Except.ok.injEq, Lexicon.tokensFor, List.cons.injEq] at hcons hv
      obtain ⟨rfl, rfl⟩ := hcons
      simp only [Prod.mk.injEq] at hv
      obtain ⟨h1, h2, h3, h4, rfl⟩ := hv
      obtain ⟨fts, hf, hs⟩ := ih (byte := byte + blen w.surface) (pos := pos + 1) (items := ws) hvs (fun x hx => hl x (by simp [hx]))
      refine ⟨⟨tok.text, tok.byteStart, tok.byteEnd, tok.position, tok.positionLength, tok.wordId, w.details⟩ :: fts, ?_, ?_⟩
      · rw [List.mapM_cons, hf]
        unfold Token.analyzed
        rw [hd]
        rfl
      · exact .cons h1 h2 h3 h4 (hl tok (by simp)) rfl hs

/-- C70: an analyzer whose filters are made from these settings, and whose tokenizer answers from this lexicon, analyzes every text that its filters accept: the character filters rewrite the text as
their settings say, the result is cut into sentences, each segmented into words of the lexicon at least cost, the token filters do what their settings say, and every byte range is led back to the original text. -/
theorem c70_analyze (S : Settings) (hv : S.Valid) (hy : YadaContract S.env.yada) (hb : KatakanaBlock S.env.block) (a : Analyzer)
    (hc : List.Forall₂ (fun s f => s.new S.env = .ok f) S.charFilters a.characterFilters) (ht : List.Forall₂ (fun s f => s.new S.env = .ok f) S.tokenFilters a.tokenFilters)
    (hm : a.tokenizer.mode = S.mode) (hl : S.lexicon.AnsweredBy a.tokenizer) (text : Str) (h : S.Accepts text) : ∃ out, a.analyze text = .ok out ∧ S.Analyzes text out := by
  obtain ⟨stages, final, h1, h2⟩ := charFilters_run hy hc hv.charMappings hv.patterns text h.chars
  obtain ⟨toks, segs, h3, h4, h5⟩ := hl final _ (sentences_exist final)
  obtain ⟨fts, h6, h7⟩ := analyzed_shown h4 (fun tok htok => by
    obtain ⟨i, hi⟩ := List.getElem?_of_mem htok
    exact (c03_positions h3 hi).2)
  rw [hm] at h5
  have h8 : Segmented S.lexicon S.mode final fts := ⟨_, segs, sentences_exist final, h7, h5⟩
  obtain ⟨out, h9, h10⟩ := tokenFilters_run hy hb ht hv.tokenMappings hv.tags fts (h.tokens _ _ _ h1 h8)
  have h11 : a.tokens final = .ok out := by
    unfold Analyzer.tokens
    rw [h3, bind_ok, h6, bind_ok, h10]
  exact ⟨_, c38_chain a text stages final h2 out h11, stages, final, fts, out, h1, h8, h9, rfl⟩

theorem userFile_load {load : LoadEnv} (hf : Faithful load.format) {c : Option UserDictionaryConfig} {user : Option (DictionaryKind × List Row)} {u : Option UserDictionary}
    (h : UserFile load c user) (hu : compileUser load.yada user = .ok u) : load.loadUser c = .ok u := by
  unfold LoadEnv.loadUser
  match user with
  | none => cases h; exact hu
  | some (kind, rows) =>
    rcases h with ⟨p, data, rfl, hext, hp, hr⟩ | ⟨p, k, u', rfl, hext, hp, hc, ht⟩
    · unfold compileUser at hu
      simp only [bind_eq_ok, pure_eq_ok, Except.ok.injEq] at hu
      obtain ⟨ud, hud, rfl⟩ := hu
      have hb : load.buildUserDict kind p = .ok ud := by
        unfold LoadEnv.buildUserDict LoadEnv.readFile
        rw [hp]
        simp only [bind_ok, hr]
        exact hud
      dsimp only
      rw [(((c50_user load p (some kind)).1 hext).2 kind rfl).1 ud hb]
      rfl
    · rw [hc] at hu; cases hu
      dsimp only
      rw [((c50_user load p k).2.1 hext).2 _ hp, c25_user_dict load.format u' (hf _) ht]
      rfl

theorem settings_make {α β γ : Type} {P : α → β → Prop} {new : β → R γ} {as : List α} {bs : List β} (h : List.Forall₂ P as bs) (hok : ∀ b ∈ bs, ∃ f, new b = .ok f) :
    ∃ fs, List.Forall₂ (fun b f => new b = .ok f) bs fs ∧ List.Forall₂ (fun a f => ∃ b, P a b ∧ new b = .ok f) as fs := by
  induction h with
  | nil => exact ⟨[], .nil, .nil⟩
  | @cons a b as bs h1 _ ih =>
    obtain ⟨f, hf⟩ := hok b (by simp)
    obtain ⟨fs, h2, h3⟩ := ih (fun x hx => hok x (by simp [hx]))
    exact ⟨f :: fs, .cons hf h2, .cons ⟨b, h1, hf⟩ h3⟩

/-- A document describes an analyzer with these settings, if its dictionary can be loaded. -/
theorem configured (env : AnalyzerEnv) (S : Settings) (he : S.env = env.filter) (hv : S.Valid) (hy : YadaContract env.filter.yada) (hb : KatakanaBlock env.filter.block)
    (cd : DictionaryConfig) (d : Dictionary) (hd : env.load.loadFromConfig cd = .ok d) (cu : Option UserDictionaryConfig) (u : Option UserDictionary) (hu : env.load.loadUser cu = .ok u)
    (hl : S.lexicon.AnsweredBy ⟨d, u, S.mode⟩) (doc : Json) (hdoc : DocSays doc S.charFilters S.tokenFilters ⟨cd, cu, S.mode⟩) :
    ∃ a, Configured env doc a ∧ ∀ text, S.Accepts text → ∃ out, a.analyze text = .ok out ∧ S.Analyzes text out := by
  obtain ⟨ces, hc1, hc2⟩ := hdoc.characterFilters
  obtain ⟨kvs, hk1, hk2⟩ := hdoc.tokenizer
  obtain ⟨tes, ht1, ht2⟩ := hdoc.tokenFilters
  obtain ⟨cfs, hcf, hc3⟩ := settings_make (new := fun s : CharFilterSetting => s.new env.filter) hc2 fun s hs => by
    obtain ⟨f, hf, _⟩ := c66_char_effect_partial env.filter hy s (fun m e => hv.charMappings m (e ▸ hs)) (fun p r e => he ▸ hv.patterns p r (e ▸ hs))
    exact ⟨f, hf⟩
  obtain ⟨tfs, htf, ht3⟩ := settings_make (new := fun s : TokenFilterSetting => s.new env.filter) ht2 fun s hs => by
    obtain ⟨f, hf, _⟩ := c66_token_effect_partial env.filter hy hb s (hv.tags s hs) (fun m e => hv.tokenMappings m (e ▸ hs))
    exact ⟨f, hf⟩
  refine ⟨⟨cfs, ⟨d, u, S.mode⟩, tfs⟩, ⟨⟨ces, hc1, hc3⟩, ⟨kvs, _, hk1, hk2, ?_⟩, ⟨tes, ht1, ht3⟩⟩, fun text h => ?_⟩
  · unfold LoadEnv.tokenizer
    dsimp only
    rw [hd, bind_ok, hu]
    rfl
  · exact c70_analyze S hv (he ▸ hy) (he ▸ hb) ⟨cfs, ⟨d, u, S.mode⟩, tfs⟩ (he ▸ hcf) (he ▸ htf) rfl hl text h

/-- C70: everything from files. Well-formed source files are built into a directory; a configuration file names this directory, a mode, filters, and at most one user dictionary. Then
an analyzer is made from the configuration file, and it analyzes every text that its filters accept, as the source files, the user dictionary and the settings say. -/
theorem c70_from_files (build : BuildEnv) (hy : YadaContract build.yada) (hh : ∀ index, (build.hashOrder index).Perm index) (hp : PiecesOk build)
    (hfe : build.feature = false) (hfo : Faithful build.format) (kind : DictionaryKind) (src : SourceDir)
    (c : Contents) (hs : Says build kind src c) (hg : Good kind c) (hst : Storable c) (user : Option (DictionaryKind × List Row))
    (hu : ∀ k rows, user = some (k, rows) → GoodUser k c rows) (dir : Path) (faults : Faults) (hf : NoFaults faults) (fs : Fs)
    (env : AnalyzerEnv) (hl : env.load.format = build.format) (hly : env.load.yada = build.yada)
    (hfs : env.load.files = runOps fs ((build.buildDictionary kind src dir).trace faults))
    (S : Settings) (he : S.env = env.filter) (hlex : S.lexicon = c.lexicon kind user) (hv : S.Valid) (hyf : YadaContract env.filter.yada) (hb : KatakanaBlock env.filter.block)
    (cu : Option UserDictionaryConfig) (huf : UserFile env.load cu user)
    (path : Path) (data : List UInt8) (j doc : Json) (hpath : env.load.files path = some data) (hj : JsonText.File env.finite data j) (hsame : SameDoc j doc) (hcan : Canonical doc)
    (hdoc : DocSays doc S.charFilters S.tokenFilters ⟨⟨none, some dir⟩, cu, S.mode⟩) :
    ∃ a, env.fromFile path = .ok a ∧ ∀ text, S.Accepts text → ∃ out, a.analyze text = .ok out ∧ S.Analyzes text out := by
  obtain ⟨-, d, u, h1, h2, h3⟩ := c65_built_and_loaded build hy hh hp hfe hfo kind src c hs hg hst user hu dir faults hf fs env.load hl hfs
  obtain ⟨a, ha, h⟩ := configured env S he hv hyf hb ⟨none, some dir⟩ d h1 cu u (userFile_load (hl ▸ hfo) huf (hly ▸ h2)) (hlex ▸ h3 S.mode) doc hdoc
  exact ⟨a, (c67_analyzer env path a).mpr ⟨data, j, doc, hpath, hj, hsame, hcan, ha⟩, h⟩

theorem embedded_load (build : BuildEnv) (hy : YadaContract build.yada) (hh : ∀ index, (build.hashOrder index).Perm index) (hp : PiecesOk build)
    (hfl : FlateContract build.flate) (hfo : Faithful build.format) (kind : DictionaryKind) (src : SourceDir)
    (c : Contents) (hs : Says build kind src c) (hg : Good kind c) (hst : Storable c) (user : Option (DictionaryKind × List Row))
    (hu : ∀ k rows, user = some (k, rows) → GoodUser k c rows) (dir : Path) (faults : Faults) (hf : NoFaults faults) (fs : Fs)
    (hsize : ∀ parts, compile build kind src = .ok parts → ∀ e ∈ parts.files build.format, Usize (compress build.flate e.2 .deflate).data.length)
    (load : LoadEnv) (data : DictData) (hem : Embeds load build kind (runOps fs ((build.buildDictionary kind src dir).trace faults)) dir data) (p : Option Path) :
    ∃ d u, load.loadFromConfig ⟨some kind, p⟩ = .ok d ∧ compileUser build.yada user = .ok u ∧ ∀ mode, (c.lexicon kind user).AnsweredBy ⟨d, u, mode⟩ := by
  obtain ⟨-, d, u, h1, h2, h3⟩ := c65_embedded build hy hh hp hfl hfo kind src c hs hg hst user hu dir faults hf fs hsize data
    ⟨hem.charDef, hem.unk, hem.da, hem.vals, hem.words, hem.wordsIdx, hem.matrix⟩
  refine ⟨d, u, ?_, h2, h3⟩
  unfold LoadEnv.loadFromConfig LoadEnv.loadFromKind
  dsimp only
  rw [if_pos (has_iff.mpr hem.feature), hem.reads, h1]
  rfl

/-- C70: the same with a dictionary that is embedded into the program, compressed or not, and named by its kind. -/
theorem c70_embedded (build : BuildEnv) (hy : YadaContract build.yada) (hh : ∀ index, (build.hashOrder index).Perm index) (hp : PiecesOk build)
    (hfl : FlateContract build.flate) (hfo : Faithful build.format) (kind : DictionaryKind) (src : SourceDir)
    (c : Contents) (hs : Says build kind src c) (hg : Good kind c) (hst : Storable c) (user : Option (DictionaryKind × List Row))
    (hu : ∀ k rows, user = some (k, rows) → GoodUser k c rows) (dir : Path) (faults : Faults) (hf : NoFaults faults) (fs : Fs)
    (hsize : ∀ parts, compile build kind src = .ok parts → ∀ e ∈ parts.files build.format, Usize (compress build.flate e.2 .deflate).data.length)
    (env : AnalyzerEnv) (hl : env.load.format = build.format) (hly : env.load.yada = build.yada)
    (emb : DictData) (hem : Embeds env.load build kind (runOps fs ((build.buildDictionary kind src dir).trace faults)) dir emb)
    (S : Settings) (he : S.env = env.filter) (hlex : S.lexicon = c.lexicon kind user) (hv : S.Valid) (hyf : YadaContract env.filter.yada) (hb : KatakanaBlock env.filter.block)
    (cu : Option UserDictionaryConfig) (huf : UserFile env.load cu user) (cp : Option Path)
    (path : Path) (data : List UInt8) (j doc : Json) (hpath : env.load.files path = some data) (hj : JsonText.File env.finite data j) (hsame : SameDoc j doc) (hcan : Canonical doc)
    (hdoc : DocSays doc S.charFilters S.tokenFilters ⟨⟨some kind, cp⟩, cu, S.mode⟩) :
    ∃ a, env.fromFile path = .ok a ∧ ∀ text, S.Accepts text → ∃ out, a.analyze text = .ok out ∧ S.Analyzes text out := by
  obtain ⟨d, u, h1, h2, h3⟩ := embedded_load build hy hh hp hfl hfo kind src c hs hg hst user hu dir faults hf fs hsize env.load emb hem cp
  obtain ⟨a, ha, h⟩ := configured env S he hv hyf hb ⟨some kind, cp⟩ d h1 cu u (userFile_load (hl ▸ hfo) huf (hly ▸ h2)) (hlex ▸ h3 S.mode) doc hdoc
  exact ⟨a, (c67_analyzer env path a).mpr ⟨data, j, doc, hpath, hj, hsame, hcan, ha⟩, h⟩

/-! ### C71 The command line -/

theorem output_printed (format : Format) (pretty : Json → Str) (tokens : List FToken) : ∃ o, format.output pretty tokens = (o, .ok ()) ∧ Printed pretty tokens o format := by
  cases format with
  | mecab => exact ⟨_, c53_mecab pretty tokens, rfl⟩
  | wakati =>
    by_cases h : tokens = []
    · subst h; exact ⟨_, (c53_wakati_empty_fails pretty).1, .inl ⟨rfl, rfl⟩⟩
    · exact ⟨_, c53_wakati_partial pretty tokens h, .inr ⟨h, rfl⟩⟩
  | json =>
    obtain ⟨docs, h1, h2⟩ := c53_json pretty tokens
    exact ⟨_, h1, docs, rfl, h2⟩

theorem flags_make {α β γ : Type} {P : α → β → Prop} {new : β → R γ} {flag : α → R γ} (hfl : ∀ a b, P a b → flag a = new b) {as : List α} {bs : List β} (h : List.Forall₂ P as bs)
    (hok : ∀ b ∈ bs, ∃ f, new b = .ok f) : ∃ fs, List.Forall₂ (fun b f => new b = .ok f) bs fs ∧ as.mapM flag = .ok fs := by
  induction h with
  | nil => exact ⟨[], .nil, rfl⟩
  | @cons a b as bs h1 _ ih =>
    obtain ⟨f, hf⟩ := hok b (by simp)
    obtain ⟨fs, h2, h3⟩ := ih (fun x hx => hok x (by simp [hx]))
    exact ⟨f :: fs, .cons hf h2, by rw [List.mapM_cons, hfl _ _ h1, hf, bind_ok, h3]; rfl⟩

/-- A run of the `tokenize` command whose dictionaries can be loaded. -/
theorem tokenize_run (env : AnalyzerEnv) (S : Settings) (he : S.env = env.filter) (hv : S.Valid) (hyf : YadaContract env.filter.yada) (hb : KatakanaBlock env.filter.block)
    (args : TokenizeArgs) (d : Dictionary) (h1 : env.load.loadFromConfig ⟨args.dicType, args.dicDir⟩ = .ok d) (hmode : args.mode = S.mode)
    (u : Option UserDictionary) (h4 : env.load.loadUser (args.userDicFile.map fun p => ⟨p, args.dicType⟩) = .ok u) (hl : S.lexicon.AnsweredBy ⟨d, u, S.mode⟩)
    (hcf : List.Forall₂ (fun flag s => ∃ e, FlagFor env flag e ∧ CharSetting e.1 e.2 s) args.characterFilters S.charFilters)
    (htf : List.Forall₂ (fun flag s => ∃ e, FlagFor env flag e ∧ TokenSetting e.1 e.2 s) args.tokenFilters S.tokenFilters)
    (format : Format) (hfmt : Format.fromStr args.outputFormat = .ok format) (pretty : Json → Str) (stdin input : List UInt8)
    (hi : (args.inputFile = none ∧ input = stdin) ∨ ∃ p, args.inputFile = some p ∧ env.load.files p = some input)
    (lines : List (List UInt8)) (hlines : Lines 0x0A input lines) (texts : List Str) (ht : List.Forall₂ (fun l t => ∃ text, l = utf8 text ∧ Trimmed text t) lines texts)
    (hacc : ∀ t ∈ texts, S.Accepts t) :
    ∃ outs : List Str, List.Forall₂ (fun t o => ∃ tokens, S.Analyzes t tokens ∧ Printed pretty tokens o format) texts outs ∧
      env.cliTokenize pretty stdin args = (outs.flatten, .ok ()) := by
  obtain ⟨cfs, hc1, hc2⟩ := flags_make (new := fun s : CharFilterSetting => s.new env.filter) (flag := env.charFlag)
    (fun flag s ⟨e, h1, h2⟩ => (((c68_flag env flag).1 e.1 e.2 h1).1).trans ((c66_char env.filter e.1 e.2).1 s h2)) hcf fun s hs => by
      obtain ⟨f, hf, _⟩ := c66_char_effect_partial env.filter hyf s (fun m e => hv.charMappings m (e ▸ hs)) (fun p r e => he ▸ hv.patterns p r (e ▸ hs))
      exact ⟨f, hf⟩
  obtain ⟨tfs, ht1, ht2⟩ := flags_make (new := fun s : TokenFilterSetting => s.new env.filter) (flag := env.tokenFlag)
    (fun flag s ⟨e, h1, h2⟩ => (((c68_flag env flag).1 e.1 e.2 h1).2).trans ((c66_token_partial env.filter e.1 e.2).1 s h2)) htf fun s hs => by
      obtain ⟨f, hf, _⟩ := c66_token_effect_partial env.filter hyf hb s (hv.tags s hs) (fun m e => hv.tokenMappings m (e ▸ hs))
      exact ⟨f, hf⟩
  obtain ⟨a, ha⟩ : ∃ a : Analyzer, a = ⟨cfs, ⟨d, u, S.mode⟩, tfs⟩ := ⟨_, rfl⟩
  have hcli : env.cliAnalyzer args = .ok (a, format) := by
    unfold AnalyzerEnv.cliAnalyzer TokenizeArgs.userConfig
    rw [h1, bind_ok, h4, bind_ok, hmode, hfmt, bind_ok, hc2, bind_ok, ht2, bind_ok, ha]
    rfl
  have hin : env.input stdin args = .ok input := by
    unfold AnalyzerEnv.input LoadEnv.readFile
    rcases hi with ⟨h1, rfl⟩ | ⟨p, h1, h2⟩
    · rw [h1]
    · rw [h1]; dsimp only; rw [h2]
  have hrun : env.cliTokenize pretty stdin args = cliLoop a.analyze format pretty (readLines input) := by
    unfold AnalyzerEnv.cliTokenize
    rw [hcli, hin]
    rfl
  have han : ∀ text, S.Accepts text → ∃ out, a.analyze text = .ok out ∧ S.Analyzes text out := by
    subst ha
    exact c70_analyze S hv (he ▸ hyf) (he ▸ hb) _ (he ▸ hc1) (he ▸ ht1) rfl hl
  have key : ∃ outs : List Str, List.Forall₂ (fun t o => ∃ tokens, S.Analyzes t tokens ∧ Printed pretty tokens o format) texts outs ∧
      List.Forall₂ (fun l o => ∃ text t tokens, l = utf8 text ∧ Trimmed text t ∧ a.analyze t = .ok tokens ∧ format.output pretty tokens = (o, .ok ())) lines outs := by
    clear hlines
    induction ht with
    | nil => exact ⟨[], .nil, .nil⟩
    | @cons l t ls ts hlt _ ih =>
      obtain ⟨outs, ih1, ih2⟩ := ih (fun x hx => hacc x (by simp [hx]))
      obtain ⟨tokens, g1, g2⟩ := han t (hacc t (by simp))
      obtain ⟨o, g3, g4⟩ := output_printed format pretty tokens
      obtain ⟨text, g5, g6⟩ := hlt
      exact ⟨o :: outs, .cons ⟨tokens, g2, g4⟩ ih1, .cons ⟨text, t, tokens, g5, g6, g1, g3⟩ ih2⟩
  obtain ⟨outs, k1, k2⟩ := key
  refine ⟨outs, k1, ?_⟩
  rw [hrun]
  exact ((c53_session a.analyze format pretty input).2 lines [] (by simpa using hlines) outs k2).1 rfl

/-- C71: the `tokenize` command with `--dic-dir` and filter flags, on a directory built from well-formed source files: if every line of the input is UTF-8 and accepted by the filters, the command
ends well, and prints for each line the tokens that the source files and the settings say, in the output format. The user dictionary, if any, is a compiled file (see `c71_user_csv_fails`). -/
theorem c71_tokenize_partial (build : BuildEnv) (hy : YadaContract build.yada) (hh : ∀ index, (build.hashOrder index).Perm index) (hp : PiecesOk build)
    (hfe : build.feature = false) (hfo : Faithful build.format) (kind : DictionaryKind) (src : SourceDir)
    (c : Contents) (hs : Says build kind src c) (hg : Good kind c) (hst : Storable c) (user : Option (DictionaryKind × List Row))
    (hu : ∀ k rows, user = some (k, rows) → GoodUser k c rows) (dir : Path) (faults : Faults) (hf : NoFaults faults) (fs : Fs)
    (env : AnalyzerEnv) (hl : env.load.format = build.format) (hly : env.load.yada = build.yada)
    (hfs : env.load.files = runOps fs ((build.buildDictionary kind src dir).trace faults))
    (S : Settings) (he : S.env = env.filter) (hlex : S.lexicon = c.lexicon kind user) (hv : S.Valid) (hyf : YadaContract env.filter.yada) (hb : KatakanaBlock env.filter.block)
    (args : TokenizeArgs) (hargs : args.dicType = none ∧ args.dicDir = some dir ∧ args.mode = S.mode)
    (huf : UserFile env.load (args.userDicFile.map fun p => ⟨p, none⟩) user)
    (hcf : List.Forall₂ (fun flag s => ∃ e, FlagFor env flag e ∧ CharSetting e.1 e.2 s) args.characterFilters S.charFilters)
    (htf : List.Forall₂ (fun flag s => ∃ e, FlagFor env flag e ∧ TokenSetting e.1 e.2 s) args.tokenFilters S.tokenFilters)
    (format : Format) (hfmt : Format.fromStr args.outputFormat = .ok format) (pretty : Json → Str) (stdin input : List UInt8)
    (hi : (args.inputFile = none ∧ input = stdin) ∨ ∃ p, args.inputFile = some p ∧ env.load.files p = some input)
    (lines : List (List UInt8)) (hlines : Lines 0x0A input lines) (texts : List Str) (ht : List.Forall₂ (fun l t => ∃ text, l = utf8 text ∧ Trimmed text t) lines texts)
    (hacc : ∀ t ∈ texts, S.Accepts t) :
    ∃ outs : List Str, List.Forall₂ (fun t o => ∃ tokens, S.Analyzes t tokens ∧ Printed pretty tokens o format) texts outs ∧
      env.cliTokenize pretty stdin args = (outs.flatten, .ok ()) := by
  obtain ⟨-, d, u, h1, h2, h3⟩ := c65_built_and_loaded build hy hh hp hfe hfo kind src c hs hg hst user hu dir faults hf fs env.load hl hfs
  have h4 := userFile_load (hl ▸ hfo) huf (hly ▸ h2)
  refine tokenize_run env S he hv hyf hb args d ?_ hargs.2.2 u ?_ (hlex ▸ h3 S.mode) hcf htf format hfmt pretty stdin input hi lines hlines texts ht hacc
  · rw [hargs.1, hargs.2.1]; exact h1
  · rw [hargs.1]; exact h4

/-- C71: the `tokenize` command with `--dic-type`, when a dictionary of this kind is embedded into the program, compressed or not. Here the user dictionary may be a CSV file. -/
theorem c71_embedded (build : BuildEnv) (hy : YadaContract build.yada) (hh : ∀ index, (build.hashOrder index).Perm index) (hp : PiecesOk build)
    (hfl : FlateContract build.flate) (hfo : Faithful build.format) (kind : DictionaryKind) (src : SourceDir)
    (c : Contents) (hs : Says build kind src c) (hg : Good kind c) (hst : Storable c) (user : Option (DictionaryKind × List Row))
    (hu : ∀ k rows, user = some (k, rows) → GoodUser k c rows) (dir : Path) (faults : Faults) (hf : NoFaults faults) (fs : Fs)
    (hsize : ∀ parts, compile build kind src = .ok parts → ∀ e ∈ parts.files build.format, Usize (compress build.flate e.2 .deflate).data.length)
    (env : AnalyzerEnv) (hl : env.load.format = build.format) (hly : env.load.yada = build.yada)
    (emb : DictData) (hem : Embeds env.load build kind (runOps fs ((build.buildDictionary kind src dir).trace faults)) dir emb)
    (S : Settings) (he : S.env = env.filter) (hlex : S.lexicon = c.lexicon kind user) (hv : S.Valid) (hyf : YadaContract env.filter.yada) (hb : KatakanaBlock env.filter.block)
    (args : TokenizeArgs) (hargs : args.dicType = some kind ∧ args.mode = S.mode)
    (huf : UserFile env.load (args.userDicFile.map fun p => ⟨p, some kind⟩) user)
    (hcf : List.Forall₂ (fun flag s => ∃ e, FlagFor env flag e ∧ CharSetting e.1 e.2 s) args.characterFilters S.charFilters)
    (htf : List.Forall₂ (fun flag s => ∃ e, FlagFor env flag e ∧ TokenSetting e.1 e.2 s) args.tokenFilters S.tokenFilters)
    (format : Format) (hfmt : Format.fromStr args.outputFormat = .ok format) (pretty : Json → Str) (stdin input : List UInt8)
    (hi : (args.inputFile = none ∧ input = stdin) ∨ ∃ p, args.inputFile = some p ∧ env.load.files p = some input)
    (lines : List (List UInt8)) (hlines : Lines 0x0A input lines) (texts : List Str) (ht : List.Forall₂ (fun l t => ∃ text, l = utf8 text ∧ Trimmed text t) lines texts)
    (hacc : ∀ t ∈ texts, S.Accepts t) :
    ∃ outs : List Str, List.Forall₂ (fun t o => ∃ tokens, S.Analyzes t tokens ∧ Printed pretty tokens o format) texts outs ∧
      env.cliTokenize pretty stdin args = (outs.flatten, .ok ()) := by
  obtain ⟨d, u, h1, h2, h3⟩ := embedded_load build hy hh hp hfl hfo kind src c hs hg hst user hu dir faults hf fs hsize env.load emb hem args.dicDir
  have h4 := userFile_load (hl ▸ hfo) huf (hly ▸ h2)
  refine tokenize_run env S he hv hyf hb args d ?_ hargs.2 u ?_ (hlex ▸ h3 S.mode) hcf htf format hfmt pretty stdin input hi lines hlines texts ht hacc
  · rw [hargs.1]; exact h1
  · rw [hargs.1]; exact h4

/-- C71 is violated for user dictionaries in CSV files: they cannot be used with a dictionary directory. Without `--dic-type` they are an error, and with it the dictionary directory is ignored. -/
theorem c71_user_csv_fails (env : AnalyzerEnv) (args : TokenizeArgs) (p : Path) (hu : args.userDicFile = some p) (hp : HasExtension p (utf8 "csv".toList)) :
    (args.dicType = none → ∀ r, env.cliAnalyzer args ≠ .ok r) ∧
    (∀ k, args.dicType = some k → ∀ dir, env.cliAnalyzer { args with dicDir := dir } = env.cliAnalyzer args) := by
  constructor
  · intro hk r h
    unfold AnalyzerEnv.cliAnalyzer TokenizeArgs.userConfig LoadEnv.loadUser at h
    simp only [bind_eq_ok, hu, hk, Option.map_some] at h
    obtain ⟨_, _, _, ⟨_, h, _⟩, _⟩ := h
    rw [((c50_user env.load p none).1 hp).1 rfl] at h
    cases h
  · intro k hk dir
    unfold AnalyzerEnv.cliAnalyzer LoadEnv.loadFromConfig TokenizeArgs.userConfig
    dsimp only
    rw [hk]

/-! ### Non-vacuity -/

namespace E2e

/-- The dictionary is in the directory `out`, the user dictionary is the file `u.csv`; `猫` is written `c`, short tokens are dropped and the others written in capitals. -/
def doc : Json := Ac.o [("character_filters", .arr [Ac.o [("args", Ac.mapping), ("kind", Ac.s "mapping")]]),
  ("token_filters", .arr [Ac.o [("args", Ac.min2), ("kind", Ac.s "length")], Ac.o [("kind", Ac.s "uppercase")]]),
  ("tokenizer", Ac.o [("dictionary", Ac.o [("path", Ac.s "out")]), ("user_dictionary", Ac.o [("kind", Ac.s "ipadic"), ("path", Ac.s "u.csv")])])]

/-- The disk before the build. -/
def before : Fs := fun p => if p = Cf.path "a.json" then some (utf8 (prettyJson doc)) else if p = Cf.path "u.csv" then some [2] else none

def userConfig : Option UserDictionaryConfig := some ⟨Cf.path "u.csv", some .ipadic⟩

def settings (user : Option (DictionaryKind × List Row)) : Settings :=
  ⟨Ac.filterEnv, Lang.contents.lexicon .unidic user, .normal, [.mapping [(['猫'], ['c'])]], [.length (some 2) none, .uppercase]⟩

theorem valid (user : Option (DictionaryKind × List Row)) : (settings user).Valid where
  charMappings m h := by
    simp only [settings, List.mem_cons, CharFilterSetting.mapping.injEq, List.not_mem_nil, or_false] at h
    subst h
    exact ⟨by decide, by decide, fun k v h => by
      simp only [List.mem_cons, Prod.mk.injEq, List.not_mem_nil, or_false] at h
      rw [h.1]; decide, by decide⟩
  patterns p r h := by simp [settings] at h
  tokenMappings m h := by simp [settings] at h
  tags s h := by
    simp only [settings, List.mem_cons, List.not_mem_nil, or_false] at h
    rcases h with rfl | rfl <;> trivial

theorem accepts (user : Option (DictionaryKind × List Row)) (text : Str) : (settings user).Accepts text where
  chars := ⟨trivial, fun _ _ _ => trivial⟩
  tokens _ _ _ _ _ := ⟨trivial, fun _ _ => ⟨trivial, fun _ _ => trivial⟩⟩

theorem docSays : DocSays doc (settings Lang.user).charFilters (settings Lang.user).tokenFilters ⟨⟨none, some Dir.out⟩, userConfig, (settings Lang.user).mode⟩ where
  characterFilters := ⟨[("mapping".toList, Ac.mapping)], .inl ⟨_, get_eq_some.mp rfl, .entry (entry_iff.mpr ⟨rfl, rfl⟩) .nil⟩, .cons (charFilter_iff.mp rfl) .nil⟩
  tokenizer := ⟨_, get_eq_some.mp rfl, config_de.mp rfl⟩
  tokenFilters := ⟨[("length".toList, Ac.min2), ("uppercase".toList, .null)],
    .inl ⟨_, get_eq_some.mp rfl, .entry (entry_iff.mpr ⟨rfl, rfl⟩) (.entry (entry_iff.mpr ⟨rfl, rfl⟩) .nil)⟩, .cons (tokenFilter_iff.mp rfl) (.cons (tokenFilter_iff.mp rfl) .nil)⟩

theorem block : KatakanaBlock Tf.block := by
  intro c
  unfold Tf.block
  constructor
  · intro h
    split at h
    · assumption
    · split at h <;> simp at h
  · intro h; rw [if_pos h]

/-- What is built, for any faithful format of double arrays. -/
def build (f : DaFormat) : BuildEnv := { Dir.env with format := f }

theorem buildSays (f : DaFormat) : Says (build f) .unidic Lang.source Lang.contents := ⟨Lang.saysSo.charDef, Lang.saysSo.unk, Lang.saysSo.matrix, Lang.saysSo.rows⟩

/-- The disk after the build. -/
def disk (f : DaFormat) : Fs := runOps before (((build f).buildDictionary .unidic Lang.source Dir.out).trace Dir.noFaults)

def env (f : DaFormat) : AnalyzerEnv :=
  ⟨⟨⟨false, false, false, false, false⟩, fun _ => .error .panic, disk f, f, Src.yada, fun _ => some [Usr.simple]⟩, Ac.filterEnv,
    fun _ => false⟩

theorem untouched (f : DaFormat) (p : Path)
    (h : ∀ n ∈ ["char_def.bin", "unk.bin", "dict.da", "dict.vals", "dict.words", "dict.wordsidx", "matrix.mtx"], inDir Dir.out n ≠ p) : disk f p = before p := by
  obtain ⟨parts, _, _, h1, _⟩ := c64_source_semantics (build f) Src.yadaOk (fun _ => .refl _) .unidic Lang.source Lang.contents (buildSays f) Lang.good none (by simp)
  refine (c59_build (build f) Dir.pieces .unidic Lang.source parts h1 Dir.out Dir.noFaults (fun _ => rfl) before).2.2 p fun e he => ?_
  simp only [CompiledParts.files, List.mem_cons, List.not_mem_nil, or_false] at he
  rcases he with rfl | rfl | rfl | rfl | rfl | rfl | rfl <;> exact h _ (by simp)

def args : TokenizeArgs := ⟨none, some Dir.out, none, .normal, "wakati".toList, ["mapping:{ \"mapping\": {\"\\u732b\": \"c\"}}".toList], ["length:{\"max\":null,\"min\":2}".toList, "uppercase:null".toList], none⟩

theorem untouched_config (f : DaFormat) : disk f (Cf.path "a.json") = some (utf8 (prettyJson doc)) := (untouched f _ (by decide +kernel)).trans (if_pos rfl)
theorem untouched_user (f : DaFormat) : disk f (Cf.path "u.csv") = some [2] := (untouched f _ (by decide +kernel)).trans (by decide +kernel)
theorem files (f : DaFormat) : (env f).load.files = disk f := by unfold env; dsimp only
theorem built (f : DaFormat) : (env f).load.files = runOps before (((build f).buildDictionary .unidic Lang.source Dir.out).trace Dir.noFaults) := by rw [files, disk]
theorem config (f : DaFormat) : (env f).load.files (Cf.path "a.json") = some (utf8 (prettyJson doc)) := by rw [files]; exact untouched_config f
theorem format (f : DaFormat) : (env f).load.format = (build f).format := by unfold env build; dsimp only
theorem yada (f : DaFormat) : (env f).load.yada = (build f).yada := by unfold env build Dir.env; dsimp only
theorem filter (f : DaFormat) (user : Option (DictionaryKind × List Row)) : (settings user).env = (env f).filter := by unfold env settings; dsimp only
theorem json (f : DaFormat) : JsonText.File (env f).finite (utf8 (prettyJson doc)) doc := ⟨_, rfl, by unfold env; dsimp only; exact parseJson_read.mp (by decide +kernel)⟩
theorem readMapping : JsonText.Read (fun _ => false) "{ \"mapping\": {\"\\u732b\": \"c\"}}".toList Ac.mapping := parseJson_read.mp (by decide +kernel)
theorem readMin2 : JsonText.Read (fun _ => false) "{\"max\":null,\"min\":2}".toList Ac.min2 := parseJson_read.mp (by decide +kernel)
theorem readNull : JsonText.Read (fun _ => false) "null".toList .null := parseJson_read.mp (by decide +kernel)
theorem csvFile : HasExtension (Cf.path "u.csv") (utf8 "csv".toList) := (extension_iff (by decide)).mp (by decide +kernel)
theorem userFile (f : DaFormat) : UserFile (env f).load userConfig Lang.user := by
  have h : (env f).load.files (Cf.path "u.csv") = some [2] := by rw [files]; exact untouched_user f
  exact .inl ⟨Cf.path "u.csv", [2], rfl, csvFile, h, rfl⟩
theorem canonical : Canonical doc := by
  simp only [doc, Ac.mapping, Ac.min2, Ac.o, Ac.s, Canonical, CanonicalMembers, CanonicalList, List.map_cons, List.map_nil]
  decide

theorem twoLines : Lines 0x0A (utf8 " ab猫\n b\n".toList) [utf8 " ab猫\n".toList, utf8 " b\n".toList] := by
  have h : Lines (0x0A : UInt8) (utf8 " ab猫".toList ++ 0x0A :: (utf8 " b".toList ++ 0x0A :: [])) [utf8 " ab猫".toList ++ [0x0A], utf8 " b".toList ++ [0x0A]] :=
    .cons (by decide +kernel) (.cons (by decide +kernel) .nil)
  have e1 : utf8 " ab猫\n b\n".toList = utf8 " ab猫".toList ++ 0x0A :: (utf8 " b".toList ++ 0x0A :: []) := by decide +kernel
  have e2 : utf8 " ab猫\n".toList = utf8 " ab猫".toList ++ [0x0A] := by decide +kernel
  have e3 : utf8 " b\n".toList = utf8 " b".toList ++ [0x0A] := by decide +kernel
  rw [e1, e2, e3]
  exact h

theorem twoTexts : List.Forall₂ (fun l t => ∃ text, l = utf8 text ∧ Trimmed text t) [utf8 " ab猫\n".toList, utf8 " b\n".toList] ["ab猫".toList, "b".toList] := by
  have e1 : "ab猫".toList = trim " ab猫\n".toList := by decide +kernel
  have e2 : "b".toList = trim " b\n".toList := by decide +kernel
  rw [e1, e2]
  exact .cons ⟨_, rfl, trim_trimmed _⟩ (.cons ⟨_, rfl, trim_trimmed _⟩ .nil)

end E2e

/-- Non-vacuity of C70: the sample sources are built, and the sample configuration gives an analyzer that analyzes every text. -/
example : ∃ f a, (E2e.env f).fromFile (Cf.path "a.json") = .ok a ∧ ∀ text, ∃ out, a.analyze text = .ok out ∧ (E2e.settings Lang.user).Analyzes text out := by
  obtain ⟨f, hf, -⟩ := exists_faithful
  obtain ⟨a, h1, h2⟩ := c70_from_files (E2e.build f) Src.yadaOk (fun _ => .refl _) Dir.pieces rfl hf .unidic Lang.source Lang.contents (E2e.buildSays f) Lang.good Lang.storable
    Lang.user Lang.users Dir.out Dir.noFaults (fun _ => rfl) E2e.before (E2e.env f) (E2e.format f) (E2e.yada f) (E2e.built f) (E2e.settings Lang.user) (E2e.filter f _) rfl (E2e.valid _) Src.yadaOk E2e.block
    E2e.userConfig (E2e.userFile f)
    (Cf.path "a.json") _ E2e.doc E2e.doc (E2e.config f) (E2e.json f) (.refl _)
    E2e.canonical E2e.docSays
  exact ⟨f, a, h1, fun text => h2 text (E2e.accepts _ text)⟩

/-- Non-vacuity of C71: a run on the sample sources with two lines. -/
example : ∃ f outs, List.Forall₂ (fun t o => ∃ tokens, (E2e.settings none).Analyzes t tokens ∧ Printed (fun _ => []) tokens o .wakati) ["ab猫".toList, "b".toList] outs ∧
    (E2e.env f).cliTokenize (fun _ => []) (utf8 " ab猫\n b\n".toList) E2e.args = (outs.flatten, .ok ()) := by
  obtain ⟨f, hf, -⟩ := exists_faithful
  obtain ⟨outs, h1, h2⟩ := c71_tokenize_partial (E2e.build f) Src.yadaOk (fun _ => .refl _) Dir.pieces rfl hf .unidic Lang.source Lang.contents (E2e.buildSays f) Lang.good Lang.storable
    none (by simp) Dir.out Dir.noFaults (fun _ => rfl) E2e.before (E2e.env f) (E2e.format f) (E2e.yada f) (E2e.built f) (E2e.settings none) (E2e.filter f _) rfl (E2e.valid _) Src.yadaOk E2e.block E2e.args ⟨rfl, rfl, rfl⟩ rfl
    (.cons ⟨("mapping".toList, Ac.mapping), ⟨by decide, "{ \"mapping\": {\"\\u732b\": \"c\"}}".toList, Ac.mapping, by decide, E2e.readMapping, .refl _, by simp [Ac.mapping, Ac.o, Ac.s, Canonical, CanonicalMembers]⟩, charFilter_iff.mp rfl⟩ .nil)
    (.cons ⟨("length".toList, Ac.min2), ⟨by decide, "{\"max\":null,\"min\":2}".toList, Ac.min2, by decide, E2e.readMin2, .refl _, by simp [Ac.min2, Ac.o, Canonical, CanonicalMembers]; decide⟩, tokenFilter_iff.mp rfl⟩
      (.cons ⟨("uppercase".toList, .null), ⟨by decide, "null".toList, .null, by decide, E2e.readNull, .refl _, trivial⟩, tokenFilter_iff.mp rfl⟩ .nil))
    .wakati rfl (fun _ => []) (utf8 " ab猫\n b\n".toList) _ (.inl ⟨rfl, rfl⟩) [utf8 " ab猫\n".toList,  utf8 " b\n".toList] E2e.twoLines ["ab猫".toList, "b".toList]
    E2e.twoTexts (fun t _ => E2e.accepts _ t)
  exact ⟨f, outs, h1, h2⟩

namespace E2e

/-- The configuration, with the dictionary named by its kind. -/
def docC : Json := Ac.o [("character_filters", .arr [Ac.o [("args", Ac.mapping), ("kind", Ac.s "mapping")]]),
  ("token_filters", .arr [Ac.o [("args", Ac.min2), ("kind", Ac.s "length")], Ac.o [("kind", Ac.s "uppercase")]]),
  ("tokenizer", Ac.o [("dictionary", Ac.o [("kind", Ac.s "unidic")]), ("user_dictionary", Ac.o [("kind", Ac.s "unidic"), ("path", Ac.s "u.csv")])])]

/-- The disk with this configuration. -/
def beforeC : Fs := fun p => if p = Cf.path "a.json" then some (utf8 (prettyJson docC)) else before p

/-- The builder with compression. -/
def buildC (f : DaFormat) : BuildEnv := { Dir.env with format := f, feature := true }

theorem buildCSays (f : DaFormat) : Says (buildC f) .unidic Lang.source Lang.contents := ⟨Lang.saysSo.charDef, Lang.saysSo.unk, Lang.saysSo.matrix, Lang.saysSo.rows⟩

/-- The embedded files. -/
def emb (f : DaFormat) : DictData :=
  let file (x : List UInt8) := compressWrite true Stored.flate x .deflate
  ⟨file Lang.compiled.chardef.bytes, file Lang.compiled.unk.bytes, file (f.store Lang.compiled.dict.da), file Lang.compiled.dict.vals,
    file Lang.compiled.dict.wordsIdx, file Lang.compiled.dict.words, file Lang.compiled.matrix⟩

/-- A program with this dictionary, on a disk without any dictionary. -/
def envC (f : DaFormat) : AnalyzerEnv :=
  ⟨⟨⟨false, false, true, false, false⟩, fun _ => (emb f).loadBuiltin true Stored.flate f, beforeC, f, Src.yada, fun _ => some [Usr.simple]⟩, Ac.filterEnv,
    fun _ => false⟩

theorem featureC (f : DaFormat) : (buildC f).feature = true := by unfold buildC; dsimp only
theorem flateC (f : DaFormat) : (buildC f).flate = Stored.flate := by unfold buildC Dir.env; dsimp only
theorem storeC (f : DaFormat) : (buildC f).format = f := by unfold buildC; dsimp only
theorem compilesC (f : DaFormat) : compile (buildC f) .unidic Lang.source = .ok Lang.compiled := Lang.compiles

theorem embeds (f : DaFormat) :
    Embeds (envC f).load (buildC f) .unidic (runOps before (((buildC f).buildDictionary .unidic Lang.source Dir.out).trace Dir.noFaults)) Dir.out (emb f) := by
  have h := (c59_build (buildC f) Dir.pieces .unidic Lang.source Lang.compiled (compilesC f) Dir.out Dir.noFaults (fun _ => rfl) before).2.1
  simp only [CompiledParts.files, List.mem_cons, List.not_mem_nil, or_false, forall_eq_or_imp, forall_eq] at h
  rw [featureC, flateC, storeC] at h
  obtain ⟨w1, w2, w3, w4, w5, w6, w7⟩ := h
  have he : (envC f).load.builtin .unidic = (emb f).loadBuiltin true Stored.flate f := by unfold envC; dsimp only
  refine ⟨by unfold envC; dsimp only; exact rfl, ?_, ?_, ?_, ?_, ?_, ?_, ?_, ?_⟩
  · rw [he, featureC, flateC, storeC]
  · rw [w1]; unfold emb; dsimp only
  · rw [w2]; unfold emb; dsimp only
  · rw [w3]; unfold emb; dsimp only
  · rw [w4]; unfold emb; dsimp only
  · rw [w5]; unfold emb; dsimp only
  · rw [w6]; unfold emb; dsimp only
  · rw [w7]; unfold emb; dsimp only

theorem sizesC (f : DaFormat) (hst : f.store = Stored.write) (parts : CompiledParts) (h : compile (buildC f) .unidic Lang.source = .ok parts) :
    ∀ e ∈ parts.files (buildC f).format, Usize (compress (buildC f).flate e.2 .deflate).data.length := by
  rw [compilesC] at h
  cases h
  have key := Lang.sizes (view := f.view)
  rw [← hst] at key
  rw [flateC, storeC]
  exact key

def userC : Option (DictionaryKind × List Row) := some (.unidic, [Usr.simple])
theorem usersC (k : DictionaryKind) (rows : List Row) (h : userC = some (k, rows)) : GoodUser k Lang.contents rows := by
  cases h
  exact Lang.goodUser _ (.inr rfl)
theorem formatC (f : DaFormat) : (envC f).load.format = (buildC f).format := by unfold envC buildC; dsimp only
theorem yadaC (f : DaFormat) : (envC f).load.yada = (buildC f).yada := by unfold envC buildC Dir.env; dsimp only
theorem filterC (f : DaFormat) (user : Option (DictionaryKind × List Row)) : (settings user).env = (envC f).filter := by unfold envC settings; dsimp only
theorem userFileC (f : DaFormat) : UserFile (envC f).load (some ⟨Cf.path "u.csv", some .unidic⟩) userC := by
  have h : (envC f).load.files (Cf.path "u.csv") = some [2] := by unfold envC; dsimp only; decide +kernel
  exact .inl ⟨Cf.path "u.csv", [2], rfl, csvFile, h, rfl⟩
theorem configC (f : DaFormat) : (envC f).load.files (Cf.path "a.json") = some (utf8 (prettyJson docC)) := by unfold envC; dsimp only; exact if_pos rfl
theorem jsonC (f : DaFormat) : JsonText.File (envC f).finite (utf8 (prettyJson docC)) docC := ⟨_, rfl, by unfold envC; dsimp only; exact parseJson_read.mp (by decide +kernel)⟩
theorem canonicalC : Canonical docC := by
  simp only [docC, Ac.mapping, Ac.min2, Ac.o, Ac.s, Canonical, CanonicalMembers, CanonicalList, List.map_cons, List.map_nil]
  decide
theorem docSaysC : DocSays docC (settings userC).charFilters (settings userC).tokenFilters ⟨⟨some .unidic, none⟩, some ⟨Cf.path "u.csv", some .unidic⟩, (settings userC).mode⟩ where
  characterFilters := ⟨[("mapping".toList, Ac.mapping)], .inl ⟨_, get_eq_some.mp rfl, .entry (entry_iff.mpr ⟨rfl, rfl⟩) .nil⟩, .cons (charFilter_iff.mp rfl) .nil⟩
  tokenizer := ⟨_, get_eq_some.mp rfl, config_de.mp rfl⟩
  tokenFilters := ⟨[("length".toList, Ac.min2), ("uppercase".toList, .null)],
    .inl ⟨_, get_eq_some.mp rfl, .entry (entry_iff.mpr ⟨rfl, rfl⟩) (.entry (entry_iff.mpr ⟨rfl, rfl⟩) .nil)⟩, .cons (tokenFilter_iff.mp rfl) (.cons (tokenFilter_iff.mp rfl) .nil)⟩

end E2e

/-- Non-vacuity of C70 for embedded dictionaries, here with compression. -/
example : ∃ f a, (E2e.envC f).fromFile (Cf.path "a.json") = .ok a ∧ ∀ text, ∃ out, a.analyze text = .ok out ∧ (E2e.settings E2e.userC).Analyzes text out := by
  obtain ⟨f, hf, hst⟩ := exists_faithful
  obtain ⟨a, h1, h2⟩ := c70_embedded (E2e.buildC f) Src.yadaOk (fun _ => .refl _) Dir.pieces Stored.flateOk hf .unidic Lang.source Lang.contents (E2e.buildCSays f) Lang.good Lang.storable
    E2e.userC E2e.usersC Dir.out Dir.noFaults (fun _ => rfl) E2e.before (E2e.sizesC f hst) (E2e.envC f) (E2e.formatC f) (E2e.yadaC f) (E2e.emb f) (E2e.embeds f)
    (E2e.settings E2e.userC) (E2e.filterC f _) rfl (E2e.valid _) Src.yadaOk E2e.block _ (E2e.userFileC f) none
    (Cf.path "a.json") _ E2e.docC E2e.docC (E2e.configC f) (E2e.jsonC f) (.refl _) E2e.canonicalC E2e.docSaysC
  exact ⟨f, a, h1, fun text => h2 text (E2e.accepts _ text)⟩

/-- Non-vacuity of C71 for embedded dictionaries, here with compression and a user dictionary in a CSV file. -/
example : ∃ f outs, List.Forall₂ (fun t o => ∃ tokens, (E2e.settings E2e.userC).Analyzes t tokens ∧ Printed (fun _ => []) tokens o .wakati) ["ab猫".toList, "b".toList] outs ∧
    (E2e.envC f).cliTokenize (fun _ => []) (utf8 " ab猫\n b\n".toList) { E2e.args with dicType := some .unidic, dicDir := none, userDicFile := some (Cf.path "u.csv") } =
      (outs.flatten, .ok ()) := by
  obtain ⟨f, hf, hst⟩ := exists_faithful
  obtain ⟨outs, h1, h2⟩ := c71_embedded (E2e.buildC f) Src.yadaOk (fun _ => .refl _) Dir.pieces Stored.flateOk hf .unidic Lang.source Lang.contents (E2e.buildCSays f) Lang.good Lang.storable
    E2e.userC E2e.usersC Dir.out Dir.noFaults (fun _ => rfl) E2e.before (E2e.sizesC f hst) (E2e.envC f) (E2e.formatC f) (E2e.yadaC f) (E2e.emb f) (E2e.embeds f)
    (E2e.settings E2e.userC) (E2e.filterC f _) rfl (E2e.valid _) Src.yadaOk E2e.block
    { E2e.args with dicType := some .unidic, dicDir := none, userDicFile := some (Cf.path "u.csv") } ⟨rfl, rfl⟩ (E2e.userFileC f)
    (.cons ⟨("mapping".toList, Ac.mapping), ⟨by decide, "{ \"mapping\": {\"\\u732b\": \"c\"}}".toList, Ac.mapping, by decide, E2e.readMapping, .refl _, by simp [Ac.mapping, Ac.o, Ac.s, Canonical, CanonicalMembers]⟩, charFilter_iff.mp rfl⟩ .nil)
    (.cons ⟨("length".toList, Ac.min2), ⟨by decide, "{\"max\":null,\"min\":2}".toList, Ac.min2, by decide, E2e.readMin2, .refl _, by simp [Ac.min2, Ac.o, Canonical, CanonicalMembers]; decide⟩, tokenFilter_iff.mp rfl⟩
      (.cons ⟨("uppercase".toList, .null), ⟨by decide, "null".toList, .null, by decide, E2e.readNull, .refl _, trivial⟩, tokenFilter_iff.mp rfl⟩ .nil))
    .wakati rfl (fun _ => []) (utf8 " ab猫\n b\n".toList) _ (.inl ⟨rfl, rfl⟩) [utf8 " ab猫\n".toList,  utf8 " b\n".toList] E2e.twoLines ["ab猫".toList, "b".toList]
    E2e.twoTexts (fun t _ => E2e.accepts _ t)
  exact ⟨f, outs, h1, h2⟩

/-- Non-vacuity of the violation: such options. -/
example : ({ E2e.args with userDicFile := some (Cf.path "u.csv") } : TokenizeArgs).dicDir = some Dir.out ∧ HasExtension (Cf.path "u.csv") (utf8 "csv".toList) :=
  ⟨rfl, (extension_iff (by decide)).mp (by decide +kernel)⟩

end Verif.Props
