import Verif.Props.Language
import Verif.Props.Modes
import Verif.Spec.Guarantees
/-! C81: what holds for every dictionary compiled from good sources. -/
namespace Verif.Props
open Verif.Model Verif.Spec

private theorem dependable {t : Tokenizer} (hc : Complete t) (hk : Consistent t) : Dependable t where
  answers text := c10_no_panic hk text
  lossless _ _ h := c01_lossless hc h
  places _ _ h := (c02_spans_tile hc h).1
  adjacent _ _ h := ⟨(c02_spans_tile hc h).2.1, (c02_spans_tile hc h).2.2.1⟩
  positions _ _ h _ _ hi := c03_positions h hi
  sentences a d b hd ta tb ha hb := by
    rw [c05_compositional hc a b hd, ha, hb]
    rfl

private theorem buildUserDict_flag {yada : DaBuilder} {cfg : UserCfg} {records : List Row} {u : UserDictionary} (h : buildUserDict yada cfg records = .ok u) :
    u.dict.isSystem = false := by
  unfold buildUserDict at h
  simp only [bind_eq_ok] at h
  obtain ⟨_, -, _, -, x, -, h⟩ := h
  obtain ⟨a, b⟩ := x
  dsimp only at h
  split at h
  · cases h
  · cases h; rfl

/-- C81: dictionaries compiled from good sources satisfy the conditions of the theorems on tokenizers (C01–C14, C76, C77), in every mode, with or without a user dictionary. This does not depend on the limit for
the number of words with the same surface (see C54). -/
theorem c81_crowded (env : BuildEnv) (hy : YadaContract env.yada) (hh : ∀ index, (env.hashOrder index).Perm index) (kind : DictionaryKind) (src : SourceDir)
    (c : Contents) (hs : Says env kind src c) (hg : GoodApart kind c) (user : Option (DictionaryKind × List Row)) (hu : ∀ k rows, user = some (k, rows) → GoodUserApart k c rows) :
    ∃ parts m u, compile env kind src = .ok parts ∧ ConnMatrix.load parts.matrix = .ok m ∧ compileUser env.yada user = .ok u ∧
      ∀ mode, Complete ⟨parts.dictionary m, u, mode⟩ ∧ Consistent ⟨parts.dictionary m, u, mode⟩ ∧ FlagsOk (Tokenizer.env ⟨parts.dictionary m, u, mode⟩) := by
  obtain ⟨parts, m, u, h1, h2, h3, h4⟩ := compile_kept hy hh hs hg hu
  refine ⟨parts, m, u, h1, h2, h3, fun mode => ⟨(h4 mode).complete hg, (h4 mode).consistent hg (fun w hw => hg.rowIds w (mem_keptWords hw)) fun w hw => user_inside hu w (mem_keptWords hw), rfl, ?_⟩⟩
  intro ud hud
  cases user with
  | none =>
    simp only [compileUser, Except.ok.injEq] at h3
    subst h3
    cases hud
  | some p =>
    simp only [compileUser, bind_eq_ok, pure_eq_ok, Except.ok.injEq] at h3
    obtain ⟨x, hx, rfl⟩ := h3
    simp only [Tokenizer.env, Option.map_some, Option.some.injEq] at hud
    subst hud
    exact buildUserDict_flag hx

/-- C81: in particular dictionaries compiled from good sources. -/
theorem c81_conditions (env : BuildEnv) (hy : YadaContract env.yada) (hh : ∀ index, (env.hashOrder index).Perm index) (kind : DictionaryKind) (src : SourceDir)
    (c : Contents) (hs : Says env kind src c) (hg : Good kind c) (user : Option (DictionaryKind × List Row)) (hu : ∀ k rows, user = some (k, rows) → GoodUser k c rows) :
    ∃ parts m u, compile env kind src = .ok parts ∧ ConnMatrix.load parts.matrix = .ok m ∧ compileUser env.yada user = .ok u ∧
      ∀ mode, Complete ⟨parts.dictionary m, u, mode⟩ ∧ Consistent ⟨parts.dictionary m, u, mode⟩ ∧ FlagsOk (Tokenizer.env ⟨parts.dictionary m, u, mode⟩) :=
  c81_crowded env hy hh kind src c hs (Good.apart hg) user fun k rows h => GoodUser.apart (hu k rows h)

/-- C81: every text is answered, without loss, with offsets and positions that are right, sentence by sentence. -/
theorem c81_compiled (env : BuildEnv) (hy : YadaContract env.yada) (hh : ∀ index, (env.hashOrder index).Perm index) (kind : DictionaryKind) (src : SourceDir)
    (c : Contents) (hs : Says env kind src c) (hg : Good kind c) (user : Option (DictionaryKind × List Row)) (hu : ∀ k rows, user = some (k, rows) → GoodUser k c rows) :
    ∃ parts m u, compile env kind src = .ok parts ∧ ConnMatrix.load parts.matrix = .ok m ∧ compileUser env.yada user = .ok u ∧
      ∀ mode, Dependable ⟨parts.dictionary m, u, mode⟩ := by
  obtain ⟨parts, m, u, h1, h2, h3, h4⟩ := c81_conditions env hy hh kind src c hs hg user hu
  exact ⟨parts, m, u, h1, h2, h3, fun mode => dependable (h4 mode).1 (h4 mode).2.1⟩

/-- C81: penalties of decompose mode matter only for words that get them. -/
theorem c81_penalties (env : BuildEnv) (hy : YadaContract env.yada) (hh : ∀ index, (env.hashOrder index).Perm index) (kind : DictionaryKind) (src : SourceDir)
    (c : Contents) (hs : Says env kind src c) (hg : Good kind c) (user : Option (DictionaryKind × List Row)) (hu : ∀ k rows, user = some (k, rows) → GoodUser k c rows) :
    ∃ parts m u, compile env kind src = .ok parts ∧ ConnMatrix.load parts.matrix = .ok m ∧ compileUser env.yada user = .ok u ∧
      ∀ p q text ss toks, Dearer (.decompose p) (.decompose q) → Sentences text ss → (∀ s ∈ ss, CostsFit (Tokenizer.env ⟨parts.dictionary m, u, .decompose p⟩) m s ∧ CostsFit (Tokenizer.env ⟨parts.dictionary m, u, .decompose q⟩) m s) →
        Tokenizer.tokenize ⟨parts.dictionary m, u, .decompose p⟩ text = .ok toks →
        (∀ tok ∈ toks, penalty (.decompose q) tok.text = penalty (.decompose p) tok.text) → Tokenizer.tokenize ⟨parts.dictionary m, u, .decompose q⟩ text = .ok toks := by
  obtain ⟨parts, m, u, h1, h2, h3, h4⟩ := c81_conditions env hy hh kind src c hs hg user hu
  exact ⟨parts, m, u, h1, h2, h3, fun p q text ss toks hpq hss hno h hpen => c76_penalties (h4 .normal).2.1 hpq hss hno h hpen⟩

/-- C81: the same for a dictionary that is built into a directory and loaded from there, whatever the directory contained before. -/
theorem c81_loaded (env : BuildEnv) (hy : YadaContract env.yada) (hh : ∀ index, (env.hashOrder index).Perm index) (hp : PiecesOk env)
    (hfe : env.feature = false) (hfo : Faithful env.format) (kind : DictionaryKind) (src : SourceDir)
    (c : Contents) (hs : Says env kind src c) (hg : Good kind c) (hst : Storable c) (user : Option (DictionaryKind × List Row))
    (hu : ∀ k rows, user = some (k, rows) → GoodUser k c rows) (out : Path) (faults : Faults) (hf : NoFaults faults) (fs : Fs)
    (load : LoadEnv) (hl : load.format = env.format) (hfs : load.files = runOps fs ((env.buildDictionary kind src out).trace faults)) :
    (env.buildDictionary kind src out).result faults = .ok () ∧ ∃ d u, load.loadDictionary out = .ok d ∧ compileUser env.yada user = .ok u ∧
      ∀ mode, Dependable ⟨d, u, mode⟩ := by
  obtain ⟨parts, m, u, h1, h2, h3, h4⟩ := c81_compiled env hy hh kind src c hs hg user hu
  have h5 := parts_typed hh hs hg hst h1
  exact ⟨(c59_build env hp kind src parts h1 out faults hf fs).1, _, u,
    c60_load env hp hfe kind src parts h1 h5.1 h5.2 (hfo _) m h2 out faults hf fs load hl hfs, h3, h4⟩

/-- C81: the same for a dictionary that is built and embedded into a dictionary crate, with or without compression. -/
theorem c81_embedded (env : BuildEnv) (hy : YadaContract env.yada) (hh : ∀ index, (env.hashOrder index).Perm index) (hp : PiecesOk env)
    (hfl : FlateContract env.flate) (hfo : Faithful env.format) (kind : DictionaryKind) (src : SourceDir)
    (c : Contents) (hs : Says env kind src c) (hg : Good kind c) (hst : Storable c) (user : Option (DictionaryKind × List Row))
    (hu : ∀ k rows, user = some (k, rows) → GoodUser k c rows) (out : Path) (faults : Faults) (hf : NoFaults faults) (fs : Fs)
    (hsize : ∀ parts, compile env kind src = .ok parts → ∀ e ∈ parts.files env.format, Usize (compress env.flate e.2 .deflate).data.length) (d : DictData)
    (hd : let built := runOps fs ((env.buildDictionary kind src out).trace faults)
      built (inDir out "char_def.bin") = some d.charDef ∧ built (inDir out "unk.bin") = some d.unk ∧ built (inDir out "dict.da") = some d.da ∧
      built (inDir out "dict.vals") = some d.vals ∧ built (inDir out "dict.words") = some d.words ∧ built (inDir out "dict.wordsidx") = some d.wordsIdx ∧
      built (inDir out "matrix.mtx") = some d.matrix) :
    (env.buildDictionary kind src out).result faults = .ok () ∧ ∃ dict u, d.loadBuiltin env.feature env.flate env.format = .ok dict ∧
      compileUser env.yada user = .ok u ∧ ∀ mode, Dependable ⟨dict, u, mode⟩ := by
  obtain ⟨parts, m, u, h1, h2, h3, h4⟩ := c81_compiled env hy hh kind src c hs hg user hu
  have h5 := parts_typed hh hs hg hst h1
  exact ⟨(c59_build env hp kind src parts h1 out faults hf fs).1, _, u,
    c60_embedded env hp hfl kind src parts h1 h5.1 h5.2 (hfo _) (hsize parts h1) m h2 out faults hf fs d hd, h3, h4⟩

/-- The conditions hold for a dictionary with a user dictionary. (Those of `c81_loaded` and `c81_embedded` are those of `c65_built_and_loaded` and `c65_embedded`, shown to hold there.) -/
example : ∃ parts m u, compile Dir.env .unidic Lang.source = .ok parts ∧ ConnMatrix.load parts.matrix = .ok m ∧ compileUser Dir.env.yada Lang.user = .ok u ∧
    ∀ mode, Dependable ⟨parts.dictionary m, u, mode⟩ :=
  c81_compiled Dir.env Src.yadaOk (fun _ => .refl _) .unidic Lang.source Lang.contents Lang.saysSo Lang.good Lang.user Lang.users

/-- With 34 words `b`. -/
example : ∃ parts m u, compile Dir.env .unidic Lang.crowdedSource = .ok parts ∧ ConnMatrix.load parts.matrix = .ok m ∧ compileUser Dir.env.yada none = .ok u ∧
    ∀ mode, Complete ⟨parts.dictionary m, u, mode⟩ ∧ Consistent ⟨parts.dictionary m, u, mode⟩ ∧ FlagsOk (Tokenizer.env ⟨parts.dictionary m, u, mode⟩) :=
  c81_crowded Dir.env Src.yadaOk (fun _ => .refl _) .unidic Lang.crowdedSource Lang.crowded Lang.crowdedSays Lang.crowdedGood none fun _ _ h => by cases h

end Verif.Props
