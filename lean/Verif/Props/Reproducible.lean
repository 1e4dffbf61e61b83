import Verif.Spec.Reproducible
import Verif.Props.EndToEnd
/-! C85, C86: two builds of the same sources, and two programs with the same dictionary. -/
namespace Verif.Props
open Verif.Model Verif.Spec

/-! ### C85 Builds are reproducible byte by byte -/

private theorem chardef_same {env env' : BuildEnv} (hs : SameCompilers env env') (hh : ∀ index, (env.hashOrder index).Perm index) (hh' : ∀ index, (env'.hashOrder index).Perm index)
    (cfg : BuildCfg) (src : SourceDir) : env'.compileChardef cfg src = env.compileChardef cfg src := by
  unfold BuildEnv.compileChardef BuildEnv.readText
  cases src.charDef with
  | none => rfl
  | some bytes =>
    dsimp only
    rw [hs.decode]
    simp only [bind_ok]
    cases hp : CharDefBuilder.empty.parse (env.decode cfg.encoding bytes) with
    | error e => rfl
    | ok b =>
      simp only [bind_ok]
      obtain ⟨d, h1, h2⟩ := c23_hash_order _ b hp _ _ (hh b.index) (hh' b.index)
      rw [h1, h2]

private theorem rows_same {env env' : BuildEnv} (hs : SameCompilers env env') (cfg : BuildCfg) (files : List (Option (List UInt8))) : env'.readRows cfg files = env.readRows cfg files := by
  induction files with
  | nil => rfl
  | cons f fs ih =>
    cases f with
    | none => rfl
    | some bytes =>
      unfold BuildEnv.readRows
      rw [hs.csv, ih]

/-- C85: what is compiled does not depend on the order in which hash maps iterate, for all sources, also those that are rejected: then the error is the same. -/
theorem c85_compile {env env' : BuildEnv} (hs : SameCompilers env env') (hh : ∀ index, (env.hashOrder index).Perm index) (hh' : ∀ index, (env'.hashOrder index).Perm index)
    (kind : DictionaryKind) (src : SourceDir) : compile env' kind src = compile env kind src := by
  unfold compile
  dsimp only
  rw [chardef_same hs hh hh', rows_same hs, hs.yada]
  unfold BuildEnv.compileUnk BuildEnv.compileMatrix BuildEnv.readText
  rw [hs.decode]

/-- C85: two builds of the same sources, with hash maps in any order, into any directories with any contents, end alike; if they succeed, the seven files are equal byte by byte. -/
theorem c85_files {env env' : BuildEnv} (hs : SameBuilder env env') (hh : ∀ index, (env.hashOrder index).Perm index) (hh' : ∀ index, (env'.hashOrder index).Perm index)
    (hp : PiecesOk env) (hp' : PiecesOk env') (kind : DictionaryKind) (src : SourceDir) (out out' : Path) (faults faults' : Faults) (hf : NoFaults faults) (hf' : NoFaults faults') (fs fs' : Fs) :
    (env'.buildDictionary kind src out').result faults' = (env.buildDictionary kind src out).result faults ∧
    ((env.buildDictionary kind src out).result faults = .ok () → ∀ name ∈ dictionaryFiles, ∃ bytes,
      runOps fs ((env.buildDictionary kind src out).trace faults) (inDir out name) = some bytes ∧
      runOps fs' ((env'.buildDictionary kind src out').trace faults') (inDir out' name) = some bytes) := by
  have hc := c85_compile hs.toSameCompilers hh hh' kind src
  have h1 := gives_build (env := env) (src := src) (out := out) hf kind .start
  have h2 := gives_build (env := env') (src := src) (out := out') hf' kind .start
  rw [hc] at h2
  have hr : (env.buildDictionary kind src out).result faults = (BuildCfg.ofKind kind).onResult (compile env kind src >>= fun _ => .ok ()) := h1
  refine ⟨by rw [hr]; exact h2, fun hok => ?_⟩
  cases hcomp : compile env kind src with
  | error e =>
    rw [hr, hcomp] at hok
    unfold BuildCfg.onResult unwrapErr at hok
    split at hok
    · simp only [bind_error] at hok
      split at hok <;> cases hok
    · cases hok
  | ok c =>
    rw [hcomp] at hc
    have g1 := (c59_build env hp kind src c hcomp out faults hf fs).2.1
    have g2 := (c59_build env' hp' kind src c hc out' faults' hf' fs').2.1
    rw [hs.feature, hs.flate, hs.format] at g2
    intro name hn
    have : ∃ data, (name, data) ∈ c.files env.format := by
      simp only [dictionaryFiles, List.mem_cons, List.not_mem_nil, or_false] at hn
      rcases hn with rfl | rfl | rfl | rfl | rfl | rfl | rfl <;> simp [CompiledParts.files]
    obtain ⟨data, hd⟩ := this
    exact ⟨_, g1 _ hd, g2 _ hd⟩

/-- C85: with failing system calls and interruptions too, the order in which hash maps iterate cannot be observed: the same calls are made, with the same results. -/
theorem c85_calls (env : BuildEnv) (hh : ∀ index, (env.hashOrder index).Perm index) (order : List (Str × Nat) → List (Str × Nat)) (ho : ∀ index, (order index).Perm index)
    (kind : DictionaryKind) (src : SourceDir) (out : Path) (faults : Faults) :
    (({ env with hashOrder := order } : BuildEnv).buildDictionary kind src out).result faults = (env.buildDictionary kind src out).result faults ∧
    (({ env with hashOrder := order } : BuildEnv).buildDictionary kind src out).trace faults = (env.buildDictionary kind src out).trace faults := by
  have h : ({ env with hashOrder := order } : BuildEnv).buildDictionary kind src out = env.buildDictionary kind src out := by
    unfold BuildEnv.buildDictionary BuildEnv.buildChardef
    dsimp only
    rw [chardef_same (env := env) (env' := { env with hashOrder := order }) ⟨rfl, rfl, rfl⟩ hh ho]
    congr 1
    funext x
    have hrows : ∀ cfg files, BuildEnv.readRows { env with hashOrder := order } cfg files = env.readRows cfg files :=
      fun cfg files => rows_same (env := env) (env' := { env with hashOrder := order }) ⟨rfl, rfl, rfl⟩ cfg files
    unfold BuildEnv.buildUnk BuildEnv.buildDict BuildEnv.buildCostMatrix
    simp only [hrows]
    rfl
  rw [h]
  exact ⟨rfl, rfl⟩

/-! ### C86 Loaded and built-in dictionaries do the same -/

/-- C86: a dictionary that is built into a directory and loaded, and one that is built (by another run of the same compilers, compressed or not) and embedded into a program are the same,
and a user dictionary is the same in all its forms; so are all tokenizers made of them. -/
theorem c86_tokenizer (env env' : BuildEnv) (hs : SameCompilers env env') (hy : YadaContract env.yada) (hh : ∀ index, (env.hashOrder index).Perm index)
    (hh' : ∀ index, (env'.hashOrder index).Perm index) (hp : PiecesOk env) (hp' : PiecesOk env') (hfe : env.feature = false) (hfl : FlateContract env'.flate) (hfo : Faithful env.format)
    (hfo' : Faithful env'.format) (kind : DictionaryKind) (src : SourceDir) (c : Contents) (hsays : Says env kind src c) (hg : Good kind c) (hst : Storable c)
    (user : Option (DictionaryKind × List Row)) (hu : ∀ k rows, user = some (k, rows) → GoodUser k c rows)
    (out out' : Path) (faults faults' : Faults) (hf : NoFaults faults) (hf' : NoFaults faults') (fs fs' : Fs)
    (hsize : ∀ parts, compile env' kind src = .ok parts → ∀ e ∈ parts.files env'.format, Usize (compress env'.flate e.2 .deflate).data.length)
    (load load' : LoadEnv) (hl : load.format = env.format) (hl' : load'.format = env'.format) (hly : load.yada = env.yada) (hly' : load'.yada = env.yada)
    (hfs : load.files = runOps fs ((env.buildDictionary kind src out).trace faults))
    (data : DictData) (hem : Embeds load' env' kind (runOps fs' ((env'.buildDictionary kind src out').trace faults')) out' data)
    (cu cu' : Option UserDictionaryConfig) (huf : UserFile load cu user) (huf' : UserFile load' cu' user) (path : Option Path) (mode : Mode) :
    ∃ t, load.tokenizer ⟨⟨none, some out⟩, cu, mode⟩ = .ok t ∧ load'.tokenizer ⟨⟨some kind, path⟩, cu', mode⟩ = .ok t := by
  obtain ⟨parts, m, u, h1, h2, h3, -⟩ := c64_source_semantics env hy hh kind src c hsays hg user hu
  have h5 := parts_typed hh hsays hg hst h1
  have h1' : compile env' kind src = .ok parts := (c85_compile hs hh hh' kind src).trans h1
  have g1 := c60_load env hp hfe kind src parts h1 h5.1 h5.2 (hfo _) m h2 out faults hf fs load hl hfs
  have g2 := c60_embedded env' hp' hfl kind src parts h1' h5.1 h5.2 (hfo' _) (hsize parts h1') m h2 out' faults' hf' fs' data
    ⟨hem.charDef, hem.unk, hem.da, hem.vals, hem.words, hem.wordsIdx, hem.matrix⟩
  refine ⟨⟨parts.dictionary m, u, mode⟩, ?_, ?_⟩
  · unfold LoadEnv.tokenizer LoadEnv.loadFromConfig
    dsimp only
    rw [g1, bind_ok, userFile_load (hl ▸ hfo) huf (hly ▸ h3)]
    rfl
  · unfold LoadEnv.tokenizer LoadEnv.loadFromConfig LoadEnv.loadFromKind
    dsimp only
    rw [if_pos (has_iff.mpr hem.feature), hem.reads, g2]
    unfold mapErr
    dsimp only
    rw [bind_ok, userFile_load (hl' ▸ hfo') huf' (hly' ▸ h3)]
    rfl

/-- C86: so the `tokenize` command prints the same, in every output format and for every input, also where it ends with an error, whether it is run with the directory or with the built-in dictionary. -/
theorem c86_tokenize (env env' : BuildEnv) (hs : SameCompilers env env') (hy : YadaContract env.yada) (hh : ∀ index, (env.hashOrder index).Perm index)
    (hh' : ∀ index, (env'.hashOrder index).Perm index) (hp : PiecesOk env) (hp' : PiecesOk env') (hfe : env.feature = false) (hfl : FlateContract env'.flate) (hfo : Faithful env.format)
    (hfo' : Faithful env'.format) (kind : DictionaryKind) (src : SourceDir) (c : Contents) (hsays : Says env kind src c) (hg : Good kind c) (hst : Storable c)
    (user : Option (DictionaryKind × List Row)) (hu : ∀ k rows, user = some (k, rows) → GoodUser k c rows)
    (out out' : Path) (faults faults' : Faults) (hf : NoFaults faults) (hf' : NoFaults faults') (fs fs' : Fs)
    (hsize : ∀ parts, compile env' kind src = .ok parts → ∀ e ∈ parts.files env'.format, Usize (compress env'.flate e.2 .deflate).data.length)
    (prog prog' : AnalyzerEnv) (hfilter : prog'.filter = prog.filter) (hfin : prog'.finite = prog.finite)
    (hl : prog.load.format = env.format) (hl' : prog'.load.format = env'.format) (hly : prog.load.yada = env.yada) (hly' : prog'.load.yada = env.yada)
    (hfs : prog.load.files = runOps fs ((env.buildDictionary kind src out).trace faults))
    (data : DictData) (hem : Embeds prog'.load env' kind (runOps fs' ((env'.buildDictionary kind src out').trace faults')) out' data)
    (args : TokenizeArgs) (u u' : Option Path) (huf : UserFile prog.load (u.map fun p => ⟨p, none⟩) user) (huf' : UserFile prog'.load (u'.map fun p => ⟨p, some kind⟩) user)
    (path : Option Path) (hin : ∀ p, args.inputFile = some p → prog'.load.files p = prog.load.files p) (pretty : Json → Str) (stdin : List UInt8) :
    prog'.cliTokenize pretty stdin { args with dicType := some kind, dicDir := path, userDicFile := u' } =
      prog.cliTokenize pretty stdin { args with dicType := none, dicDir := some out, userDicFile := u } := by
  obtain ⟨t, h1, h2⟩ := c86_tokenizer env env' hs hy hh hh' hp hp' hfe hfl hfo hfo' kind src c hsays hg hst user hu out out' faults faults' hf hf' fs fs' hsize prog.load prog'.load hl hl' hly hly' hfs
    data hem _ _ huf huf' path args.mode
  simp only [LoadEnv.tokenizer, bind_eq_ok, pure_eq_ok, Except.ok.injEq] at h1 h2
  obtain ⟨d, hd, v, hv, rfl⟩ := h1
  obtain ⟨d', hd', v', hv', ht⟩ := h2
  cases ht
  have hcf : prog'.charFlag = prog.charFlag := by
    funext x; unfold AnalyzerEnv.charFlag; simp only [AnalyzerEnv.parseFlag, AnalyzerEnv.json, hfilter, hfin]
  have htf : prog'.tokenFlag = prog.tokenFlag := by
    funext x; unfold AnalyzerEnv.tokenFlag; simp only [AnalyzerEnv.parseFlag, AnalyzerEnv.json, hfilter, hfin]
  have hi : prog'.input stdin { args with dicType := some kind, dicDir := path, userDicFile := u' } = prog.input stdin { args with dicType := none, dicDir := some out, userDicFile := u } := by
    unfold AnalyzerEnv.input LoadEnv.readFile
    dsimp only
    cases hfile : args.inputFile with
    | none => rfl
    | some p => dsimp only; rw [hin p hfile]
  unfold AnalyzerEnv.cliTokenize AnalyzerEnv.cliAnalyzer TokenizeArgs.userConfig
  dsimp only
  rw [hd, hd', hv, hv', hi, hcf, htf]

/-! ### Non-vacuity -/

namespace Rep

/-- Another run of the builder: hash maps iterate in the opposite order, and data is written in one piece. -/
def reversed : BuildEnv := { Dir.env with hashOrder := List.reverse, pieces := fun bytes => [bytes] }

end Rep

/-- Two runs of the builder that differ: here the categories of `char.def` are visited in different orders. -/
example : SameBuilder Dir.env Rep.reversed ∧ (∀ index, (Rep.reversed.hashOrder index).Perm index) ∧ PiecesOk Rep.reversed ∧
    Rep.reversed.hashOrder [(['a'], 0), (['b'], 1)] ≠ Dir.env.hashOrder [(['a'], 0), (['b'], 1)] :=
  ⟨⟨⟨rfl, rfl, rfl⟩, rfl, rfl, rfl⟩, fun _ => List.reverse_perm _, fun data => by simp [Rep.reversed], by decide⟩

/-- Both succeed on the sample sources, with equal files. -/
example : (Rep.reversed.buildDictionary .unidic Lang.source Dir.out).result Dir.noFaults = .ok () ∧ ∃ bytes,
    runOps Dir.empty ((Dir.env.buildDictionary .unidic Lang.source Dir.out).trace Dir.noFaults) (inDir Dir.out "char_def.bin") = some bytes ∧
    runOps Dir.empty ((Rep.reversed.buildDictionary .unidic Lang.source Dir.out).trace Dir.noFaults) (inDir Dir.out "char_def.bin") = some bytes := by
  have h1 := (c59_build Dir.env Dir.pieces .unidic Lang.source Lang.compiled Lang.compiles Dir.out Dir.noFaults (fun _ => rfl) Dir.empty).1
  have h := c85_files (env := Dir.env) (env' := Rep.reversed) ⟨⟨rfl, rfl, rfl⟩, rfl, rfl, rfl⟩ (fun _ => .refl _) (fun _ => List.reverse_perm _) Dir.pieces (fun data => by simp [Rep.reversed])
    .unidic Lang.source Dir.out Dir.out Dir.noFaults Dir.noFaults (fun _ => rfl) (fun _ => rfl) Dir.empty Dir.empty
  exact ⟨h.1.trans h1, h.2 h1 _ (by simp [dictionaryFiles])⟩

/-- The same sample sources, built into a directory, and built with compression and embedded: the command prints the same for every input. -/
example : ∃ f, ∀ (args : TokenizeArgs) (stdin : List UInt8), args.inputFile = none →
    (E2e.envC f).cliTokenize prettyJson stdin { args with dicType := some .unidic, dicDir := none, userDicFile := none } =
      (E2e.env f).cliTokenize prettyJson stdin { args with dicType := none, dicDir := some Dir.out, userDicFile := none } := by
  obtain ⟨f, hf, hst⟩ := exists_faithful
  exact ⟨f, fun args stdin hin => c86_tokenize (E2e.build f) (E2e.buildC f) ⟨rfl, rfl, rfl⟩ Src.yadaOk (fun _ => .refl _) (fun _ => .refl _) Dir.pieces Dir.pieces rfl Stored.flateOk hf hf
    .unidic Lang.source Lang.contents (E2e.buildSays f) Lang.good Lang.storable none (by simp) Dir.out Dir.out Dir.noFaults Dir.noFaults (fun _ => rfl) (fun _ => rfl) E2e.before E2e.before
    (E2e.sizesC f hst) (E2e.env f) (E2e.envC f) rfl rfl (E2e.format f) (E2e.formatC f) (E2e.yada f) ((E2e.yadaC f).trans rfl) (E2e.built f) (E2e.emb f) (E2e.embeds f) args none none rfl rfl none
    (fun p hp => by rw [hin] at hp; cases hp) prettyJson stdin⟩

end Verif.Props
