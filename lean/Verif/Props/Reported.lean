import Verif.Proofs.Reported
import Verif.Props.EndToEnd
/-! C102: whatever configurations and dictionary files contain, making an analyzer ends with an analyzer or an error. -/
namespace Verif.Props
open Verif.Model Verif.Spec

/-- C102: making an analyzer from a configuration file ends with an analyzer or a returned error, whatever the configuration, the dictionary and the user dictionary contain, if no configured tag
has more than four parts, no connection matrix is shorter than its header and no row of a word list has less than three columns. (Without these conditions it can panic, see below.) -/
theorem c102_file_partial (env : AnalyzerEnv) (path : Path) (hp : Presentable env.load)
    (ht : ∀ data j v es, env.load.files path = some data → JsonText.File env.finite data j → SameDoc j v → Canonical v → Listed v "token_filters" es →
      ∀ e ∈ es, ∀ s, TokenSetting e.1 e.2 s → ShortTags s) : Reported (env.fromFile path) := by
  unfold AnalyzerEnv.fromFile
  refine reported_bind (reported_readFile _ _) fun data hd => ?_
  have hd := readFile_ok.mp hd
  unfold AnalyzerEnv.configValue
  cases hj : env.json data with
  | none => exact reported_err _
  | some j =>
    simp only [bind_ok]
    obtain ⟨ces, hc⟩ := listed_exist j.value "character_filters"
    obtain ⟨tes, hte⟩ := listed_exist j.value "token_filters"
    unfold AnalyzerEnv.fromValue
    rw [loadEntries_listed hc, loadEntries_listed hte]
    refine reported_bind (reported_mapM _ fun e _ => reported_charFilter _ _ _) fun _ _ => reported_bind ?_ fun c _ => reported_bind (reported_tokenizer hp c) fun _ _ =>
      reported_bind (reported_mapM _ fun e he => reported_tokenFilter _ _ _ ?_) fun _ _ => reported_ok _
    · unfold tokenizerMember
      split
      · split
        · exact reported_ok _
        · exact reported_err _
      · exact reported_err _
    · exact ht data j j.value tes hd (parseJsonBytes_iff.mp hj) (value_sameDoc j) (canonical_value j) hte e he

/-- C102: the same for the command line. -/
theorem c102_command_partial (env : AnalyzerEnv) (args : TokenizeArgs) (hp : Presentable env.load)
    (ht : ∀ flag ∈ args.tokenFilters, ∀ e, FlagFor env flag e → ∀ s, TokenSetting e.1 e.2 s → ShortTags s) : Reported (env.cliAnalyzer args) := by
  have hflag : ∀ flag, (∃ e, FlagFor env flag e) ∨ ∀ e, ¬ FlagFor env flag e := fun flag => by
    by_cases h : ∃ e, FlagFor env flag e
    · exact .inl h
    · exact .inr fun e he => h ⟨e, he⟩
  unfold AnalyzerEnv.cliAnalyzer
  refine reported_bind (reported_fromConfig hp _) fun _ _ => reported_bind (reported_users hp _) fun _ _ => reported_bind ?_ fun _ _ => reported_bind (reported_mapM _ fun flag _ => ?_) fun _ _ =>
    reported_bind (reported_mapM _ fun flag hf => ?_) fun _ _ => reported_ok _
  · unfold Format.fromStr
    repeat' split
    all_goals first | exact reported_ok _ | exact reported_err _
  · rcases hflag flag with ⟨e, he⟩ | hn
    · rw [((c68_flag env flag).1 e.1 e.2 he).1]; exact reported_charFilter _ _ _
    · rw [((c68_flag env flag).2 hn).1]; exact reported_err _
  · rcases hflag flag with ⟨e, he⟩ | hn
    · rw [((c68_flag env flag).1 e.1 e.2 he).2]; exact reported_tokenFilter _ _ _ (ht flag hf e he)
    · rw [((c68_flag env flag).2 hn).2]; exact reported_err _

/-- C102: a directory is loaded exactly if the seven files are there, the matrix has a header and the two serialized files can be read; loading panics exactly if the matrix is shorter than
its header (and the two files before it are there); otherwise an error is returned. -/
theorem c102_directory_exact (env : LoadEnv) (dir : Path) :
    ((∃ d, env.loadDictionary dir = .ok d) ↔ (∃ da, env.files (dir.join (utf8 "dict.da".toList)) = some da) ∧ (∃ vals, env.files (dir.join (utf8 "dict.vals".toList)) = some vals) ∧
      (∃ m, env.files (dir.join (utf8 "matrix.mtx".toList)) = some m ∧ 4 ≤ m.length) ∧
      (∃ b c, env.files (dir.join (utf8 "char_def.bin".toList)) = some b ∧ CharDefs.load b = .ok c) ∧ (∃ b u, env.files (dir.join (utf8 "unk.bin".toList)) = some b ∧ UnkDict.load b = .ok u) ∧
      (∃ idx, env.files (dir.join (utf8 "dict.wordsidx".toList)) = some idx) ∧ ∃ words, env.files (dir.join (utf8 "dict.words".toList)) = some words) ∧
    (env.loadDictionary dir = .error .panic ↔ (∃ da, env.files (dir.join (utf8 "dict.da".toList)) = some da) ∧ (∃ vals, env.files (dir.join (utf8 "dict.vals".toList)) = some vals) ∧
      ∃ m, env.files (dir.join (utf8 "matrix.mtx".toList)) = some m ∧ m.length < 4) ∧
    (Reported (env.loadDictionary dir) ∨ env.loadDictionary dir = .error .panic) := by
  have hpanic : (∃ da, env.files (dir.join (utf8 "dict.da".toList)) = some da) ∧ (∃ vals, env.files (dir.join (utf8 "dict.vals".toList)) = some vals) ∧
      (∃ m, env.files (dir.join (utf8 "matrix.mtx".toList)) = some m ∧ m.length < 4) → env.loadDictionary dir = .error .panic := by
    rintro ⟨⟨da, h1⟩, ⟨vals, h2⟩, m, h3, h4⟩
    unfold LoadEnv.loadDictionary LoadEnv.prefixDict LoadEnv.connection
    simp only [readFile_ok.mpr h1, readFile_ok.mpr h2, readFile_ok.mpr h3, bind_ok, pure_eq_ok, (connMatrix_load m).2 h4, bind_error]
  have hrep : (∀ m, env.files (dir.join (utf8 "matrix.mtx".toList)) = some m → 4 ≤ m.length) → Reported (env.loadDictionary dir) := reported_dictionary
  have hread : ∀ p, env.files p = none → env.readFile p = .error (.err .io) := fun p h => by unfold LoadEnv.readFile; rw [h]
  refine ⟨⟨?_, ?_⟩, ⟨fun h => ?_, hpanic⟩, ?_⟩
  · rintro ⟨d, h⟩
    unfold LoadEnv.loadDictionary LoadEnv.prefixDict LoadEnv.connection LoadEnv.charDef LoadEnv.unknownDict LoadEnv.wordsIdxData LoadEnv.wordsData at h
    simp only [bind_eq_ok, readFile_ok] at h
    obtain ⟨_, ⟨da, h1, vals, h2, -⟩, _, ⟨m, h3, h3'⟩, c, ⟨b, h4, h4'⟩, u, ⟨b', h5, h5'⟩, idx, h6, words, h7, -⟩ := h
    refine ⟨⟨da, h1⟩, ⟨vals, h2⟩, ⟨m, h3, ?_⟩, ⟨b, c, h4, h4'⟩, ⟨b', u, h5, h5'⟩, ⟨idx, h6⟩, words, h7⟩
    by_contra hlt
    rw [(connMatrix_load m).2 (by omega)] at h3'
    cases h3'
  · rintro ⟨⟨da, h1⟩, ⟨vals, h2⟩, ⟨m, h3, h3'⟩, ⟨b, c, h4, h4'⟩, ⟨b', u, h5, h5'⟩, ⟨idx, h6⟩, words, h7⟩
    obtain ⟨mm, hm⟩ := (connMatrix_load m).1 h3'
    unfold LoadEnv.loadDictionary LoadEnv.prefixDict LoadEnv.connection LoadEnv.charDef LoadEnv.unknownDict LoadEnv.wordsIdxData LoadEnv.wordsData
    simp only [readFile_ok.mpr h1, readFile_ok.mpr h2, readFile_ok.mpr h3, readFile_ok.mpr h4, readFile_ok.mpr h5, readFile_ok.mpr h6, readFile_ok.mpr h7, bind_ok, pure_eq_ok, hm, h4', h5']
    exact ⟨_, rfl⟩
  · have hm : ∃ m, env.files (dir.join (utf8 "matrix.mtx".toList)) = some m ∧ m.length < 4 := by
      by_contra hn
      rcases hrep fun m hm => by
        by_contra hlt
        exact hn ⟨m, hm, by omega⟩ with ⟨_, h'⟩ | ⟨_, h'⟩
      · rw [h] at h'; cases h'
      · rw [h] at h'; cases h'
    unfold LoadEnv.loadDictionary LoadEnv.prefixDict at h
    cases h1 : env.files (dir.join (utf8 "dict.da".toList)) with
    | none => rw [hread _ h1] at h; simp only [bind_error] at h; cases h
    | some da =>
      cases h2 : env.files (dir.join (utf8 "dict.vals".toList)) with
      | none => rw [readFile_ok.mpr h1, hread _ h2] at h; simp only [bind_ok, bind_error] at h; cases h
      | some vals => exact ⟨⟨da, rfl⟩, ⟨vals, rfl⟩, hm⟩
  · by_cases hm : ∀ m, env.files (dir.join (utf8 "matrix.mtx".toList)) = some m → 4 ≤ m.length
    · exact .inl (hrep hm)
    · cases h : env.loadDictionary dir with
      | ok d => exact .inl (reported_ok d)
      | error e =>
        cases e with
        | err k => exact .inl (reported_err k)
        | panic => exact .inr rfl
        | diverge =>
          exfalso
          have hm : ∃ m, env.files (dir.join (utf8 "matrix.mtx".toList)) = some m ∧ m.length < 4 := by
            by_contra hn
            exact hm fun m h => by
              by_contra hlt
              exact hn ⟨m, h, by omega⟩
          cases h1 : env.files (dir.join (utf8 "dict.da".toList)) with
          | none =>
            unfold LoadEnv.loadDictionary LoadEnv.prefixDict at h
            rw [hread _ h1] at h; simp only [bind_error] at h; cases h
          | some da =>
            cases h2 : env.files (dir.join (utf8 "dict.vals".toList)) with
            | none =>
              unfold LoadEnv.loadDictionary LoadEnv.prefixDict at h
              rw [readFile_ok.mpr h1, hread _ h2] at h; simp only [bind_ok, bind_error] at h; cases h
            | some vals =>
              rw [hpanic ⟨⟨da, h1⟩, ⟨vals, h2⟩, hm⟩] at h
              cases h

/-- C102 is violated: a dictionary directory whose matrix is cut off in its header makes the program panic, whatever the other settings are. (Tags with more than four parts: C66. Rows with less
than three columns: C29.) -/
theorem c102_matrix_fails (env : LoadEnv) (dir : Path) (da vals m : List UInt8) (h1 : env.files (dir.join (utf8 "dict.da".toList)) = some da)
    (h2 : env.files (dir.join (utf8 "dict.vals".toList)) = some vals) (h3 : env.files (dir.join (utf8 "matrix.mtx".toList)) = some m) (h : m.length < 4) (user : Option UserDictionaryConfig)
    (mode : Mode) : env.tokenizer ⟨⟨none, some dir⟩, user, mode⟩ = .error .panic := by
  have := (c102_directory_exact env dir).2.1.mpr ⟨⟨da, h1⟩, ⟨vals, h2⟩, m, h3, h⟩
  unfold LoadEnv.tokenizer LoadEnv.loadFromConfig
  dsimp only
  rw [this]; rfl

/-- Three files are enough. -/
example : (⟨⟨false, false, false, false, false⟩, fun _ => .error (.err .io), fun p => if (utf8 "d/matrix.mtx".toList) = p then some [0, 0, 1] else some [], Stored.format, Src.yada, fun _ => none⟩ :
    LoadEnv).tokenizer ⟨⟨none, some (utf8 "d".toList)⟩, none, .normal⟩ = .error .panic :=
  c102_matrix_fails _ (utf8 "d".toList) [] [] [0, 0, 1] (by decide +kernel) (by decide +kernel) (by decide +kernel) (by decide) none .normal

/-- The sample configuration meets the conditions; so does any other without tags. -/
theorem Ac.presentable : Presentable Ac.env.load where
  builtin _ := .inl ⟨_, rfl⟩
  matrix dir data h := by
    have hf : (if dir.join (utf8 "matrix.mtx".toList) = Cf.path "a.json" then some (utf8 Ac.text.toList) else none) = some data := h
    split at hf
    · have : 4 ≤ (utf8 Ac.text.toList).length := by decide +kernel
      rw [Option.some.inj hf] at this
      exact this
    · cases hf
  rows path data rows _ _ h := by cases h

example : Reported (Ac.env.fromFile (Cf.path "a.json")) := by
  refine c102_file_partial Ac.env _ Ac.presentable fun data j v es hd hj hs hc hl e he s hset => ?_
  have hd' : Ac.env.load.files (Cf.path "a.json") = some (utf8 Ac.text.toList) := by decide +kernel
  rw [← Option.some.inj (hd'.symm.trans hd)] at hj
  have hj' : Ac.env.json (utf8 Ac.text.toList) = some Ac.doc := by decide +kernel
  have hj : Ac.env.json (utf8 Ac.text.toList) = some j := parseJsonBytes_iff.mpr hj
  obtain rfl : Ac.doc = j := Option.some.inj (hj'.symm.trans hj)
  have hv : v = Ac.doc.value := (value_iff.mpr ⟨hs, hc⟩).symm
  subst hv
  have hall : ∀ e ∈ [("length".toList, Ac.min2.value), ("uppercase".toList, Json.null)], ∀ s, TokenSetting e.1 e.2 s → ShortTags s := by
    intro e he s hs
    have := tokenFilter_iff.mpr hs
    simp only [List.mem_cons, List.not_mem_nil, or_false] at he
    rcases he with rfl | rfl
    · have h' : readTokenFilter "length".toList Ac.min2.value = some (.length (some 2) none) := rfl
      rw [h'] at this; cases this; trivial
    · have h' : readTokenFilter "uppercase".toList Json.null = some .uppercase := rfl
      rw [h'] at this; cases this; trivial
  refine hall e ?_ s hset
  have : Listed Ac.doc.value "token_filters" [("length".toList, Ac.min2.value), ("uppercase".toList, Json.null)] :=
    .inl ⟨_, get_eq_some.mp rfl, .entry (entry_iff.mpr ⟨rfl, rfl⟩) (.skip (fun kind args h => by cases (entry_iff.mp h).1) (.entry (entry_iff.mpr ⟨rfl, rfl⟩) .nil))⟩
  rw [listed_unique hl this] at he
  exact he

end Verif.Props
