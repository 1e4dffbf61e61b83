import Verif.Proofs.Config
import Verif.Props.Sample
import Mathlib.Data.List.Nodup
/-! Properties of names, configurations and loading: C49-C52. -/
namespace Verif.Props
open Verif.Model Verif.Spec

/-! ### C49 Dictionary kind and mode names round trip -/

/-- C49: the name of a kind is the one that is documented, it is parsed to the kind, and every other string is refused. -/
theorem c49_kind_names : (∀ k : DictionaryKind, k.asStr = (kindName k).toList ∧ DictionaryKind.fromStr k.asStr = .ok k) ∧
    ∀ s : Str, (∀ k, s ≠ (kindName k).toList) → DictionaryKind.fromStr s = .error (.err .dictionaryKindError) := by
  refine ⟨fun k => ⟨asStr_kindName k, fromStr_asStr k⟩, fun s h => ?_⟩
  rcases fromStr_cases s with ⟨k, hk⟩ | h'
  · exact absurd ((fromStr_ok hk).trans (asStr_kindName k)) (h k)
  · exact h'

/-- C49: distinct kinds have distinct names, and the same names are used in JSON: no other string is a kind there. -/
theorem c49_json_names (k : DictionaryKind) (s : Str) :
    (DictionaryKind.de (.str s) = some k ↔ DictionaryKind.fromStr s = .ok k) ∧ DictionaryKind.de k.ser = some k ∧
    (∀ k' : DictionaryKind, k'.asStr = k.asStr → k' = k) := by
  have h1 : ∀ s k, DictionaryKind.fromStr s = .ok k ↔ s = (kindName k).toList := by
    intro s k
    constructor
    · intro h; exact (fromStr_ok h).trans (asStr_kindName k)
    · rintro rfl; rw [← asStr_kindName]; exact fromStr_asStr k
  refine ⟨?_, ?_, ?_⟩
  · rw [h1]
    show DictionaryKind.named s = some k ↔ _
    exact named_iff
  · exact kind_de.mpr (.inl (by rw [← serdeName_kindName]; rfl))
  · intro k' h
    have := fromStr_asStr k'
    rw [h, fromStr_asStr k] at this
    cases this; rfl

/-- C49: the two mode names; `decompose` has the documented penalties. Every other string is refused. -/
theorem c49_mode_names : Mode.fromStr "normal".toList = .ok .normal ∧ Mode.fromStr "decompose".toList = .ok (.decompose ⟨2, 3000, 7, 1700⟩) ∧
    ∀ s : Str, s ≠ "normal".toList → s ≠ "decompose".toList → Mode.fromStr s = .error (.err .modeError) := by
  refine ⟨rfl, rfl, fun s h1 h2 => ?_⟩
  unfold Mode.fromStr
  rw [if_neg h1, if_neg h2]

/-- A string that is no kind: the documented name in capitals. -/
example : (∀ k, "IPADIC".toList ≠ (kindName k).toList) ∧ DictionaryKind.fromStr "IPADIC".toList = .error (.err .dictionaryKindError) ∧
    DictionaryKind.fromStr "ko-dic".toList = .ok .koDic := by
  refine ⟨fun k => ?_, by decide +kernel, by decide +kernel⟩
  cases k <;> decide +kernel

example : "search".toList ≠ "normal".toList ∧ "search".toList ≠ "decompose".toList ∧ Mode.fromStr "search".toList = .error (.err .modeError) := by decide +kernel

/-! ### C50 Dictionary configuration dispatch -/

/-- C50: if a kind is set, the built-in dictionary of this kind is used, whatever the path is: an argument error if it is not compiled in, a not-found error if it cannot be read. -/
theorem c50_kind (env : LoadEnv) (k : DictionaryKind) (path : Option Path) :
    (¬ CompiledIn env.features k → env.loadFromConfig ⟨some k, path⟩ = .error (.err .args)) ∧
    (CompiledIn env.features k → (∀ d, env.builtin k = .ok d → env.loadFromConfig ⟨some k, path⟩ = .ok d) ∧
      (∀ e, env.builtin k = .error (.err e) → env.loadFromConfig ⟨some k, path⟩ = .error (.err .dictionaryNotFound))) := by
  rw [← has_iff, Bool.not_eq_true]
  refine ⟨fun h => by simp [LoadEnv.loadFromConfig, LoadEnv.loadFromKind, h], fun h => ⟨fun d hd => ?_, fun e he => ?_⟩⟩
  · simp [LoadEnv.loadFromConfig, LoadEnv.loadFromKind, h, hd, mapErr]
  · simp [LoadEnv.loadFromConfig, LoadEnv.loadFromKind, h, he, mapErr]

/-- C50: if only a path is set, the dictionary is read from the seven files in that directory, and only from them: it is loaded exactly if all seven exist and can be
decoded, and any other environment with the same seven files gives the same result. Without kind and path there is an argument error. -/
theorem c50_path (env : LoadEnv) :
    env.loadFromConfig ⟨none, none⟩ = .error (.err .args) ∧
    (∀ p, (∀ d, env.loadFromConfig ⟨none, some p⟩ = .ok d ↔ ∃ da vals mtx chr unk idx words,
        env.files (p.join (utf8 "dict.da".toList)) = some da ∧ env.files (p.join (utf8 "dict.vals".toList)) = some vals ∧
        env.files (p.join (utf8 "matrix.mtx".toList)) = some mtx ∧ env.files (p.join (utf8 "char_def.bin".toList)) = some chr ∧
        env.files (p.join (utf8 "unk.bin".toList)) = some unk ∧ env.files (p.join (utf8 "dict.wordsidx".toList)) = some idx ∧
        env.files (p.join (utf8 "dict.words".toList)) = some words ∧
        d.dict = ⟨env.format.view da, vals, true⟩ ∧ ConnMatrix.load mtx = .ok d.costMatrix ∧ CharDefs.load chr = .ok d.charDefinitions ∧
        UnkDict.load unk = .ok d.unknownDictionary ∧ d.wordsIdxData = idx ∧ d.wordsData = words)) ∧
    (∀ p (env' : LoadEnv), env'.format = env.format → (∀ name ∈ ["dict.da", "dict.vals", "matrix.mtx", "char_def.bin", "unk.bin", "dict.wordsidx", "dict.words"],
        env'.files (p.join (utf8 name.toList)) = env.files (p.join (utf8 name.toList))) →
      env'.loadFromConfig ⟨none, some p⟩ = env.loadFromConfig ⟨none, some p⟩) := by
  refine ⟨rfl, fun p d => ⟨fun h => ?_, ?_⟩, fun p env' hf h => ?_⟩
  · have hread : ∀ {q : Path} {b : List UInt8}, env.readFile q = .ok b → env.files q = some b := by
      intro q b h
      unfold LoadEnv.readFile at h
      split at h
      · rename_i x hx; cases h; exact hx
      · cases h
    have h : env.loadDictionary p = .ok d := h
    unfold LoadEnv.loadDictionary at h
    obtain ⟨dict, h1, h⟩ := bind_eq_ok.mp h
    obtain ⟨cm, h2, h⟩ := bind_eq_ok.mp h
    obtain ⟨cd, h3, h⟩ := bind_eq_ok.mp h
    obtain ⟨ud, h4, h⟩ := bind_eq_ok.mp h
    obtain ⟨wi, h5, h⟩ := bind_eq_ok.mp h
    obtain ⟨wd, h6, h⟩ := bind_eq_ok.mp h
    cases h
    unfold LoadEnv.prefixDict at h1
    obtain ⟨da, h11, h1⟩ := bind_eq_ok.mp h1
    obtain ⟨vals, h12, h1⟩ := bind_eq_ok.mp h1
    cases h1
    obtain ⟨mtx, h21, h22⟩ := bind_eq_ok.mp h2
    obtain ⟨chr, h31, h32⟩ := bind_eq_ok.mp h3
    obtain ⟨unk, h41, h42⟩ := bind_eq_ok.mp h4
    exact ⟨da, vals, mtx, chr, unk, wi, wd, hread h11, hread h12, hread h21, hread h31, hread h41, hread h5, hread h6, rfl, h22, h32, h42, rfl, rfl⟩
  · rintro ⟨da, vals, mtx, chr, unk, idx, words, e1, e2, e3, e4, e5, e6, e7, f1, f2, f3, f4, f5, f6⟩
    show env.loadDictionary p = .ok d
    unfold LoadEnv.loadDictionary LoadEnv.prefixDict LoadEnv.connection LoadEnv.charDef LoadEnv.unknownDict LoadEnv.wordsIdxData LoadEnv.wordsData LoadEnv.readFile
    rw [e1, e2, e3, e4, e5, e6, e7]
    simp only [bind_ok, pure_eq_ok, f2, f3, f4]
    cases d
    subst f1 f5 f6
    rfl
  · simp only [List.mem_cons, List.not_mem_nil, or_false, forall_eq_or_imp, forall_eq] at h
    obtain ⟨e1, e2, e3, e4, e5, e6, e7⟩ := h
    show env'.loadDictionary p = env.loadDictionary p
    unfold LoadEnv.loadDictionary LoadEnv.prefixDict LoadEnv.connection LoadEnv.charDef LoadEnv.unknownDict LoadEnv.wordsIdxData LoadEnv.wordsData LoadEnv.readFile
    rw [e1, e2, e3, e4, e5, e6, e7, hf]

/-- C50: user dictionaries. A file with the extension `csv` is built with the rules of the kind, which must be set; a build error is reported as such. A file with the extension `bin` is loaded,
whatever the kind is. Any other path is an argument error. -/
theorem c50_user (env : LoadEnv) (p : Path) (kind : Option DictionaryKind) :
    (HasExtension p (utf8 "csv".toList) → (kind = none → env.loadUserFromConfig ⟨p, kind⟩ = .error (.err .args)) ∧
      (∀ k, kind = some k → (∀ u, env.buildUserDict k p = .ok u → env.loadUserFromConfig ⟨p, kind⟩ = .ok u) ∧
        (∀ e, env.buildUserDict k p = .error (.err e) → env.loadUserFromConfig ⟨p, kind⟩ = .error (.err .dictionaryBuildError)))) ∧
    (HasExtension p (utf8 "bin".toList) → (env.files p = none → env.loadUserFromConfig ⟨p, kind⟩ = .error (.err .io)) ∧
      (∀ data, env.files p = some data → env.loadUserFromConfig ⟨p, kind⟩ = UserDictionary.load env.format data)) ∧
    (¬ HasExtension p (utf8 "csv".toList) → ¬ HasExtension p (utf8 "bin".toList) → env.loadUserFromConfig ⟨p, kind⟩ = .error (.err .args)) := by
  have hne1 : utf8 "csv".toList ≠ [] := by decide
  have hne2 : utf8 "bin".toList ≠ [] := by decide
  rw [← extension_iff hne1, ← extension_iff hne2]
  unfold LoadEnv.loadUserFromConfig
  refine ⟨fun h => ?_, fun h => ?_, fun h1 h2 => ?_⟩
  · rw [h]
    dsimp only
    rw [if_pos (decodeUtf8_utf8 _)]
    refine ⟨fun hk => by rw [hk], fun k hk => ⟨fun u hu => ?_, fun e he => ?_⟩⟩
    · rw [hk]; dsimp only; unfold LoadEnv.loadUserFromCsv; rw [hu]; rfl
    · rw [hk]; dsimp only; unfold LoadEnv.loadUserFromCsv; rw [he]; rfl
  · rw [h]
    dsimp only
    rw [if_neg (by rw [decodeUtf8_utf8]; decide), if_pos (decodeUtf8_utf8 _)]
    unfold LoadEnv.loadUserFromBin LoadEnv.readFile
    exact ⟨fun hf => by rw [hf]; rfl, fun d hf => by rw [hf]; rfl⟩
  · split
    · rename_i ext hext
      dsimp only at hext
      rw [if_neg, if_neg]
      · rw [decodeUtf8_eq_some]; rintro rfl; exact h2 hext
      · rw [decodeUtf8_eq_some]; rintro rfl; exact h1 hext
    · rfl

/-- C50: a tokenizer is made of the configured dictionary, user dictionary and mode; the first error is reported. -/
theorem c50_tokenizer (env : LoadEnv) (c : TokenizerConfig) (t : Tokenizer) : env.tokenizer c = .ok t ↔
    ∃ d u, env.loadFromConfig c.dictionary = .ok d ∧
      ((c.userDictionary = none ∧ u = none) ∨ ∃ uc ud, c.userDictionary = some uc ∧ env.loadUserFromConfig uc = .ok ud ∧ u = some ud) ∧
      t = ⟨d, u, c.mode⟩ := by
  unfold LoadEnv.tokenizer
  constructor
  · intro h
    obtain ⟨d, hd, h⟩ := bind_eq_ok.mp h
    obtain ⟨u, hu, h⟩ := bind_eq_ok.mp h
    cases h
    refine ⟨d, u, hd, ?_, rfl⟩
    cases hc : c.userDictionary with
    | none => rw [hc] at hu; cases hu; exact .inl ⟨rfl, rfl⟩
    | some uc =>
      rw [hc] at hu
      obtain ⟨ud, hud, hu⟩ := bind_eq_ok.mp hu
      cases hu
      exact .inr ⟨uc, ud, rfl, hud, rfl⟩
  · rintro ⟨d, u, hd, hu, rfl⟩
    rw [hd, bind_ok]
    rcases hu with ⟨hc, rfl⟩ | ⟨uc, ud, hc, hud, rfl⟩
    · rw [hc]; rfl
    · rw [hc]; simp only [LoadEnv.loadUser, hud, bind_ok]; rfl

namespace Cf
def path (s : String) : Path := utf8 s.toList

/-- An environment with IPADIC compiled in and no files. -/
def env : LoadEnv := ⟨⟨true, false, false, false, false⟩, fun _ => .ok Sample.dictionary, fun _ => none, ⟨fun _ => [], fun _ => ⟨[]⟩⟩, fun _ => none, fun _ => none⟩
end Cf

example : Cf.env.loadFromConfig ⟨some .ipadic, some (Cf.path "/nowhere")⟩ = .ok Sample.dictionary ∧
    (∃ e, Cf.env.loadFromConfig ⟨some .unidic, some (Cf.path "/nowhere")⟩ = .error e) := ⟨rfl, _, rfl⟩

/-- Paths with and without the extension: directories, several dots, trailing slashes; hidden files have no extension. -/
example : HasExtension (Cf.path "dir.d/user.dic.csv/.//") (utf8 "csv".toList) ∧ ¬ HasExtension (Cf.path "dir/.csv") (utf8 "csv".toList) ∧
    ¬ HasExtension (Cf.path "user.csv/..") (utf8 "csv".toList) ∧ ¬ HasExtension (Cf.path "user.CSV") (utf8 "csv".toList) := by
  have hne1 : utf8 "csv".toList ≠ [] := by decide
  simp only [← extension_iff hne1]
  decide +kernel

/-! ### C51 Tokenizer configuration JSON -/

/-- C51: an object is accepted with result `c` exactly if its members say so: no unknown member, none twice, a dictionary; the mode is normal if it is missing. -/
theorem c51_members (kvs : List (Str × Json)) (c : TokenizerConfig) : TokenizerConfig.de (.obj kvs) = some c ↔ ConfigMembers kvs c := config_de

/-- C51: the order of the members does not matter. -/
theorem c51_order (kvs kvs' : List (Str × Json)) (h : kvs.Perm kvs') : TokenizerConfig.de (.obj kvs) = TokenizerConfig.de (.obj kvs') := by
  have key : ∀ {a b : List (Str × Json)} {c : TokenizerConfig}, a.Perm b → ConfigMembers a c → ConfigMembers b c := by
    intro a b c hp hc
    have hk := hp.map (·.1)
    refine ⟨hk.nodup_iff.mp hc.nodup, fun k hk' => hc.known k (hk.mem_iff.mpr hk'), ?_, ?_, ?_⟩
    · obtain ⟨v, hm, hv⟩ := hc.dictionary; exact ⟨v, hp.mem_iff.mp hm, hv⟩
    · rcases hc.user with ⟨hn, hv⟩ | ⟨v, u, hm, hv⟩
      · exact .inl ⟨fun hh => hn (hk.mem_iff.mpr hh), hv⟩
      · exact .inr ⟨v, u, hp.mem_iff.mp hm, hv⟩
    · rcases hc.mode with ⟨hn, hv⟩ | ⟨v, hm, hv⟩
      · exact .inl ⟨fun hh => hn (hk.mem_iff.mpr hh), hv⟩
      · exact .inr ⟨v, hp.mem_iff.mp hm, hv⟩
  apply Option.ext
  intro c
  rw [config_de, config_de]
  exact ⟨key h, key h.symm⟩

/-- C51: rejected are an unknown member, a repeated member, a missing dictionary, a null user dictionary, and the mode `"decompose"` without penalties (which the command line accepts). -/
theorem c51_rejected (kvs : List (Str × Json)) :
    ((∃ k ∈ kvs.map (·.1), k ≠ "dictionary".toList ∧ k ≠ "user_dictionary".toList ∧ k ≠ "mode".toList) → TokenizerConfig.de (.obj kvs) = none) ∧
    (¬ (kvs.map (·.1)).Nodup → TokenizerConfig.de (.obj kvs) = none) ∧
    ("dictionary".toList ∉ kvs.map (·.1) → TokenizerConfig.de (.obj kvs) = none) ∧
    (("user_dictionary".toList, Json.null) ∈ kvs → TokenizerConfig.de (.obj kvs) = none) ∧
    (("mode".toList, Json.str "decompose".toList) ∈ kvs → TokenizerConfig.de (.obj kvs) = none) := by
  have huniq : ∀ {k : Str} {v w : Json}, (kvs.map (·.1)).Nodup → (k, v) ∈ kvs → (k, w) ∈ kvs → v = w := by
    intro k v w hnd h1 h2
    have := List.inj_on_of_nodup_map hnd h1 h2 rfl
    cases this; rfl
  have hno : (∀ c, ¬ ConfigMembers kvs c) → TokenizerConfig.de (.obj kvs) = none := by
    intro h
    rw [Option.eq_none_iff_forall_ne_some]
    intro c hc
    exact h c (config_de.mp hc)
  refine ⟨fun ⟨k, hk, h1, h2, h3⟩ => hno fun c hc => ?_, fun h => hno fun c hc => h hc.nodup, fun h => hno fun c hc => ?_, fun h => hno fun c hc => ?_, fun h => hno fun c hc => ?_⟩
  · rcases hc.known k hk with h | h | h
    · exact h1 h
    · exact h2 h
    · exact h3 h
  · obtain ⟨v, hv, _⟩ := hc.dictionary
    exact h (List.mem_map.mpr ⟨_, hv, rfl⟩)
  · rcases hc.user with ⟨hn, _⟩ | ⟨v, u, hm, hv, _⟩
    · exact hn (List.mem_map.mpr ⟨_, h, rfl⟩)
    · cases huniq hc.nodup h hm
      rcases hv with ⟨_, h, _⟩ | ⟨_, _, h, _⟩ <;> cases h
  · rcases hc.mode with ⟨hn, _⟩ | ⟨v, hm, hv⟩
    · exact hn (List.mem_map.mpr ⟨_, h, rfl⟩)
    · cases huniq hc.nodup h hm
      rw [← mode_de] at hv
      have h2 : Mode.de (.str "decompose".toList) = none := by decide +kernel
      rw [h2] at hv; cases hv

/-- C51: the other accepted form, an array of one to three elements in the order of the members, with null for no user dictionary. Anything else is rejected. -/
theorem c51_other (c : TokenizerConfig) :
    (∀ xs, TokenizerConfig.de (.arr xs) = some c ↔
      (∃ d, xs = [d] ∧ DictionaryValue d c.dictionary ∧ c.userDictionary = none ∧ c.mode = .normal) ∨
      (∃ d u, xs = [d, u] ∧ DictionaryValue d c.dictionary ∧ OptValue UserValue (some u) c.userDictionary ∧ c.mode = .normal) ∨
      (∃ d u m, xs = [d, u, m] ∧ DictionaryValue d c.dictionary ∧ OptValue UserValue (some u) c.userDictionary ∧ ModeValue m c.mode)) ∧
    (∀ j, (∀ kvs, j ≠ .obj kvs) → (∀ xs, j ≠ .arr xs) → TokenizerConfig.de j = none) := by
  have hopt : ∀ {u : Json} {o : Option UserDictionaryConfig}, De.option UserDictionaryConfig.de u = some o ↔ OptValue UserValue (some u) o := by
    intro u o
    exact optional_iff (d := UserDictionaryConfig.de) (v := some u) fun _ _ => user_de
  refine ⟨fun xs => ?_, fun j h1 h2 => ?_⟩
  · show TokenizerConfig.visitSeq xs = some c ↔ _
    match xs with
    | [] => simp [TokenizerConfig.visitSeq]
    | [d] =>
      simp only [TokenizerConfig.visitSeq, Option.bind_eq_bind, Option.pure_def, Option.bind_eq_some_iff, dictionary_de, Option.some.injEq]
      constructor
      · rintro ⟨a, ha, rfl⟩; exact .inl ⟨d, rfl, ha, rfl, rfl⟩
      · rintro (⟨d', h, ha, hu, hm⟩ | ⟨_, _, h, _⟩ | ⟨_, _, _, h, _⟩)
        · cases h; cases c; subst hu hm; exact ⟨_, ha, rfl⟩
        · cases h
        · cases h
    | [d, u] =>
      simp only [TokenizerConfig.visitSeq, Option.bind_eq_bind, Option.pure_def, Option.bind_eq_some_iff, dictionary_de, hopt, Option.some.injEq]
      constructor
      · rintro ⟨a, ha, b, hb, rfl⟩; exact .inr (.inl ⟨d, u, rfl, ha, hb, rfl⟩)
      · rintro (⟨_, h, _⟩ | ⟨_, _, h, ha, hb, hm⟩ | ⟨_, _, _, h, _⟩)
        · cases h
        · cases h; cases c; subst hm; exact ⟨_, ha, _, hb, rfl⟩
        · cases h
    | [d, u, m] =>
      simp only [TokenizerConfig.visitSeq, Option.bind_eq_bind, Option.pure_def, Option.bind_eq_some_iff, dictionary_de, hopt, mode_de, Option.some.injEq]
      constructor
      · rintro ⟨a, ha, b, hb, e, he, rfl⟩; exact .inr (.inr ⟨d, u, m, rfl, ha, hb, he⟩)
      · rintro (⟨_, h, _⟩ | ⟨_, _, h, _⟩ | ⟨_, _, _, h, ha, hb, hm⟩)
        · cases h
        · cases h
        · cases h; exact ⟨_, ha, _, hb, _, hm, rfl⟩
    | _ :: _ :: _ :: _ :: _ => simp [TokenizerConfig.visitSeq]
  · cases j with
    | obj kvs => exact absurd rfl (h1 kvs)
    | arr xs => exact absurd rfl (h2 xs)
    | _ => rfl

namespace Cf
/-- `{"mode": {"decompose": {...}}, "dictionary": {"kind": "ipadic", "comment": 1}}`. -/
def members : List (Str × Json) :=
  [("mode".toList, .obj [("decompose".toList, .arr [.int 2, .int (-1), .int 7, .int 5])]),
   ("dictionary".toList, .obj [("kind".toList, .str "ipadic".toList), ("comment".toList, .int 1)])]
def config : TokenizerConfig := ⟨⟨some .ipadic, none⟩, none, .decompose ⟨2, -1, 7, 5⟩⟩
end Cf

example : TokenizerConfig.de (.obj Cf.members) = some Cf.config ∧ ConfigMembers Cf.members Cf.config ∧
    TokenizerConfig.de (.obj Cf.members.reverse) = some Cf.config ∧ TokenizerConfig.de (.obj (Cf.members ++ Cf.members)) = none ∧
    TokenizerConfig.de (.arr [.obj [("kind".toList, .str "ipadic".toList)], .null, .str "normal".toList]) = some ⟨⟨some .ipadic, none⟩, none, .normal⟩ := by
  have h : TokenizerConfig.de (.obj Cf.members) = some Cf.config := by decide +kernel
  exact ⟨h, config_de.mp h, by decide +kernel, by decide +kernel, by decide +kernel⟩

/-! ### C52 Tokenizer configuration survives serialization -/

/-- C52 (partial: only with a user dictionary; `c52_fails` shows that without one the claim is false). The serialized form of a configuration is read back as the configuration; it exists if the
paths are valid UTF-8. -/
theorem c52_roundtrip_partial (c : TokenizerConfig) (u : UserDictionaryConfig) (hu : c.userDictionary = some u)
    (hsize : ∀ p, c.mode = .decompose p → p.kanjiThreshold < 2 ^ 64 ∧ p.otherThreshold < 2 ^ 64) :
    (∀ j, c.ser = some j → TokenizerConfig.de j = some c) ∧
    ((∀ p, c.dictionary.path = some p → ∃ s, p = utf8 s) → (∃ s, u.path = utf8 s) → ∃ j, c.ser = some j) := by
  refine ⟨fun j h => ?_, fun hp hup => ?_⟩
  · unfold TokenizerConfig.ser at h
    rw [hu] at h
    simp only [Option.bind_eq_bind, Option.pure_def, Option.bind_eq_some_iff, Option.some.injEq, serOption] at h
    obtain ⟨d, hd, v, hv, rfl⟩ := h
    rw [config_de]
    refine ⟨?_, ?_, ⟨d, by simp, dictionary_ser hd⟩, .inr ⟨v, u, by simp, user_ser hv, hu⟩, .inr ⟨_, by simp; rfl, ?_⟩⟩
    · simp only [List.map_cons, List.map_nil]; decide
    · simp
    · cases hm : c.mode with
      | normal => exact .inl rfl
      | decompose p => exact ⟨_, rfl, penalty_ser (hsize p hm).1 (hsize p hm).2⟩
  · obtain ⟨s, hs⟩ := hup
    obtain ⟨j1, h1⟩ := ser_path_total hs
    obtain ⟨j2, h2⟩ : ∃ j, serOption Path.ser c.dictionary.path = some j := by
      cases hd : c.dictionary.path with
      | none => exact ⟨_, rfl⟩
      | some p => obtain ⟨s, hs⟩ := hp p hd; exact ser_path_total hs
    obtain ⟨j3, h3⟩ : ∃ j, serOption (fun k : DictionaryKind => some k.ser) c.dictionary.kind = some j := by
      cases c.dictionary.kind <;> exact ⟨_, rfl⟩
    obtain ⟨j4, h4⟩ : ∃ j, serOption (fun k : DictionaryKind => some k.ser) u.kind = some j := by
      cases u.kind <;> exact ⟨_, rfl⟩
    have h5 : c.dictionary.ser = some (.obj [("kind".toList, j3), ("path".toList, j2)]) := by
      unfold DictionaryConfig.ser; rw [h3, h2]; rfl
    have h6 : u.ser = some (.obj [("path".toList, j1), ("kind".toList, j4)]) := by
      unfold UserDictionaryConfig.ser; rw [h4, h1]; rfl
    unfold TokenizerConfig.ser
    rw [hu, h5, serOption, h6]
    exact ⟨_, rfl⟩

/-- C52 is false of the code without a user dictionary: whatever the rest of the configuration is, its serialized form has a null `user_dictionary`, which is rejected. -/
theorem c52_fails (c : TokenizerConfig) (hu : c.userDictionary = none) (j : Json) (h : c.ser = some j) : TokenizerConfig.de j = none := by
  unfold TokenizerConfig.ser at h
  rw [hu] at h
  simp only [Option.bind_eq_bind, Option.pure_def, Option.bind_eq_some_iff, Option.some.injEq, serOption] at h
  obtain ⟨d, hd, v, rfl, rfl⟩ := h
  exact (c51_rejected _).2.2.2.1 (by simp)

/-- C52, exactly: a configuration survives serialization if and only if it has a user dictionary and all its paths are valid UTF-8. -/
theorem c52_exact (c : TokenizerConfig) (hsize : ∀ p, c.mode = .decompose p → p.kanjiThreshold < 2 ^ 64 ∧ p.otherThreshold < 2 ^ 64) :
    (∃ j, c.ser = some j ∧ TokenizerConfig.de j = some c) ↔
      ∃ u, c.userDictionary = some u ∧ (∃ s, u.path = utf8 s) ∧ ∀ p, c.dictionary.path = some p → ∃ s, p = utf8 s := by
  constructor
  · rintro ⟨j, h1, h2⟩
    cases hu : c.userDictionary with
    | none => rw [c52_fails c hu j h1] at h2; cases h2
    | some u =>
      unfold TokenizerConfig.ser at h1
      rw [hu] at h1
      simp only [Option.bind_eq_bind, Option.pure_def, Option.bind_eq_some_iff, Option.some.injEq, serOption] at h1
      obtain ⟨d, hd, v, hv, -⟩ := h1
      unfold DictionaryConfig.ser at hd
      unfold UserDictionaryConfig.ser at hv
      simp only [Option.bind_eq_bind, Option.pure_def, Option.bind_eq_some_iff, Option.some.injEq] at hd hv
      obtain ⟨k, -, q, hq, -⟩ := hd
      obtain ⟨q', hq', -⟩ := hv
      refine ⟨u, rfl, ?_, fun p hp => ?_⟩
      · obtain ⟨s, -, hs⟩ := path_ser hq'
        exact ⟨s, hs⟩
      · rw [hp] at hq
        obtain ⟨s, -, hs⟩ := path_ser (p := p) hq
        exact ⟨s, hs⟩
  · rintro ⟨u, hu, h1, h2⟩
    have h := c52_roundtrip_partial c u hu hsize
    obtain ⟨j, hj⟩ := h.2 h2 h1
    exact ⟨j, hj, h.1 j hj⟩

/-- A path that is not UTF-8 cannot be serialized. -/
example : ¬ ∃ j, ({ Cf.config with userDictionary := some ⟨[0xFF], none⟩ } : TokenizerConfig).ser = some j ∧
    TokenizerConfig.de j = some { Cf.config with userDictionary := some ⟨[0xFF], none⟩ } := by
  rw [c52_exact _ (by intro p hp; cases hp; decide)]
  rintro ⟨u, hu, ⟨s, hs⟩, -⟩
  cases hu
  have : decodeUtf8 [0xFF] = some s := decodeUtf8_eq_some.mpr hs
  revert this
  have h : decodeUtf8 [0xFF] = none := by decide +kernel
  rw [h]
  simp

example : Cf.config.ser ≠ none ∧ (∃ j, Cf.config.ser = some j ∧ TokenizerConfig.de j = none) ∧
    ∃ j, ({ Cf.config with userDictionary := some ⟨Cf.path "a.csv", some .ipadic⟩ } : TokenizerConfig).ser = some j ∧
      TokenizerConfig.de j = some { Cf.config with userDictionary := some ⟨Cf.path "a.csv", some .ipadic⟩ } := by
  obtain ⟨j, hj⟩ : ∃ j, Cf.config.ser = some j := ⟨_, rfl⟩
  refine ⟨by rw [hj]; simp, ⟨j, hj, c52_fails _ rfl _ hj⟩, ?_⟩
  have h := c52_roundtrip_partial { Cf.config with userDictionary := some ⟨Cf.path "a.csv", some .ipadic⟩ } ⟨Cf.path "a.csv", some .ipadic⟩ rfl
    (by intro p hp; cases hp; decide)
  obtain ⟨j, hj⟩ := h.2 (by intro p hp; cases hp) ⟨_, rfl⟩
  exact ⟨j, hj, h.1 j hj⟩

end Verif.Props
