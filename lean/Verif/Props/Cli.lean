import Verif.Proofs.Cli
import Verif.Spec.BuildDir
import Verif.Props.TokenFilter
import Verif.Props.Storage
import Verif.Props.UserDict
import Verif.Props.Config
import Mathlib.Data.List.Nodup
/-! Properties of the command line tool: C53, C57. -/
namespace Verif.Props
open Verif.Model Verif.Spec

/-! ### C53 CLI output formats reproduce the tokens -/

/-- C53: the MeCab output is one line per token and `EOS`. -/
theorem c53_mecab (pretty : Json → Str) (tokens : List FToken) : Format.output .mecab pretty tokens = (mecabText tokens, .ok ()) := mecabOutput_info tokens

/-- C53: from the MeCab output the texts and the comma-joined details of the tokens can be recovered, if no text has a tab and no detail a line end. -/
theorem c53_mecab_unambiguous (pretty : Json → Str) (ts us : List FToken)
    (ht : ∀ t ∈ ts, '\t' ∉ t.text ∧ ∀ d ∈ t.details, '\n' ∉ d) (hu : ∀ t ∈ us, '\t' ∉ t.text ∧ ∀ d ∈ t.details, '\n' ∉ d)
    (h : (Format.output .mecab pretty ts).1 = (Format.output .mecab pretty us).1) :
    ts.map (fun t => (t.text, ",".toList.intercalate t.details)) = us.map (fun t => (t.text, ",".toList.intercalate t.details)) := by
  rw [c53_mecab, c53_mecab] at h
  exact mecab_injective ht hu h

/-- C53 (partial: only for at least one token, see `c53_wakati_empty_fails`): the wakati output is the texts separated by single spaces and a line end. -/
theorem c53_wakati_partial (pretty : Json → Str) (tokens : List FToken) (h : tokens ≠ []) : Format.output .wakati pretty tokens = (wakatiText tokens, .ok ()) :=
  wakatiOutput_info h

/-- C53 is false of the code for an empty token list, as for an empty line: nothing is printed, not even the line end. So the lines of the output do not correspond to the lines of the input. -/
theorem c53_wakati_empty_fails (pretty : Json → Str) : Format.output .wakati pretty [] = ([], .ok ()) ∧ wakatiText [] = "\n".toList := ⟨rfl, rfl⟩

/-- C53, exactly: `wakati` prints the line of the tokens if and only if there are tokens. -/
theorem c53_wakati_exact (pretty : Json → Str) (tokens : List FToken) : Format.output .wakati pretty tokens = (wakatiText tokens, .ok ()) ↔ tokens ≠ [] := by
  refine ⟨?_, c53_wakati_partial pretty tokens⟩
  rintro h rfl
  rw [(c53_wakati_empty_fails pretty).1, (c53_wakati_empty_fails pretty).2] at h
  simp at h

/-- C53: the JSON output is one document with all tokens, each with its text, details, byte range and word id. -/
theorem c53_json (pretty : Json → Str) (tokens : List FToken) : ∃ docs, Format.output .json pretty tokens = (pretty (.arr docs) ++ "\n".toList, .ok ()) ∧
    List.Forall₂ (fun (t : FToken) doc => doc.get "text".toList = some (.str t.text) ∧ doc.get "details".toList = some (.arr (t.details.map .str)) ∧
      doc.get "byte_start".toList = some (.int t.byteStart) ∧ doc.get "byte_end".toList = some (.int t.byteEnd) ∧
      doc.get "word_id".toList = some (.arr [.int t.wordId.id.toNat, .bool t.wordId.sys])) tokens docs := by
  refine ⟨tokens.map FToken.info, rfl, ?_⟩
  induction tokens with
  | nil => exact .nil
  | cons t ts ih => exact .cons ⟨rfl, rfl, rfl, rfl, rfl⟩ ih

/-- C53: the lines of the input are handled one by one, each without the white space at its ends, and what is printed is the outputs of the lines in order. The first line that is not UTF-8 or cannot be analyzed ends the run with its
error, after the output of the lines before it. Every input has such lines. -/
theorem c53_session (analyze : Str → R (List FToken)) (format : Format) (pretty : Json → Str) (input : List UInt8) :
    (∃ ls, Lines 0x0A input ls) ∧ ∀ pre rest, Lines 0x0A input (pre ++ rest) →
    ∀ outs, List.Forall₂ (fun l o => ∃ text t tokens, l = utf8 text ∧ Trimmed text t ∧ analyze t = .ok tokens ∧ format.output pretty tokens = (o, .ok ())) pre outs →
    (rest = [] → cliLoop analyze format pretty (readLines input) = (outs.flatten, .ok ())) ∧
    (∀ l post, rest = l :: post → (∀ text, l ≠ utf8 text) → cliLoop analyze format pretty (readLines input) = (outs.flatten, .error (.err .io))) ∧
    (∀ l post text t e, rest = l :: post → l = utf8 text → Trimmed text t → analyze t = .error e →
      cliLoop analyze format pretty (readLines input) = (outs.flatten, .error e)) := by
  refine ⟨lines_exists input, fun pre rest hl outs ho => ?_⟩
  have ho' : List.Forall₂ (fun l o => ∃ text tokens, l = utf8 text ∧ analyze (trim text) = .ok tokens ∧ format.output pretty tokens = (o, .ok ())) pre outs := by
    refine ho.imp ?_
    rintro l o ⟨text, t, tokens, h1, h2, h3, h4⟩
    exact ⟨text, tokens, h1, by rw [trimmed_unique (trim_trimmed text) h2]; exact h3, h4⟩
  rw [readLines_lines hl, cliLoop_append ho']
  refine ⟨?_, ?_, ?_⟩
  · rintro rfl; simp [cliLoop]
  · rintro l post rfl hn
    have : decodeUtf8 l = none := by
      rw [Option.eq_none_iff_forall_ne_some]
      intro s hs
      exact hn s (decodeUtf8_eq_some.mp hs)
    simp [cliLoop, this]
  · rintro l post text t e rfl rfl h2 h3
    rw [trimmed_unique h2 (trim_trimmed text)] at h3
    simp [cliLoop, decodeUtf8_utf8, h3]

/-- C53: the format names; any other is an argument error. -/
theorem c53_formats : Format.fromStr "mecab".toList = .ok .mecab ∧ Format.fromStr "wakati".toList = .ok .wakati ∧ Format.fromStr "json".toList = .ok .json ∧
    ∀ s : Str, s ≠ "mecab".toList → s ≠ "wakati".toList → s ≠ "json".toList → Format.fromStr s = .error (.err .args) := by
  refine ⟨by decide +kernel, by decide +kernel, by decide +kernel, fun s h1 h2 h3 => ?_⟩
  unfold Format.fromStr
  rw [if_neg h1, if_neg h2, if_neg h3]

/-- C53: `list` prints the names of the compiled-in dictionaries, one per line and in a fixed order: a name is printed exactly if the dictionary is there, and each is accepted as a dictionary kind. -/
theorem c53_list (f : Features) : ∃ kinds : List DictionaryKind, cliList f = (kinds.flatMap fun k => (kindName k).toList ++ "\n".toList, .ok ()) ∧
    kinds.Sublist [.ipadic, .ipadicNeologd, .unidic, .koDic, .ccCedict] ∧
    kinds.Nodup ∧ (∀ k, k ∈ kinds ↔ CompiledIn f k) ∧ ∀ k ∈ kinds, DictionaryKind.fromStr (kindName k).toList = .ok k := by
  refine ⟨DictionaryKind.containedVariants f, ?_, List.filter_sublist, ?_, ?_, ?_⟩
  · unfold cliList
    generalize DictionaryKind.containedVariants f = ks
    induction ks with
    | nil => rfl
    | cons k ks ih => rw [List.foldr_cons, ih, println, then_ok, asStr_kindName]; simp
  · unfold DictionaryKind.containedVariants
    exact List.Nodup.filter _ (by decide)
  · intro k
    unfold DictionaryKind.containedVariants DictionaryKind.variants
    rw [List.mem_filter]
    rw [← has_iff]
    cases k <;> simp
  · intro k _
    rw [← asStr_kindName]; exact fromStr_asStr k

example : mecabText Tf.tokens ≠ [] ∧ (∀ t ∈ Tf.tokens, '\t' ∉ t.text ∧ ∀ d ∈ t.details, '\n' ∉ d) ∧
    wakatiText Tf.tokens = "東京 駅 まで x\n".toList ∧ mecabText [Tf.tok "x" 0 1 0 ["UNK", "*"]] = "x\tUNK,*\nEOS\n".toList := by decide +kernel

/-- Two lines and a line that is not UTF-8. -/
example : Lines 0x0A (utf8 " a\n".toList ++ utf8 "\n".toList ++ [0xFF]) [utf8 " a\n".toList, utf8 "\n".toList, [0xFF]] ∧ Trimmed " a\n".toList "a".toList ∧
    cliLoop (fun s => .ok [Tf.tok (String.ofList s) 0 1 0 ["UNK"]]) .wakati (fun _ => []) (readLines (utf8 " a\n".toList ++ utf8 "\n".toList)) = ("a\n\n".toList, .ok ()) ∧
    (∀ text, [0xFF] ≠ utf8 text) := by
  refine ⟨.cons (l := [0x20, 0x61]) (by decide) (.cons (l := []) (by decide) (.last (by decide) (by decide))),
    trim_iff.mp (by decide +kernel), by decide +kernel, ?_⟩
  intro text h
  have := decodeUtf8_utf8 text
  rw [← h] at this
  have h2 : decodeUtf8 [0xFF] = none := by decide +kernel
  rw [h2] at this
  cases this

/-! ### C57 User dictionaries built on the command line can be loaded -/

/-- C57: where a file in a directory is: after the directory and a slash, which is not doubled; the empty path stands for the current directory. -/
theorem c57_in_directory (dir : Path) (name : String) :
    (dir = [] → inDir dir name = utf8 name.toList) ∧ (∀ d, dir = d ++ utf8 "/".toList → inDir dir name = d ++ utf8 "/".toList ++ utf8 name.toList) ∧
    (dir ≠ [] → (∀ d, dir ≠ d ++ utf8 "/".toList) → inDir dir name = dir ++ utf8 "/".toList ++ utf8 name.toList) := by
  have hs : utf8 "/".toList = [slash] := by decide
  rw [hs]
  unfold inDir Path.join
  refine ⟨?_, ?_, ?_⟩
  · rintro rfl; rfl
  · rintro d rfl; simp
  · intro h1 h2
    rw [List.getLast?_eq_some_getLast h1]
    have : dir.getLast h1 ≠ slash := fun e => h2 dir.dropLast (by rw [← e, List.dropLast_concat_getLast])
    simp [this]

example : inDir (utf8 "out".toList) "dict.da" = utf8 "out/dict.da".toList ∧ inDir (utf8 "out/".toList) "dict.da" = utf8 "out/dict.da".toList := by decide +kernel

/-- C57: for a source file with a name, the output is in the destination directory and has the extension `bin` (which replaces the extension of the source); so it is loaded as a compiled
dictionary. A source path without file name is an I/O error. -/
theorem c57_output_file (src dest : Path) :
    (∀ dir stem ext trail, src = dir ++ (stem ++ 0x2E :: ext) ++ trail → (dir = [] ∨ ∃ d, dir = d ++ [0x2F]) → stem ≠ [] → ext ≠ [] → 0x2F ∉ stem → 0x2F ∉ ext → 0x2E ∉ ext → Trailing trail →
      buildOutputFile src dest = .ok (dest.join (stem ++ 0x2E :: utf8 "bin".toList))) ∧
    (∀ out, buildOutputFile src dest = .ok out → HasExtension out (utf8 "bin".toList) ∧ ∃ name, out = dest.join name ∧ 0x2F ∉ name) ∧
    (src.fileName = none → buildOutputFile src dest = .error (.err .io)) ∧ (src.fileName ≠ none → ∃ out, buildOutputFile src dest = .ok out) := by
  have hbin1 : (0x2F : UInt8) ∉ utf8 "bin".toList := by decide
  have hbin2 : (0x2E : UInt8) ∉ utf8 "bin".toList := by decide
  have hset : ∀ f : Path, src.fileName = some f → ∃ dir, dest.join f = dir ++ f ∧ (dir = [] ∨ ∃ d, dir = d ++ [slash]) ∧
      (dest.join f).setExtension (utf8 "bin".toList) = dir ++ ((rsplitAtDot f).1 ++ dot :: utf8 "bin".toList) ∧
      (∀ g, dest.join g = dir ++ g) := by
    intro f hf
    obtain ⟨h1, h2, h3, h4⟩ := fileName_no_slash hf
    obtain ⟨dir, hd1, hd2⟩ := join_split dest f
    have hfn : (dest.join f).fileName = some f := by
      have := fileName_of_ext hd2 h1 h2 h3 h4 .nil
      rw [List.append_nil, ← hd1] at this
      exact this
    refine ⟨dir, hd1, hd2, ?_, ?_⟩
    · unfold Path.setExtension
      rw [hfn]
      dsimp only
      rw [hd1]
      simp
    · intro g
      unfold Path.join at hd1 ⊢
      split at hd1
      · have : dir = [] := by simpa using hd1
        rw [this]; rfl
      · rename_i c hc
        split at hd1
        · rename_i hs
          rw [if_pos hs]
          rw [List.append_cancel_right_eq] at hd1
          rw [hd1]
        · rename_i hs
          rw [if_neg hs]
          have h : (dest ++ [slash]) ++ f = dir ++ f := by simpa using hd1
          rw [List.append_cancel_right_eq] at h
          rw [← h]; simp
  have hstem : ∀ f : Path, src.fileName = some f → (rsplitAtDot f).1 ≠ [] ∧ slash ∉ (rsplitAtDot f).1 := by
    intro f hf
    obtain ⟨h1, h2, _, _⟩ := fileName_no_slash hf
    rcases rsplit_parts f with h | ⟨stem, ext, rfl, _, hs, h⟩
    · rw [h]; exact ⟨h2, h1⟩
    · rw [h]; exact ⟨hs, fun hh => h1 (by simp [hh])⟩
  refine ⟨?_, ?_, ?_, ?_⟩
  · intro dir stem ext trail hsrc hdir hs he h1 h2 h3 ht
    have hdd : stem ++ dot :: ext ≠ [dot, dot] := by
      intro h
      have hl : stem.length + (ext.length + 1) = 2 := by have := congrArg List.length h; simpa using this
      have a1 : 0 < stem.length := List.length_pos_iff.mpr hs
      have a2 : 0 < ext.length := List.length_pos_iff.mpr he
      omega
    have hfn : src.fileName = some (stem ++ dot :: ext) := by
      rw [hsrc]
      refine fileName_of_ext (file := stem ++ dot :: ext) hdir ?_ (by simp) ?_ hdd ht
      · simp only [List.mem_append, List.mem_cons, not_or]; exact ⟨h1, by decide, h2⟩
      · intro h
        have hl : stem.length + (ext.length + 1) = 1 := by have := congrArg List.length h; simpa using this
        have a1 : 0 < stem.length := List.length_pos_iff.mpr hs
        omega
    obtain ⟨d, hd1, hd2, hd3, hd4⟩ := hset _ hfn
    unfold buildOutputFile
    rw [hfn]
    dsimp only
    rw [hd3, rsplit_stem hs h3 hdd, hd4]
    rfl
  · intro out h
    unfold buildOutputFile at h
    split at h
    · rename_i f hf
      cases h
      obtain ⟨d, hd1, hd2, hd3, hd4⟩ := hset f hf
      obtain ⟨s1, s2⟩ := hstem f hf
      rw [hd3]
      refine ⟨⟨d, (rsplitAtDot f).1, [], by simp [dot], hd2, s1, s2, hbin1, hbin2, .nil⟩, (rsplitAtDot f).1 ++ dot :: utf8 "bin".toList, (hd4 _).symm, ?_⟩
      simp only [List.mem_append, List.mem_cons, not_or]
      exact ⟨s2, by decide, hbin1⟩
    · cases h
  · intro h; unfold buildOutputFile; rw [h]
  · intro h
    unfold buildOutputFile
    cases hf : src.fileName with
    | none => exact absurd hf h
    | some f => exact ⟨_, rfl⟩

example : buildOutputFile (utf8 "/data/my.words.csv".toList) (utf8 "out".toList) = .ok (utf8 "out/my.words.bin".toList) ∧
    buildOutputFile (utf8 "words".toList) (utf8 "out/".toList) = .ok (utf8 "out/words.bin".toList) ∧
    buildOutputFile (utf8 "/data/..".toList) (utf8 "out".toList) = .error (.err .io) := by decide +kernel

/-- C57: the file written for a user dictionary is loaded (with any or no kind in the configuration) as exactly the dictionary that loading the source directly gives; no other file changes. If the source cannot be compiled, nothing is written
and the error is returned. -/
theorem c57_round_trip (env : LoadEnv) (hf : Faithful env.format) (kind : DictionaryKind) (src dest : Path) :
    (∀ env', env.cliBuildUser kind src dest = .ok env' → ∃ out user, buildOutputFile src dest = .ok out ∧ env.loadUserFromCsv kind src = .ok user ∧
      (UserDictTyped env.format user → ∀ k, env'.loadUserFromConfig ⟨out, k⟩ = .ok user) ∧ ∀ p ≠ out, env'.files p = env.files p) ∧
    (∀ e, src.fileName ≠ none → env.cliBuildUser kind src dest = .error e → ∃ e', env.loadUserFromCsv kind src = .error e') := by
  constructor
  · intro env' h
    unfold LoadEnv.cliBuildUser at h
    obtain ⟨out, ho, h⟩ := bind_eq_ok.mp h
    obtain ⟨user, hu, h⟩ := bind_eq_ok.mp h
    have h : env.write out (user.bytes env.format) = env' := by simpa using h
    subst h
    refine ⟨out, user, ho, ?_, ?_, ?_⟩
    · unfold LoadEnv.loadUserFromCsv; rw [hu]; rfl
    · intro ht k
      have hx := ((c57_output_file src dest).2.1 out ho).1
      rw [← extension_iff (by decide)] at hx
      unfold LoadEnv.loadUserFromConfig
      dsimp only
      rw [hx]
      dsimp only
      rw [decodeUtf8_utf8, if_neg (by decide), if_pos rfl]
      have hr : (env.write out (user.bytes env.format)).readFile out = .ok (user.bytes env.format) := by
        unfold LoadEnv.readFile LoadEnv.write
        dsimp only
        rw [if_pos rfl]
      unfold LoadEnv.loadUserFromBin
      rw [hr, bind_ok]
      exact c25_user_dict env.format user (hf _) ht
    · intro p hp
      unfold LoadEnv.write
      dsimp only
      rw [if_neg hp]
  · intro e hs h
    obtain ⟨out, ho⟩ := (c57_output_file src dest).2.2.2 hs
    unfold LoadEnv.cliBuildUser at h
    rw [ho, bind_ok] at h
    unfold LoadEnv.loadUserFromCsv
    cases hb : env.buildUserDict kind src with
    | error e2 =>
      cases e2 with
      | err k => exact ⟨_, rfl⟩
      | panic => exact ⟨_, rfl⟩
      | diverge => exact ⟨_, rfl⟩
    | ok u => rw [hb] at h; simp at h

/-- A source file with two formats of rows is built into `out/w.bin` and loaded with its words. -/
def Cf.userEnv : LoadEnv :=
  ⟨⟨true, false, false, false, false⟩, fun _ => .error .panic, fun p => if p = Cf.path "w.csv" then some [1] else none, Stored.format, Src.yada, fun _ => some Usr.rows⟩
example : (do
    let e ← Cf.userEnv.cliBuildUser .ipadic (Cf.path "w.csv") (Cf.path "out")
    let u ← e.loadUserFromConfig ⟨Cf.path "out/w.bin", none⟩
    let v ← Cf.userEnv.loadUserFromCsv .ipadic (Cf.path "w.csv")
    return (decide (u = v), u.wordsIdxData.length)) = (.ok (true, 12) : R _) := by decide +kernel

end Verif.Props
