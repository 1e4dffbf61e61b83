import Verif.Proofs.BuildScript
import Verif.Props.Acceptance
import Mathlib.Data.List.Dedup
/-! C75: the build scripts of the dictionary crates, when they are interrupted and run again. -/
namespace Verif.Props
open Verif.Model Verif.Spec

section
variable (env : ScriptEnv) (kind : DictionaryKind) (a : List UInt8)

/-- C75: whatever happened in earlier runs (kills, failing calls, broken downloads, also runs for docs.rs), the cached archive is absent or complete. -/
theorem c75_archive (ha : ArchiveOk env kind a) (docs : Bool) (d : Disk) (h : Disks env kind a docs d) :
    d.files (env.archivePath kind) = none ∨ d.files (env.archivePath kind) = some a := by
  rcases (Disks.inv ha h).cached with h | ⟨-, h⟩
  · exact .inr h
  · exact .inl h

/-- C75: once the archive is cached, it stays cached, wherever later runs are killed. -/
theorem c75_cache_kept (ha : ArchiveOk env kind a) (docs : Bool) (d : Disk) (h : Disks env kind a docs d) (hc : d.files (env.archivePath kind) = some a) (r : RunEnv) (hh : Honest a r)
    (hd : r.docs = true → docs = true) (faults : Faults) (d' : Disk) (hd' : DiskCrashed d ((env.main kind r).trace faults d) d') : d'.files (env.archivePath kind) = some a := by
  have hi : Inv env kind a docs true d := (Disks.inv ha h).have hc
  rcases ((does_main (fl := faults) ha r hh hd d hi).run.2.1 d' hd').cached with h | ⟨h, -⟩
  · exact h
  · cases h

/-- C75: after any number of interrupted normal runs, one run without failures leaves exactly the dictionary that a first run in an empty directory would, if the archive is cached
or is sent completely. -/
theorem c75_recovers (ha : ArchiveOk env kind a) (hp : PiecesOk env.build) (d : Disk) (h : Disks env kind a false d) (r : RunEnv) (hh : Honest a r) (hr : r.docs = false)
    (hu : ∀ p, r.unreadable p = false) (hav : d.files (env.archivePath kind) ≠ none ∨ ∃ pieces, r.response = .body pieces true) (c : CompiledParts)
    (hc : compile env.build kind (archiveSources env kind a) = .ok c) (faults : Faults) (hf : NoFaults faults) :
    (env.main kind r).result faults d = .ok () ∧ ∀ e ∈ c.files env.build.format, ((env.main kind r).after faults d).files (inDir (env.outputDir kind) e.1) =
      some (compressWrite env.build.feature env.build.flate e.2 .deflate) := by
  have hi := Disks.inv ha h
  rcases (does_main_real (fl := faults) ha r hh hr d hi).run.2.2 with ⟨e, -, hb | ⟨hb1, hb2⟩⟩ | ⟨⟨fl', fs, h1, h2, h3⟩, -⟩
  · exact absurd hf hb
  · rcases hav with hav | ⟨pieces, hav⟩
    · exact absurd hb1 hav
    · exact absurd hav (hb2 pieces)
  · rw [sourcesOf_all _ _ hu, show (fun name => (archived env kind a name).or (d.files ((env.inputDir kind).join name))) = archived env kind a from funext hi.unpacked] at h2 h3
    simp only [hi.unpacked] at h2 h3
    obtain ⟨g1, g2, -⟩ := c59_build env.build hp kind _ c hc (env.outputDir kind) fl' (h1 hf) fs
    refine ⟨by rw [h2]; exact g1, fun e he => ?_⟩
    rw [h3]
    exact g2 e he

/-- C75: a normal run that reports success has compiled exactly the files of the archive, whatever calls failed and whatever earlier runs left behind. (As for C61, `dict.da` can be torn.) -/
theorem c75_success_partial (ha : ArchiveOk env kind a) (hp : PiecesOk env.build) (d : Disk) (h : Disks env kind a false d) (r : RunEnv) (hh : Honest a r) (hr : r.docs = false)
    (faults : Faults) (hok : (env.main kind r).result faults d = .ok ()) :
    ∃ c, compile env.build kind (archiveSources env kind a) = .ok c ∧ ∀ e ∈ c.files env.build.format, ∃ x,
      ((env.main kind r).after faults d).files (inDir (env.outputDir kind) e.1) = some x ∧ x <+: compressWrite env.build.feature env.build.flate e.2 .deflate ∧
      (e.1 ≠ "dict.da" → x = compressWrite env.build.feature env.build.flate e.2 .deflate) := by
  have hi := Disks.inv ha h
  rcases (does_main_real (fl := faults) ha r hh hr d hi).run.2.2 with ⟨e, he, -⟩ | ⟨⟨fl', fs, h1, h2, h3⟩, -⟩
  · rw [hok] at he; cases he
  · rw [hok] at h2
    obtain ⟨c, hc, hx⟩ := c61_reported_partial env.build hp kind _ (env.outputDir kind) fl' fs h2.symm
    rw [sourcesOf_read hc, show (fun name => (archived env kind a name).or (d.files ((env.inputDir kind).join name))) = archived env kind a from funext hi.unpacked] at hc
    simp only [hi.unpacked] at hc
    refine ⟨c, hc, fun e he => ?_⟩
    rw [h3]
    exact hx e he

/-- C75: where there is an archive, there is no partial download beside it, wherever earlier runs were killed. -/
theorem c75_no_leftover (ha : ArchiveOk env kind a) (docs : Bool) (d : Disk) (h : Disks env kind a docs d) (hc : d.files (env.archivePath kind) ≠ none) :
    d.files (env.tmpPath kind) = none := (Disks.inv ha h).clean hc

/-- C75: a normal run that reports success leaves the complete archive and no partial download, whatever calls failed and whatever earlier runs left behind. -/
theorem c75_success_cache (ha : ArchiveOk env kind a) (docs : Bool) (d : Disk) (h : Disks env kind a docs d) (r : RunEnv) (hh : Honest a r) (hr : r.docs = false) (faults : Faults)
    (hok : (env.main kind r).result faults d = .ok ()) :
    ((env.main kind r).after faults d).files (env.archivePath kind) = some a ∧ ((env.main kind r).after faults d).files (env.tmpPath kind) = none := by
  rcases (does_main_real (fl := faults) ha r hh hr d (Disks.inv ha h)).run.2.2 with ⟨e, he, -⟩ | ⟨-, hi⟩
  · rw [hok] at he; cases he
  · have hc : ((env.main kind r).after faults d).files (env.archivePath kind) = some a := by
      rcases hi.cached with h | ⟨h, -⟩
      · exact h
      · cases h
    exact ⟨hc, hi.clean (by rw [hc]; simp)⟩

/-- C75: with a cached archive the script works offline: the answer of the server has no influence. -/
theorem c75_offline (d : Disk) (hc : d.files (env.archivePath kind) ≠ none) (r : RunEnv) (response : Response) (faults : Faults) :
    (env.main kind r).result faults d = (env.main kind { r with response := response }).result faults d ∧
    (env.main kind r).after faults d = (env.main kind { r with response := response }).after faults d ∧
    (env.main kind r).trace faults d = (env.main kind { r with response := response }).trace faults d := by
  have key : env.main kind r faults (.start d) = env.main kind { r with response := response } faults (.start d) := by
    unfold ScriptEnv.main
    cases r.docs with
    | true => rfl
    | false =>
      have : ∀ resp, env.realSources kind resp faults (.start d) = (S.readFile (env.archivePath kind) >>= env.unpackAll) faults (.start d) := by
        intro resp
        have he : (d.files (env.archivePath kind)).isSome = true := by
          cases h : d.files (env.archivePath kind) with
          | none => exact absurd h hc
          | some _ => rfl
        unfold ScriptEnv.realSources
        rw [S.bind_of_ok (a := true) (s' := .start d) (by unfold S.fileExists SState.start; rw [he])]
        rfl
      exact S.bind_congr_left ((this _).trans (this _).symm)
  unfold S.result S.after S.trace
  rw [key]
  exact ⟨rfl, rfl, rfl⟩

/-- C75: without a cached archive and without an answer of the server, the script returns an error and changes nothing. -/
theorem c75_refused (d : Disk) (hc : d.files (env.archivePath kind) = none) (r : RunEnv) (hr : r.docs = false) (hn : r.response = .refused) (faults : Faults) :
    (env.main kind r).result faults d = .error (.err .io) ∧ (env.main kind r).trace faults d = [] := by
  have key : env.main kind r faults (.start d) = (.error (.err .io), .start d) := by
    unfold ScriptEnv.main
    rw [hr, hn]
    have : env.realSources kind .refused faults (.start d) = (.error (.err .io), .start d) := by
      unfold ScriptEnv.realSources
      rw [S.bind_of_ok (a := false) (s' := .start d) (by unfold S.fileExists SState.start; rw [hc]; rfl)]
      rfl
    exact S.bind_of_error this
  unfold S.result S.trace
  rw [key]
  exact ⟨rfl, rfl⟩

/-! ### docs.rs -/

namespace Scr

theorem globOne {env : ScriptEnv} (hg : GlobOk env) {fs : Fs} {n : Path} (hfin : ∃ names : List Path, ∀ name, fs name ≠ none → name ∈ names)
    (h : ∀ name, (fs name ≠ none ∧ slash ∉ name ∧ utf8 ".csv".toList <:+ name) ↔ name = n) : env.glob fs = [n] := by
  obtain ⟨h1, h2⟩ := hg fs hfin
  have h3 : ∀ name, name ∈ env.glob fs ↔ name = n := fun name => (h2 name).trans (h name)
  have h4 : (env.glob fs).Perm [n] := (List.perm_ext_iff_of_nodup h1 (by simp)).mpr fun x => by rw [h3]; simp
  exact List.perm_singleton.mp h4

theorem docsFile_ne {env : ScriptEnv} {kind : DictionaryKind} {name : Path} (h : docsFile env kind name ≠ none) : name ∈ docsNames := by
  unfold docsFile at h
  split at h
  · simp [docsNames, *]
  split at h
  · simp [docsNames, *]
  split at h
  · simp [docsNames, *]
  split at h
  · simp [docsNames, *]
  exact absurd rfl h

theorem docsGlob {env : ScriptEnv} (hg : GlobOk env) (kind : DictionaryKind) : env.glob (docsFile env kind) = [utf8 "dummy_dict.csv".toList] := by
  refine globOne hg ⟨docsNames, fun name h => docsFile_ne h⟩ fun name => ⟨?_, ?_⟩
  · rintro ⟨h1, -, h3⟩
    have := docsFile_ne h1
    simp only [docsNames, List.mem_cons, List.not_mem_nil, or_false] at this
    rcases this with rfl | rfl | rfl | rfl
    · exact absurd h3 (by decide +kernel)
    · rfl
    · exact absurd h3 (by decide +kernel)
    · exact absurd h3 (by decide +kernel)
  · rintro rfl
    refine ⟨?_, by decide +kernel, by decide +kernel⟩
    have n1 : utf8 "dummy_dict.csv".toList ≠ utf8 "char.def".toList := by decide +kernel
    unfold docsFile
    rw [if_neg n1, if_pos rfl]
    simp

/-- The word list of a kind as a record. -/
def record (kind : DictionaryKind) : Row :=
  match splitAll (fun c => decide (c = ',')) (ScriptCfg.ofKind kind).dummy.dropLast with
  | [] => ⟨[], []⟩
  | s :: rest => ⟨s, rest⟩

theorem record_of {kind : DictionaryKind} {row : Row} (h : Columns (· = ',') (ScriptCfg.ofKind kind).dummy.dropLast row.fields) : row = record kind := by
  have := (splitAll_iff comma_iff).mpr h
  unfold record
  rw [this]
  rfl

theorem acceptable (kind : DictionaryKind) : Acceptable (sourceFormat kind).unify (sourceFormat kind).skip [record kind] := by
  cases kind <;> (unfold Acceptable; decide +kernel)

theorem fits (kind : DictionaryKind) : Fits (sourceFormat kind).unify [record kind] where
  homographs s := by
    have h1 := List.length_filter_le (fun w : SourceWord => decide (w.surface = s)) (sourceWords (sourceFormat kind).unify [record kind])
    have h2 : (sourceWords (sourceFormat kind).unify [record kind]).length = 1 := by cases kind <;> decide +kernel
    unfold wordsFor
    omega
  total := by cases kind <;> decide +kernel
  numRows := by simp
  detailBytes := by cases kind <;> decide +kernel
  surfaces := by cases kind <;> decide +kernel
  noNul := by cases kind <;> decide +kernel
  nonempty := by cases kind <;> decide +kernel

end Scr

/-- C75: for docs.rs every script builds a small dictionary in an empty directory, without network. -/
theorem c75_docs (hg : GlobOk env) (hd : DocsOk env kind) (hy : YadaContract env.build.yada) (hh : ∀ index, (env.build.hashOrder index).Perm index) (hp : PiecesOk env.build)
    (r : RunEnv) (hr : r.docs = true) (hu : ∀ p, r.unreadable p = false) (faults : Faults) (hf : NoFaults faults) :
    (env.main kind r).result faults Disk.empty = .ok () := by
  rcases (does_main_docs (a := []) (fl := faults) r hr Disk.empty (Inv.empty (kind := kind))).run.2.2 with ⟨-, h | h⟩ | ⟨⟨fl', fs, h1, h2, -⟩, -⟩
  · exact absurd hf h
  · cases h
  · rw [h2]
    have hx : (fun name => (docsFile env kind name).or (Disk.empty.files ((env.inputDir kind).join name))) = docsFile env kind := by
      funext name
      cases docsFile env kind name <;> rfl
    rw [hx, sourcesOf_all _ _ hu, Scr.docsGlob hg]
    have n1 : docsFile env kind (utf8 "char.def".toList) = some (utf8 "DEFAULT 0 1 0\n".toList) := by unfold docsFile; rw [if_pos rfl]
    have n2 : docsFile env kind (utf8 "dummy_dict.csv".toList) = some (env.encode (ScriptCfg.ofKind kind).encoding (ScriptCfg.ofKind kind).dummy) := by
      unfold docsFile; rw [if_neg (by decide +kernel), if_pos rfl]
    have n3 : docsFile env kind (utf8 "unk.def".toList) = some [] := by
      unfold docsFile; rw [if_neg (by decide +kernel), if_neg (by decide +kernel), if_pos rfl]
    have n4 : docsFile env kind (utf8 "matrix.def".toList) = some (utf8 "0 1 0\n".toList) := by
      unfold docsFile; rw [if_neg (by decide +kernel), if_neg (by decide +kernel), if_neg (by decide +kernel), if_pos rfl]
    simp only [n1, n3, n4, List.map_cons, n2, List.map_nil]
    have henc : (sourceFormat kind).encoding = (ScriptCfg.ofKind kind).encoding := by cases kind <;> rfl
    obtain ⟨row, hrow, hcols⟩ := hd.record
    cases Scr.record_of hcols
    have hrows : SourceRows env.build kind ⟨some (utf8 "DEFAULT 0 1 0\n".toList), some [], some (utf8 "0 1 0\n".toList),
        [some (env.encode (ScriptCfg.ofKind kind).encoding (ScriptCfg.ofKind kind).dummy)]⟩ [Scr.record kind] := by
      refine ⟨[(_, [Scr.record kind])], rfl, ?_, rfl⟩
      intro f hf
      simp only [List.mem_singleton] at hf
      subst hf
      rw [henc]; exact hrow
    refine c74_accepted env.build hy hh hp kind _ ⟨?_, ?_, ⟨_, hrows, Scr.acceptable kind⟩, ?_⟩ ?_ _ fl' (h1 hf)
    · rw [henc]
      have hx : (CharDefBuilder.empty.parse "DEFAULT 0 1 0\n".toList).toOption.isSome = true := by decide +kernel
      cases hb : CharDefBuilder.empty.parse "DEFAULT 0 1 0\n".toList with
      | error e => rw [hb] at hx; cases hx
      | ok b =>
        obtain ⟨file, hfile, -⟩ := parse_iff.mp hb
        exact ⟨_, file, rfl, by rw [hd.ascii _ (by simp)]; exact hfile⟩
    · refine ⟨[], [], rfl, ?_⟩
      have he := hd.ascii [] (by simp)
      rw [show utf8 [] = [] from rfl] at he
      rw [henc, he]
      exact ⟨[], lines_iff.mp (by decide +kernel), .nil⟩
    · refine ⟨_, 0, 1, [0], [], rfl, ?_, by simp⟩
      rw [henc, hd.ascii _ (by simp)]
      exact (numberLines_iff (text := "0 1 0\n".toList) (rows := [[0, 1, 0]])).mp (by decide +kernel)
    · intro rows h
      have e1 := sourceRows_iff.mpr h
      rw [sourceRows_iff.mpr hrows] at e1
      cases e1
      exact fits_apart (Scr.fits kind)

/-- C75 is violated: a second run for docs.rs in the same directory fails, because the directory for the sources exists. -/
theorem c75_docs_again_fails (r : RunEnv) (hr : r.docs = true) (faults : Faults) (hok : (env.main kind r).result faults Disk.empty = .ok ()) (r' : RunEnv) (hr' : r'.docs = true) (faults' : Faults) :
    (env.main kind r').result faults' ((env.main kind r).after faults Disk.empty) = .error (.err .io) := by
  rcases (does_main_docs (a := []) (fl := faults) r hr Disk.empty (Inv.empty (kind := kind))).run.2.2 with ⟨h, -⟩ | ⟨-, -, h⟩
  · rw [hok] at h; cases h
  · generalize (env.main kind r).after faults Disk.empty = d at h
    unfold S.result ScriptEnv.main
    rw [hr']
    have : env.docsSources kind faults' (.start d) = (.error (.err .io), .start d) := by
      unfold ScriptEnv.docsSources
      refine S.bind_of_error ?_
      unfold S.createDir; rw [if_pos (show (SState.start d).disk.dirs (env.inputDir kind) = true from h)]
    exact congrArg Prod.fst (S.bind_of_error this)

/-- C75 is violated: a normal run after a run for docs.rs in the same directory compiles the word list for docs.rs together with the sources of the archive. -/
theorem c75_docs_mix_fails (ha : ArchiveOk env kind a) (hg : GlobOk env) (hn : archived env kind a (utf8 "dummy_dict.csv".toList) = none) (r : RunEnv) (hr : r.docs = true) (faults : Faults)
    (hok : (env.main kind r).result faults Disk.empty = .ok ()) (r' : RunEnv) (hh : Honest a r') (hr' : r'.docs = false) (hu : ∀ p, r'.unreadable p = false)
    (hresp : ∃ pieces, r'.response = .body pieces true) (faults' : Faults) (hf : NoFaults faults') :
    ∃ src fl fs, some (env.encode (ScriptCfg.ofKind kind).encoding (ScriptCfg.ofKind kind).dummy) ∈ src.csvs ∧ NoFaults fl ∧
      (env.main kind r').result faults' ((env.main kind r).after faults Disk.empty) = (env.build.buildDictionary kind src (env.outputDir kind)).result fl ∧
      ((env.main kind r').after faults' ((env.main kind r).after faults Disk.empty)).files = runOps fs ((env.build.buildDictionary kind src (env.outputDir kind)).trace fl) := by
  have h0 := (does_main_docs (env := env) (a := a) (fl := faults) r hr Disk.empty (Inv.empty (kind := kind))).run
  have hi : Inv env kind a true false ((env.main kind r).after faults Disk.empty) := h0.2.1 _ (by rw [h0.1]; exact diskCrashed_end _ _)
  rcases h0.2.2 with ⟨h, -⟩ | ⟨-, h, -⟩
  · rw [hok] at h; cases h
  · generalize (env.main kind r).after faults Disk.empty = d at h hi
    rcases (does_main_real (fl := faults') ha r' hh hr' d hi).run.2.2 with ⟨e, -, hb | ⟨-, hb⟩⟩ | ⟨⟨fl', fs, h1, h2, h3⟩, -⟩
    · exact absurd hf hb
    · obtain ⟨pieces, hp⟩ := hresp
      exact absurd hp (hb pieces)
    · refine ⟨_, fl', fs, ?_, h1 hf, h2, h3⟩
      rw [sourcesOf_all _ _ hu]
      have hd : docsFile env kind (utf8 "dummy_dict.csv".toList) = some (env.encode (ScriptCfg.ofKind kind).encoding (ScriptCfg.ofKind kind).dummy) := by
        unfold docsFile; rw [if_neg (by decide +kernel), if_pos rfl]
      refine List.mem_map.mpr ⟨utf8 "dummy_dict.csv".toList, ?_, by rw [hn, h, hd]; rfl⟩
      refine ((hg _ ?_).2 _).mpr ⟨by rw [hn, h, hd]; simp, by decide +kernel, by decide +kernel⟩
      refine ⟨docsNames ++ (env.unpack a).1.filterMap (fun e => match e with | .file p _ => some (p.drop ((ScriptCfg.ofKind kind).input.length + 1)) | .dir _ => none), fun name hname => ?_⟩
      rw [List.mem_append]
      cases hx : archived env kind a name with
      | none =>
        rw [hx, h] at hname
        left
        refine Scr.docsFile_ne (env := env) (kind := kind) fun e => hname ?_
        rw [e]; rfl
      | some x =>
        right
        have : ∃ pieces, ArchiveEntry.file ((ScriptCfg.ofKind kind).input ++ slash :: name) pieces ∈ (env.unpack a).1 := by
          unfold archived at hx
          generalize (env.unpack a).1 = entries at hx
          induction entries with
          | nil => cases hx
          | cons e entries ih =>
            rw [fileIn_cons] at hx
            cases hrest : fileIn entries ((ScriptCfg.ofKind kind).input ++ slash :: name) with
            | some y =>
              rw [hrest] at hx
              obtain ⟨pieces, hp⟩ := ih (by rw [hrest]; exact hx)
              exact ⟨pieces, List.mem_cons_of_mem _ hp⟩
            | none =>
              rw [hrest] at hx
              cases e with
              | dir q => cases hx
              | file q pieces =>
                dsimp only [Option.or] at hx
                split at hx
                · rename_i hq
                  exact ⟨pieces, by rw [← hq]; exact List.mem_cons_self⟩
                · cases hx
        obtain ⟨pieces, hp⟩ := this
        refine List.mem_filterMap.mpr ⟨_, hp, ?_⟩
        simp

/-- C75 is violated: if the complete download cannot be renamed, the script panics instead of returning the error. -/
theorem c75_rename_fails (r : RunEnv) (hr : r.docs = false) (hresp : r.response = .body [a] true) :
    (env.main kind r).result (fun n => if n = 2 then some 0 else none) Disk.empty = .error .panic := by
  have h1 : (Disk.empty.files (env.archivePath kind)).isSome = false := rfl
  unfold S.result ScriptEnv.main
  rw [hr, hresp]
  rfl

end

/-! ### Non-vacuity -/

namespace Scr

/-- The files of a directory whose names end with `.csv`. -/
def IsCsv (fs : Fs) (name : Path) : Prop := fs name ≠ none ∧ slash ∉ name ∧ utf8 ".csv".toList <:+ name

open Classical in
/-- A listing of them. -/
noncomputable def glob (fs : Fs) : List Path := if h : ∃ l : List Path, l.Nodup ∧ ∀ name, name ∈ l ↔ IsCsv fs name then h.choose else []

def name (n : String) : Path := utf8 ("unidic-mecab-2.1.2/" ++ n).toList

/-- The archive has one byte. Its files are written in pieces. -/
def entries : List ArchiveEntry :=
  [.dir (utf8 "unidic-mecab-2.1.2".toList), .file (name "char.def") [utf8 "DEFAULT ".toList, utf8 "0 1 0\n".toList], .file (name "unk.def") [utf8 "DEFAULT,0,0,100,a,b,c,d,e,f\n".toList],
   .file (name "matrix.def") [utf8 "1 1\n".toList, utf8 "0 0 9\n".toList], .file (name "words.csv") [utf8 "c,0,0,4,x\n".toList]]

noncomputable def env : ScriptEnv := ⟨Dir.env, utf8 "target/out".toList, fun _ text => utf8 text, fun bytes => if bytes = [1] then (entries, true) else ([], false), glob⟩

theorem globOk : GlobOk env := by
  classical
  intro fs ⟨names, hn⟩
  have h : ∃ l : List Path, l.Nodup ∧ ∀ name, name ∈ l ↔ IsCsv fs name := by
    refine ⟨(names.filter fun n => decide (IsCsv fs n)).dedup, List.nodup_dedup _, fun name => ?_⟩
    rw [List.mem_dedup, List.mem_filter, decide_eq_true_iff]
    exact ⟨fun h => h.2, fun h => ⟨hn name h.1, h⟩⟩
  have : env.glob fs = h.choose := dif_pos h
  rw [this]
  exact h.choose_spec

theorem archiveOk : ArchiveOk env .unidic [1] := by
  refine ⟨rfl, fun p pieces h => ?_⟩
  have h : ArchiveEntry.file p pieces ∈ entries := h
  simp only [entries, List.mem_cons, List.not_mem_nil, or_false, reduceCtorEq, false_or, ArchiveEntry.file.injEq] at h
  rcases h with ⟨rfl, -⟩ | ⟨rfl, -⟩ | ⟨rfl, -⟩ | ⟨rfl, -⟩
  · exact ⟨utf8 "char.def".toList, by decide +kernel⟩
  · exact ⟨utf8 "unk.def".toList, by decide +kernel⟩
  · exact ⟨utf8 "matrix.def".toList, by decide +kernel⟩
  · exact ⟨utf8 "words.csv".toList, by decide +kernel⟩

/-- A run with a complete answer in two pieces, the first of which is empty. -/
def normal : RunEnv := ⟨false, .body [[], [1]] true, fun _ => false⟩
/-- A run for docs.rs. -/
def docsRun : RunEnv := ⟨true, .refused, fun _ => false⟩

theorem honest : Honest [1] normal := by
  intro pieces h
  cases h
  rfl

theorem sources : archiveSources env .unidic [1] = Dir.newer := by
  have hmem : ∀ n, archived env .unidic [1] n ≠ none → n ∈ [utf8 "char.def".toList, utf8 "unk.def".toList, utf8 "matrix.def".toList, utf8 "words.csv".toList] := by
    intro n hn
    have hx : ∀ x y : Path, x ++ slash :: y = (ScriptCfg.ofKind .unidic).input ++ slash :: n → slash ∉ x → y = n := fun x y h h' => (slash_split h' (names_ok .unidic).2.1 h).2
    have hu : slash ∉ utf8 "unidic-mecab-2.1.2".toList := by decide +kernel
    have e1 : name "char.def" = utf8 "unidic-mecab-2.1.2".toList ++ slash :: utf8 "char.def".toList := by decide +kernel
    have e2 : name "unk.def" = utf8 "unidic-mecab-2.1.2".toList ++ slash :: utf8 "unk.def".toList := by decide +kernel
    have e3 : name "matrix.def" = utf8 "unidic-mecab-2.1.2".toList ++ slash :: utf8 "matrix.def".toList := by decide +kernel
    have e4 : name "words.csv" = utf8 "unidic-mecab-2.1.2".toList ++ slash :: utf8 "words.csv".toList := by decide +kernel
    have h : archived env .unidic [1] n = fileIn entries ((ScriptCfg.ofKind .unidic).input ++ slash :: n) := rfl
    rw [h] at hn
    simp only [List.mem_cons, List.not_mem_nil, or_false]
    by_cases c1 : name "char.def" = (ScriptCfg.ofKind .unidic).input ++ slash :: n
    · rw [e1] at c1; exact .inl (hx _ _ c1 hu).symm
    by_cases c2 : name "unk.def" = (ScriptCfg.ofKind .unidic).input ++ slash :: n
    · rw [e2] at c2; exact .inr (.inl (hx _ _ c2 hu).symm)
    by_cases c3 : name "matrix.def" = (ScriptCfg.ofKind .unidic).input ++ slash :: n
    · rw [e3] at c3; exact .inr (.inr (.inl (hx _ _ c3 hu).symm))
    by_cases c4 : name "words.csv" = (ScriptCfg.ofKind .unidic).input ++ slash :: n
    · rw [e4] at c4; exact .inr (.inr (.inr (hx _ _ c4 hu).symm))
    exact absurd (by simp only [fileIn, entries, List.foldl_cons, List.foldl_nil, c1, c2, c3, c4, if_false]) hn
  have f1 : archived env .unidic [1] (utf8 "char.def".toList) = Dir.newer.charDef := by
    show fileIn entries _ = _
    decide +kernel
  have f2 : archived env .unidic [1] (utf8 "unk.def".toList) = Dir.newer.unk := by
    show fileIn entries _ = _
    decide +kernel
  have f3 : archived env .unidic [1] (utf8 "matrix.def".toList) = Dir.newer.matrix := by
    show fileIn entries _ = _
    decide +kernel
  have f4 : archived env .unidic [1] (utf8 "words.csv".toList) = Dir.bytesOf "c,0,0,4,x\n" := by
    show fileIn entries _ = _
    decide +kernel
  have hg : env.glob (archived env .unidic [1]) = [utf8 "words.csv".toList] := by
    refine globOne globOk ⟨_, hmem⟩ fun n => ⟨?_, ?_⟩
    · rintro ⟨h1, -, h3⟩
      have := hmem n h1
      simp only [List.mem_cons, List.not_mem_nil, or_false] at this
      rcases this with rfl | rfl | rfl | rfl
      · exact absurd h3 (by decide +kernel)
      · exact absurd h3 (by decide +kernel)
      · exact absurd h3 (by decide +kernel)
      · rfl
    · rintro rfl
      exact ⟨by rw [f4]; simp [Dir.bytesOf], by decide +kernel, by decide +kernel⟩
  unfold archiveSources
  simp only [hg, f1, f2, f3, f4, List.map_cons, List.map_nil]
  rfl

theorem compiles : ∃ c, compile env.build .unidic (archiveSources env .unidic [1]) = .ok c := by
  rw [sources]
  have h : (compile Dir.env .unidic Dir.newer).toOption.isSome = true := by decide +kernel
  show ∃ c, compile Dir.env .unidic Dir.newer = .ok c
  cases hc : compile Dir.env .unidic Dir.newer with
  | ok c => exact ⟨c, rfl⟩
  | error e => rw [hc] at h; cases h

/-- A run in which the `n`-th call failed, then one that was killed at once after creating the temporary file. -/
theorem history (n : Nat) : Disks env .unidic [1] false ((env.main .unidic normal).after (Dir.failAt n) Disk.empty) := by
  refine .run normal (Dir.failAt n) .fresh honest (by simp [normal]) ?_
  rw [((does_main archiveOk normal honest (docs := false) (had := false) (by simp [normal]) Disk.empty .empty).run).1]
  exact diskCrashed_end _ _

theorem docsOk (kind : DictionaryKind) : DocsOk env kind := by
  refine ⟨?_, record kind, ?_, ?_⟩
  · intro text _
    show (decodeUtf8 (utf8 text)).getD [] = text
    rw [decodeUtf8_utf8]; rfl
  · show Dir.csv (sourceFormat kind).flexible (ScriptCfg.ofKind kind).encoding (utf8 (ScriptCfg.ofKind kind).dummy) = _
    unfold Dir.csv
    rw [decodeUtf8_utf8]
    cases kind <;> decide +kernel
  · refine (splitAll_iff comma_iff).mp ?_
    cases kind <;> decide +kernel

end Scr

/-- Whichever call of a first run fails, a second run repairs everything. -/
example (n : Nat) : (Scr.env.main .unidic Scr.normal).result Dir.noFaults ((Scr.env.main .unidic Scr.normal).after (Dir.failAt n) Disk.empty) = .ok () := by
  obtain ⟨c, hc⟩ := Scr.compiles
  exact (c75_recovers Scr.env .unidic [1] Scr.archiveOk Dir.pieces _ (Scr.history n) Scr.normal Scr.honest rfl (fun _ => rfl) (.inr ⟨_, rfl⟩) c hc _ fun _ => rfl).1

/-- And the repaired directory has the archive and no partial download. -/
example (n : Nat) : ((Scr.env.main .unidic Scr.normal).after Dir.noFaults ((Scr.env.main .unidic Scr.normal).after (Dir.failAt n) Disk.empty)).files (Scr.env.tmpPath .unidic) = none := by
  obtain ⟨c, hc⟩ := Scr.compiles
  exact (c75_success_cache Scr.env .unidic [1] Scr.archiveOk false _ (Scr.history n) Scr.normal Scr.honest rfl Dir.noFaults
    (c75_recovers Scr.env .unidic [1] Scr.archiveOk Dir.pieces _ (Scr.history n) Scr.normal Scr.honest rfl (fun _ => rfl) (.inr ⟨_, rfl⟩) c hc _ fun _ => rfl).1).2

/-- For docs.rs all five scripts succeed the first time, and fail the second time. -/
example (kind : DictionaryKind) : (Scr.env.main kind Scr.docsRun).result Dir.noFaults Disk.empty = .ok () ∧
    (Scr.env.main kind Scr.docsRun).result Dir.noFaults ((Scr.env.main kind Scr.docsRun).after Dir.noFaults Disk.empty) = .error (.err .io) := by
  have h : (Scr.env.main kind Scr.docsRun).result Dir.noFaults Disk.empty = .ok () :=
    c75_docs Scr.env kind Scr.globOk (Scr.docsOk kind) Src.yadaOk (fun _ => .refl _) Dir.pieces Scr.docsRun rfl (fun _ => rfl) _ fun _ => rfl
  exact ⟨h, c75_docs_again_fails Scr.env kind Scr.docsRun rfl _ h Scr.docsRun rfl _⟩

/-- A normal run after that also contains the word of the documentation. -/
example : ∃ src fl fs, some (Scr.env.encode (ScriptCfg.ofKind .unidic).encoding (ScriptCfg.ofKind .unidic).dummy) ∈ src.csvs ∧ NoFaults fl ∧
    (Scr.env.main .unidic Scr.normal).result Dir.noFaults ((Scr.env.main .unidic Scr.docsRun).after Dir.noFaults Disk.empty) =
      (Scr.env.build.buildDictionary .unidic src (Scr.env.outputDir .unidic)).result fl ∧
    ((Scr.env.main .unidic Scr.normal).after Dir.noFaults ((Scr.env.main .unidic Scr.docsRun).after Dir.noFaults Disk.empty)).files =
      runOps fs ((Scr.env.build.buildDictionary .unidic src (Scr.env.outputDir .unidic)).trace fl) := by
  refine c75_docs_mix_fails Scr.env .unidic [1] Scr.archiveOk Scr.globOk ?_ Scr.docsRun rfl Dir.noFaults ?_ Scr.normal Scr.honest rfl (fun _ => rfl) ⟨_, rfl⟩ Dir.noFaults fun _ => rfl
  · show fileIn Scr.entries _ = _
    decide +kernel
  · exact c75_docs Scr.env .unidic Scr.globOk (Scr.docsOk .unidic) Src.yadaOk (fun _ => .refl _) Dir.pieces Scr.docsRun rfl (fun _ => rfl) _ fun _ => rfl

end Verif.Props
