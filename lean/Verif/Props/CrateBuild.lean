import Verif.Props.BuildScript
import Verif.Props.EndToEnd
import Verif.Props.Locality
/-! C75: programs that embed what a build script left after interruptions. -/
namespace Verif.Props
open Verif.Model Verif.Spec

/-- C75: however earlier normal runs of the build script ended, the next run without failures, with the cached archive or a complete answer of the server, leaves files with which a program that embeds them
tokenizes, in every mode and with every user dictionary, as the source files in the archive say. -/
theorem c75_tokenizes (env : ScriptEnv) (kind : DictionaryKind) (a : List UInt8) (ha : ArchiveOk env kind a) (hp : PiecesOk env.build) (hy : YadaContract env.build.yada)
    (hh : ∀ index, (env.build.hashOrder index).Perm index) (hfl : FlateContract env.build.flate) (hfo : Faithful env.build.format)
    (c : Contents) (hsays : Says env.build kind (archiveSources env kind a) c) (hg : Good kind c) (hst : Storable c)
    (user : Option (DictionaryKind × List Row)) (hu : ∀ k rows, user = some (k, rows) → GoodUser k c rows)
    (hsize : ∀ parts, compile env.build kind (archiveSources env kind a) = .ok parts → ∀ e ∈ parts.files env.build.format, Usize (compress env.build.flate e.2 .deflate).data.length)
    (d : Disk) (h : Disks env kind a false d) (r : RunEnv) (hhon : Honest a r) (hr : r.docs = false) (hrd : ∀ p, r.unreadable p = false)
    (hav : d.files (env.archivePath kind) ≠ none ∨ ∃ pieces, r.response = .body pieces true) (faults : Faults) (hf : NoFaults faults) :
    (env.main kind r).result faults d = .ok () ∧
    ∀ (load : LoadEnv) (data : DictData), Embeds load env.build kind ((env.main kind r).after faults d).files (env.outputDir kind) data →
      load.format = env.build.format → load.yada = env.build.yada → ∀ cu, UserFile load cu user → ∀ path mode,
      ∃ t, load.tokenizer ⟨⟨some kind, path⟩, cu, mode⟩ = .ok t ∧ t.mode = mode ∧ (c.lexicon kind user).AnsweredBy t := by
  obtain ⟨parts, m, u, h1, h2, h3, h4⟩ := c64_source_semantics env.build hy hh kind _ c hsays hg user hu
  have h5 := parts_typed hh hsays hg hst h1
  obtain ⟨hok, hfiles⟩ := c75_recovers env kind a ha hp d h r hhon hr hrd hav parts h1 faults hf
  refine ⟨hok, fun load data hem hlf hly cu huf path mode => ⟨⟨parts.dictionary m, u, mode⟩, ?_, rfl, h4 mode⟩⟩
  have hread : ∀ e ∈ parts.files env.build.format, ∀ x, ((env.main kind r).after faults d).files (inDir (env.outputDir kind) e.1) = some x →
      loadEmbedded env.build.feature env.build.flate x = .ok e.2 := by
    intro e he x hx
    rw [hfiles e he] at hx
    rw [← Option.some.inj hx]
    exact c27_written_file env.build.feature env.build.flate hfl e.2 .deflate (hsize parts h1 e he)
  simp only [CompiledParts.files, List.mem_cons, List.not_mem_nil, or_false, forall_eq_or_imp, forall_eq] at hread
  obtain ⟨r1, r2, r3, r4, r5, r6, r7⟩ := hread
  have hdata : data.loadBuiltin env.build.feature env.build.flate env.build.format = .ok (parts.dictionary m) := by
    unfold DictData.loadBuiltin
    simp only [r1 _ hem.charDef, r2 _ hem.unk, r3 _ hem.da, r4 _ hem.vals, r5 _ hem.words, r6 _ hem.wordsIdx, r7 _ hem.matrix, bind_ok, pure_eq_ok, h2, c25_char_defs _ h5.1, c25_unk_dict _ h5.2,
      hfo _]
    rfl
  unfold LoadEnv.tokenizer LoadEnv.loadFromConfig LoadEnv.loadFromKind
  dsimp only
  rw [if_pos (has_iff.mpr hem.feature), hem.reads, hdata]
  unfold mapErr
  dsimp only
  rw [bind_ok, userFile_load (hlf ▸ hfo) huf (hly ▸ h3)]
  rfl

namespace Crate
/-- The build script of the examples, with a storage format that loses nothing. -/
noncomputable def script (f : DaFormat) : ScriptEnv := { Scr.env with build := { Dir.env with format := f } }

/-- What the source files in the archive say. -/
def contents : Contents where
  defs := [.category "DEFAULT".toList ⟨false, true, 0⟩]
  unk := [⟨"DEFAULT".toList, 0, 0, 100⟩]
  forward := 1
  backward := 1
  costs := [⟨0, 0, 9⟩]
  rows := [⟨['c'], [['0'], ['0'], ['4'], ['x']]⟩]

theorem saysSo (f : DaFormat) : Says (script f).build .unidic (archiveSources (script f) .unidic [1]) contents := by
  rw [show archiveSources (script f) .unidic [1] = Dir.newer from Scr.sources]
  have : WellFormed Dir.env .unidic Dir.newer contents := by
    refine ⟨⟨_, rfl, by rw [Lang.decode]; exact readDef_iff.mp (by decide +kernel)⟩, ⟨_, rfl, by rw [Lang.decode]; exact readUnk_iff.mp (by decide +kernel)⟩, ⟨_, rfl, ?_⟩,
      [(utf8 "c,0,0,4,x\n".toList, contents.rows)], rfl, by decide +kernel, rfl⟩
    rw [Lang.decode]
    exact ⟨"1 1".toList, ["0 0 9".toList], lines_iff.mp (by decide +kernel), numberLine_iff (vs := [1, 1]).mp (by decide +kernel), .cons (numberLine_iff (vs := [0, 0, 9]).mp (by decide +kernel)) .nil⟩
  have h := wellFormed_says this (by decide) (by decide)
  exact ⟨h.charDef, h.unk, h.matrix, h.rows⟩

theorem good : Good .unidic contents where
  ordered := .category (by decide) (.nil _)
  default := by decide +kernel
  unknown := by decide +kernel
  unkCount := by decide
  unkIds := by unfold Contents.Inside; decide +kernel
  zero := by unfold Contents.Inside; decide +kernel
  sizes := by decide
  cells := by decide
  rows := by unfold Acceptable; decide +kernel
  fits := Local.fits (by decide +kernel) (by decide +kernel) (by decide +kernel) (by decide +kernel) (by decide +kernel)
  rowIds := by unfold Contents.Inside; decide +kernel

theorem storable : Storable contents where
  lines := by decide +kernel
  mentions := by decide +kernel
  names := by decide +kernel

theorem history (f : DaFormat) (n : Nat) : Disks (script f) .unidic [1] false (((script f).main .unidic Scr.normal).after (Dir.failAt n) Disk.empty) := by
  have ha : ArchiveOk (script f) .unidic [1] := Scr.archiveOk
  refine .run Scr.normal (Dir.failAt n) .fresh Scr.honest (by simp [Scr.normal]) ?_
  rw [((does_main ha Scr.normal Scr.honest (docs := false) (had := false) (by simp [Scr.normal]) Disk.empty .empty).run).1]
  exact diskCrashed_end _ _

theorem sizes (f : DaFormat) (hst : f.store = Stored.write) (parts : CompiledParts) (h : compile (script f).build .unidic (archiveSources (script f) .unidic [1]) = .ok parts) :
    ∀ e ∈ parts.files (script f).build.format, Usize (compress (script f).build.flate e.2 .deflate).data.length := by
  rw [show archiveSources (script f) .unidic [1] = Dir.newer from Scr.sources] at h
  have h : compile Dir.env .unidic Dir.newer = .ok parts := h
  have key : ∀ p ∈ (compile Dir.env .unidic Dir.newer).toOption, ∀ e ∈ p.files ⟨Stored.write, fun _ => ⟨[]⟩⟩, (compress Stored.flate e.2 .deflate).data.length < 2 ^ 64 := by decide +kernel
  have := key parts (by rw [h]; rfl)
  have e : parts.files (script f).build.format = parts.files ⟨Stored.write, fun _ => ⟨[]⟩⟩ := by
    show parts.files f = _
    unfold CompiledParts.files
    rw [hst]
  rw [e]
  exact this

/-- A program with these files embedded. -/
theorem embed {build : BuildEnv} {kind : DictionaryKind} {files : Path → Option (List UInt8)} {dir : Path} {x1 x2 x3 x4 x5 x6 x7 : List UInt8}
    (h1 : files (inDir dir "char_def.bin") = some x1) (h2 : files (inDir dir "unk.bin") = some x2) (h3 : files (inDir dir "dict.da") = some x3) (h4 : files (inDir dir "dict.vals") = some x4)
    (h5 : files (inDir dir "dict.words") = some x5) (h6 : files (inDir dir "dict.wordsidx") = some x6) (h7 : files (inDir dir "matrix.mtx") = some x7) :
    ∃ load data, Embeds load build kind files dir data ∧ load.format = build.format ∧ load.yada = build.yada := by
  refine ⟨⟨⟨true, true, true, true, true⟩, fun _ => DictData.loadBuiltin ⟨x1, x2, x3, x4, x6, x5, x7⟩ build.feature build.flate build.format, fun _ => none, build.format, build.yada, fun _ => none⟩,
    ⟨x1, x2, x3, x4, x6, x5, x7⟩, ⟨?_, rfl, h1, h2, h3, h4, h5, h6, h7⟩, rfl, rfl⟩
  cases kind <;> rfl

end Crate

/-- Whichever call of a first run of the build script failed: a program that embeds what the second run left tokenizes as the archive's source files say. -/
example (n : Nat) : ∃ (f : DaFormat) (load : LoadEnv) (data : DictData),
    Embeds load (Crate.script f).build .unidic (((Crate.script f).main .unidic Scr.normal).after Dir.noFaults (((Crate.script f).main .unidic Scr.normal).after (Dir.failAt n) Disk.empty)).files
      ((Crate.script f).outputDir .unidic) data ∧
    ∀ mode, ∃ t, load.tokenizer ⟨⟨some .unidic, none⟩, none, mode⟩ = .ok t ∧ t.mode = mode ∧ (Crate.contents.lexicon .unidic none).AnsweredBy t := by
  obtain ⟨f, hf, hst⟩ := exists_faithful
  have main := c75_tokenizes (Crate.script f) .unidic [1] Scr.archiveOk Dir.pieces Src.yadaOk (fun _ => .refl _) Stored.flateOk hf Crate.contents (Crate.saysSo f) Crate.good Crate.storable none (by simp)
    (Crate.sizes f hst) _ (Crate.history f n) Scr.normal Scr.honest rfl (fun _ => rfl) (.inr ⟨_, rfl⟩) Dir.noFaults fun _ => rfl
  obtain ⟨c, hc⟩ := Scr.compiles
  rw [Scr.sources] at hc
  have hc : compile (Crate.script f).build .unidic (archiveSources (Crate.script f) .unidic [1]) = .ok c := by
    rw [show archiveSources (Crate.script f) .unidic [1] = Dir.newer from Scr.sources]
    exact hc
  have hw := (c75_recovers (Crate.script f) .unidic [1] Scr.archiveOk Dir.pieces _ (Crate.history f n) Scr.normal Scr.honest rfl (fun _ => rfl) (.inr ⟨_, rfl⟩) c hc Dir.noFaults fun _ => rfl).2
  simp only [CompiledParts.files, List.mem_cons, List.not_mem_nil, or_false, forall_eq_or_imp, forall_eq] at hw
  obtain ⟨w1, w2, w3, w4, w5, w6, w7⟩ := hw
  obtain ⟨load, data, hem, e1, e2⟩ := Crate.embed (kind := .unidic) w1 w2 w3 w4 w5 w6 w7
  exact ⟨f, load, data, hem, fun mode => main.2 _ _ hem e1 e2 none rfl none mode⟩

end Verif.Props
