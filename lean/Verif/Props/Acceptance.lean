import Verif.Proofs.Acceptance
import Verif.Props.Language
/-! C74: a dictionary is built exactly from readable source directories. -/
namespace Verif.Props
open Verif.Model Verif.Spec

/-! ### C74 Which sources are accepted -/

/-- C74: if a build reports success, whatever calls failed, then every source file was there and could be read, down to the last record: nothing is skipped silently. -/
theorem c74_success (env : BuildEnv) (kind : DictionaryKind) (src : SourceDir) (out : Path) (faults : Faults)
    (h : (env.buildDictionary kind src out).result faults = .ok ()) : Buildable env kind src := by
  obtain ⟨c, hc⟩ := c59_success env kind src out faults h
  exact buildable_of_compile hc

/-- C74: conversely, a directory that can be read is compiled, if its words respect the limits of the compiled format (but for the number of words with the same surface). The files need not fit together. -/
theorem c74_accepted (env : BuildEnv) (hy : YadaContract env.yada) (hh : ∀ index, (env.hashOrder index).Perm index) (hp : PiecesOk env) (kind : DictionaryKind) (src : SourceDir)
    (h : Buildable env kind src) (hfits : ∀ rows, SourceRows env kind src rows → FitsApart (sourceFormat kind).unify rows) (out : Path) (faults : Faults) (hf : NoFaults faults) :
    (env.buildDictionary kind src out).result faults = .ok () := by
  obtain ⟨⟨b1, file, h1, h1'⟩, ⟨b2, ls, h2, h2'⟩, ⟨rows, h3, h3'⟩, ⟨b4, f, b, junk, costs, h4, h4', h4''⟩⟩ := h
  obtain ⟨d, hd⟩ := chardef_of_read hh h1 h1'
  obtain ⟨u, hu⟩ := unk_of_read h2 h2' d
  obtain ⟨m, hm⟩ := matrix_of_read h4 h4' h4''
  obtain ⟨-, -, e3, e4, -⟩ := cfg_format kind
  obtain ⟨o, ho, -⟩ := buildDict_leftOver hy (cfg := (BuildCfg.ofKind kind).dict) (rows := rows) (by rw [e3, e4]; exact h3') (by rw [e3]; exact hfits rows h3)
  have hc : compile env kind src = .ok ⟨d, u, o, m⟩ := by
    unfold compile
    simp only [hd, hu, sourceRows_iff.mpr h3, hm, ho, bind_ok, pure_eq_ok]
  exact (c59_build env hp kind src _ hc out faults hf fun _ => none).1

/-- C74: hence a build succeeds exactly if the directory can be read. -/
theorem c74_exact (env : BuildEnv) (hy : YadaContract env.yada) (hh : ∀ index, (env.hashOrder index).Perm index) (hp : PiecesOk env) (kind : DictionaryKind) (src : SourceDir)
    (hfits : ∀ rows, SourceRows env kind src rows → FitsApart (sourceFormat kind).unify rows) (out : Path) (faults : Faults) (hf : NoFaults faults) :
    (env.buildDictionary kind src out).result faults = .ok () ↔ Buildable env kind src :=
  ⟨c74_success env kind src out faults, fun h => c74_accepted env hy hh hp kind src h hfits out faults hf⟩

/-- C74: all other directories are reported with an error, whatever calls fail. (Partial: not for the Korean and the Chinese dictionaries, for records with less than four columns, and for matrices with a bad header
or a cost that cannot be stored. All of these panic, see below.) -/
theorem c74_reported_partial (env : BuildEnv) (hh : ∀ index, (env.hashOrder index).Perm index) (kind : DictionaryKind) (hk : kind ≠ .koDic ∧ kind ≠ .ccCedict) (src : SourceDir)
    (h1 : ¬ ShortRecord env kind src) (h2 : ¬ BadMatrix env kind src) (out : Path) (faults : Faults) :
    (env.buildDictionary kind src out).result faults = .ok () ∧ Buildable env kind src ∨ ∃ k, (env.buildDictionary kind src out).result faults = .error (.err k) := by
  cases hr : (env.buildDictionary kind src out).result faults with
  | ok a => exact .inl ⟨rfl, c74_success env kind src out faults hr⟩
  | error e =>
    obtain ⟨k, rfl⟩ := soft_build hh hk h1 h2 out faults _ e hr
    exact .inr ⟨k, rfl⟩

/-- C74 is violated: for the Korean and the Chinese dictionaries every directory that cannot be read is a panic. -/
theorem c74_unwrap_fails (env : BuildEnv) (hh : ∀ index, (env.hashOrder index).Perm index) (kind : DictionaryKind) (hk : kind = .koDic ∨ kind = .ccCedict) (src : SourceDir)
    (hb : ¬ Buildable env kind src) (out : Path) (faults : Faults) (hf : NoFaults faults) : (env.buildDictionary kind src out).result faults = .error .panic := by
  have := gives_build (env := env) (src := src) (out := out) hf kind .start
  unfold W.result
  rw [this]
  have hu : (BuildCfg.ofKind kind).unwraps = true := by rcases hk with rfl | rfl <;> rfl
  unfold BuildCfg.onResult
  rw [hu]
  cases hc : compile env kind src with
  | ok c => exact absurd (buildable_of_compile hc) hb
  | error e =>
    rcases compile_error hh hc with ⟨k, rfl⟩ | rfl <;> rfl

/-- C74 is violated: a record with less than four columns is a panic, for every kind of dictionary, if the other source files and the other records are readable. -/
theorem c74_short_record_fails (env : BuildEnv) (hh : ∀ index, (env.hashOrder index).Perm index) (kind : DictionaryKind) (src : SourceDir) (rows : List Row)
    (h1 : ∃ bytes file, src.charDef = some bytes ∧ DefRead (env.decode (sourceFormat kind).encoding bytes) file)
    (h2 : ∃ bytes ls, src.unk = some bytes ∧ UnkRead (sourceFormat kind).unkColumns (env.decode (sourceFormat kind).encoding bytes) ls)
    (h3 : SourceRows env kind src rows) (h4 : ∀ row ∈ rows, 4 ≤ row.fields.length → (readRow (sourceFormat kind).unify row).isSome) (h5 : ∃ row ∈ rows, row.fields.length < 4)
    (out : Path) (faults : Faults) (hf : NoFaults faults) : (env.buildDictionary kind src out).result faults = .error .panic := by
  obtain ⟨b1, file, h1, h1'⟩ := h1
  obtain ⟨b2, ls, h2, h2'⟩ := h2
  obtain ⟨d, hd⟩ := chardef_of_read hh h1 h1'
  obtain ⟨u, hu⟩ := unk_of_read h2 h2' d
  obtain ⟨-, -, e3, e4, -⟩ := cfg_format kind
  have hm : (BuildCfg.ofKind kind).dict.entryMap (sortByKey (BuildCfg.ofKind kind).dict.rowKey rows) = .error .panic := by
    apply entryMap_short
    · intro row hr hl
      rw [e3]
      exact .inr (h4 row ((sortByKey_perm _ _).mem_iff.mp hr) hl)
    · obtain ⟨row, hr, hl⟩ := h5
      exact ⟨row, (sortByKey_perm _ _).mem_iff.mpr hr, hl⟩
  have hc : compile env kind src = .error .panic := by
    unfold compile
    simp only [hd, hu, sourceRows_iff.mpr h3, bind_ok, buildDict_steps, hm, bind_error]
  have := gives_build (env := env) (src := src) (out := out) hf kind .start
  unfold W.result
  rw [this, hc]
  unfold BuildCfg.onResult
  split <;> rfl

/-- C74 is violated: a matrix of numbers with a bad header, or with a cost that cannot be stored, is a panic, for every kind of dictionary, if the other source files are readable. -/
theorem c74_matrix_fails (env : BuildEnv) (hy : YadaContract env.yada) (hh : ∀ index, (env.hashOrder index).Perm index) (kind : DictionaryKind) (src : SourceDir) (rows : List Row)
    (h1 : ∃ bytes file, src.charDef = some bytes ∧ DefRead (env.decode (sourceFormat kind).encoding bytes) file)
    (h2 : ∃ bytes ls, src.unk = some bytes ∧ UnkRead (sourceFormat kind).unkColumns (env.decode (sourceFormat kind).encoding bytes) ls)
    (h3 : SourceRows env kind src rows) (h4 : Acceptable (sourceFormat kind).unify (sourceFormat kind).skip rows) (h5 : FitsApart (sourceFormat kind).unify rows) (h6 : BadMatrix env kind src)
    (out : Path) (faults : Faults) (hf : NoFaults faults) : (env.buildDictionary kind src out).result faults = .error .panic := by
  obtain ⟨b1, file, h1, h1'⟩ := h1
  obtain ⟨b2, ls, h2, h2'⟩ := h2
  obtain ⟨d, hd⟩ := chardef_of_read hh h1 h1'
  obtain ⟨u, hu⟩ := unk_of_read h2 h2' d
  obtain ⟨e1, -, e3, e4, -⟩ := cfg_format kind
  obtain ⟨o, ho, -⟩ := buildDict_leftOver hy (cfg := (BuildCfg.ofKind kind).dict) (rows := rows) (by rw [e3, e4]; exact h4) (by rw [e3]; exact h5)
  obtain ⟨b4, header, costs, h6, h7, h8⟩ := h6
  have hm : env.compileMatrix (BuildCfg.ofKind kind) src = .error .panic := by
    unfold BuildEnv.compileMatrix
    rw [h6, e1]
    simp only [BuildEnv.readText, bind_ok]
    exact c69_matrix_fails _ header costs h7 h8
  have hc : compile env kind src = .error .panic := by
    unfold compile
    simp only [hd, hu, sourceRows_iff.mpr h3, bind_ok, ho, hm, bind_error]
  have := gives_build (env := env) (src := src) (out := out) hf kind .start
  unfold W.result
  rw [this, hc]
  unfold BuildCfg.onResult
  split <;> rfl

/-! ### Non-vacuity -/

namespace Acc

theorem rows (r : List Row) (h : SourceRows Dir.env .unidic Lang.source r) : r = Lang.contents.rows := by
  have h1 := sourceRows_iff.mpr h
  rw [show Dir.env.readRows (BuildCfg.ofKind .unidic) Lang.source.csvs = .ok Lang.contents.rows from
    sourceRows_iff.mpr Lang.saysSo.rows] at h1
  cases h1; rfl

theorem buildable : Buildable Dir.env .unidic Lang.source := buildable_of_compile Lang.compiles

/-- The same directory with an unreadable CSV file, with a malformed one, and with a record of three columns. -/
def unreadable : SourceDir := { Lang.source with csvs := Lang.source.csvs ++ [none] }
def short : SourceDir := { Lang.source with csvs := Lang.source.csvs ++ [some (utf8 "x,0,0\n".toList)] }

end Acc

example : (Dir.env.buildDictionary .unidic Lang.source Dir.out).result Dir.noFaults = .ok () :=
  (c74_exact Dir.env Src.yadaOk (fun _ => .refl _) Dir.pieces .unidic Lang.source (fun r h => by rw [Acc.rows r h]; exact fits_apart Lang.fits) Dir.out Dir.noFaults fun _ => rfl).mpr Acc.buildable

/-- An unreadable file is never skipped. -/
example (kind : DictionaryKind) (faults : Faults) : (Dir.env.buildDictionary kind Acc.unreadable Dir.out).result faults ≠ .ok () := by
  intro h
  obtain ⟨-, -, ⟨rows, ⟨files, h1, -⟩, -⟩, -⟩ := c74_success _ _ _ _ _ h
  have : (none : Option (List UInt8)) ∈ files.map (fun f => some f.1) := by rw [← h1]; simp [Acc.unreadable]
  simp at this

example : (Dir.env.buildDictionary .koDic Acc.unreadable Dir.out).result Dir.noFaults = .error .panic := by
  refine c74_unwrap_fails Dir.env (fun _ => .refl _) .koDic (.inl rfl) _ ?_ _ _ fun _ => rfl
  rintro ⟨-, -, ⟨rows, ⟨files, h1, -⟩, -⟩, -⟩
  have : (none : Option (List UInt8)) ∈ files.map (fun f => some f.1) := by rw [← h1]; simp [Acc.unreadable]
  simp at this

example : (Dir.env.buildDictionary .unidic Acc.short Dir.out).result Dir.noFaults = .error .panic := by
  refine c74_short_record_fails Dir.env (fun _ => .refl _) .unidic _ (Lang.contents.rows ++ [⟨['x'], [['0'], ['0']]⟩]) ?_ ?_ ?_ ?_ ?_ _ _ fun _ => rfl
  · exact Acc.buildable.charDef
  · exact Acc.buildable.unk
  · refine ⟨[(utf8 Lang.csv1.toList, Lang.contents.rows.take 1), (utf8 Lang.csv2.toList, Lang.contents.rows.drop 1), (utf8 "x,0,0\n".toList, [⟨['x'], [['0'], ['0']]⟩])], rfl, by decide +kernel, rfl⟩
  · decide +kernel
  · exact ⟨⟨['x'], [['0'], ['0']]⟩, by simp, by decide⟩

/-- An unreadable file is reported. -/
example (faults : Faults) : ∃ k, (Dir.env.buildDictionary .unidic Acc.unreadable Dir.out).result faults = .error (.err k) := by
  have hn : ∀ rows, ¬ SourceRows Dir.env .unidic Acc.unreadable rows := by
    rintro rows ⟨files, h1, -⟩
    have : (none : Option (List UInt8)) ∈ files.map (fun f => some f.1) := by rw [← h1]; simp [Acc.unreadable]
    simp at this
  refine (c74_reported_partial Dir.env (fun _ => .refl _) .unidic (by decide) Acc.unreadable ?_ ?_ Dir.out faults).resolve_left ?_
  · rintro ⟨rows, h, -⟩
    exact hn rows h
  · rintro ⟨bytes, header, costs, h1, h2, h3⟩
    cases h1
    have h4 := c69_matrix_fails _ header costs h2 h3
    rw [Lang.decode] at h4
    exact absurd h4 (by
      have : (buildMatrix Lang.matrixText.toList).toOption.isSome = true := by decide +kernel
      intro h
      rw [h] at this
      cases this)
  · rintro ⟨-, -, -, ⟨rows, h, -⟩, -⟩
    exact hn rows h

/-- A cost outside of the matrix. -/
example : (Dir.env.buildDictionary .unidic { Lang.source with matrix := some (utf8 "2 2\n2 0 5".toList) } Dir.out).result Dir.noFaults = .error .panic := by
  refine c74_matrix_fails Dir.env Src.yadaOk (fun _ => .refl _) .unidic _ Lang.contents.rows ?_ ?_ ?_ Lang.good.rows (fits_apart Lang.fits) ?_ _ _ fun _ => rfl
  · exact Acc.buildable.charDef
  · exact Acc.buildable.unk
  · exact Lang.saysSo.rows
  refine ⟨utf8 "2 2\n2 0 5".toList, [2, 2], [[2, 0, 5]], rfl, ?_, .inr ⟨2, 2, [], rfl, [2, 0, 5], by simp, ?_⟩⟩
  · rw [Lang.decode]
    have := (numberLines_iff (text := "2 2\n2 0 5".toList) (rows := [[2, 2], [2, 0, 5]])).mp (by decide +kernel)
    exact this
  · rintro ⟨f, b, c, rest, h, h1⟩
    cases h
    exact absurd h1 (by decide)

end Verif.Props
