import Verif.Proofs.Csv
import Verif.Props.Language
/-!
C80: dictionary files are read by the usual rules of CSV.
-/
namespace Verif.Props
open Verif.Model Verif.Spec

/-! ### Written records are read -/

/-- A file that is written by the rules of CSV is read as the records that were written, with or without a byte order mark, if all records have the same number of fields or the number may differ;
otherwise it is rejected. -/
theorem c80_read (flexible : Bool) (rows : List Row) (t : Str) (ht : CsvText (rows.map Row.fields) t) (bytes : List UInt8) (hb : FileText bytes t) :
    (flexible = true ∨ Rectangular rows → readCsv flexible bytes = some rows) ∧ (flexible = false → ¬ Rectangular rows → readCsv flexible bytes = none) := by
  rw [readCsv_text hb (csvRecords_text ht)]
  refine ⟨fun h => if_pos ?_, fun hf h => if_neg ?_⟩
  · rcases h with rfl | h
    · rfl
    · rw [sameLengths_iff.mpr h, Bool.or_true]
  · rw [hf, Bool.false_or, sameLengths_iff]
    exact h

/-- Every table can be written, whatever its fields contain. -/
theorem c80_writable (rows : List Row) : ∃ t, CsvText (rows.map Row.fields) t ∧ FileText (utf8 t) t ∧ readCsv true (utf8 t) = some rows := by
  obtain ⟨t, h1, h2⟩ := csv_written rows
  have hf : FileText (utf8 t) t := .inr ⟨rfl, fun h => h2 _ h rfl⟩
  exact ⟨t, h1, hf, (c80_read true rows t h1 _ hf).1 (.inl rfl)⟩

/-- A text means one table only. -/
theorem c80_unambiguous (rs rs' : List (List Str)) (t : Str) (h : CsvText rs t) (h' : CsvText rs' t) : rs = rs' := by
  rw [← csvRecords_text h, ← csvRecords_text h']

/-! ### Texts without quotes -/

/-- A text without quotes is a CSV text: its records are its lines that are not empty, cut at the commas; nothing is trimmed. -/
theorem c80_plain (t : Str) (hq : '"' ∉ t) : CsvText (plainRecords t) t ∧
    ∀ bytes, FileText bytes t → ∃ rows : List Row, rows.map Row.fields = plainRecords t ∧ readCsv true bytes = some rows := by
  have h := csvText_plain _ t (Nat.le_refl _) hq
  refine ⟨h, fun bytes hb => ?_⟩
  obtain ⟨rows, hr⟩ := rows_of_records (csvRecords_ne_nil csvSymC t)
  rw [csvRecords_text h] at hr
  exact ⟨rows, hr, (c80_read true rows t (hr ▸ h) bytes hb).1 (.inl rfl)⟩

/-! ### What is rejected -/

/-- No text is rejected if the number of fields may differ, not even with misplaced quotes. -/
theorem c80_texts_accepted (t : Str) (bytes : List UInt8) (hb : FileText bytes t) : ∃ rows, readCsv true bytes = some rows := by
  obtain ⟨rows, hr⟩ := rows_of_records (csvRecords_ne_nil csvSymC t)
  exact ⟨rows, by rw [readCsv_text hb hr.symm]; rfl⟩

/-- If the numbers of fields must agree, they do in whatever is read. -/
theorem c80_rectangular (bytes : List UInt8) (rows : List Row) (h : readCsv false bytes = some rows) : Rectangular rows ∧ readCsv true bytes = some rows := by
  unfold readCsv at h ⊢
  split at h
  · rename_i rows' he
    rw [Bool.false_or] at h
    split at h
    · rename_i hs
      cases h
      exact ⟨sameLengths_iff.mp hs, rfl⟩
    · exact absurd h (by simp)
  · exact absurd h (by simp)

/-- A file without quotes that is not UTF-8 is rejected. -/
theorem c80_not_utf8 (flexible : Bool) (bytes : List UInt8) (hq : (34 : UInt8) ∉ bytes) (h : ∀ t, bytes ≠ utf8 t) : readCsv flexible bytes = none := by
  unfold readCsv
  split
  · rename_i rows he
    exfalso
    have hq' : (34 : UInt8) ∉ stripBom bytes := by
      unfold stripBom
      split
      · intro hm; exact hq (by simp [hm])
      · exact hq
    obtain ⟨s, hs⟩ := utf8_of_rows hq' he
    unfold stripBom at hs
    split at hs
    · rename_i bs
      refine h ('\uFEFF' :: s) ?_
      have : utf8 ('\uFEFF' :: s) = utf8 ['\uFEFF'] ++ utf8 s := by simp [utf8]
      rw [this, ← hs]
      rfl
    · exact h s hs
  · rfl

/-- With quotes it may be accepted: the bytes of one character can be spread over a quoted field and what follows its closing quote. -/
theorem c80_not_utf8_fails : ∃ bytes : List UInt8, (∀ t, bytes ≠ utf8 t) ∧ readCsv false bytes = some [⟨"あ".toList, []⟩] := by
  refine ⟨[34, 0xE3, 34, 0x81, 0x82], fun t h => ?_, by decide +kernel⟩
  have := decodeUtf8_eq_some.mpr h
  have h0 : decodeUtf8 [34, 0xE3, 34, 0x81, 0x82] = none := by decide +kernel
  rw [h0] at this
  cases this

/-! ### Dictionaries -/

/-- The file reader of the dictionary builder. -/
theorem c80_file (decode : List UInt8 → Str) (flexible : Bool) (encoding : Encoding) (bytes : List UInt8) (rows : List Row) (h : CsvFile decode flexible encoding bytes rows) :
    readCsvFile decode flexible encoding bytes = some rows := by
  obtain ⟨⟨t, hb, ht⟩, hr⟩ := h
  cases encoding
  all_goals
    simp only [reduceCtorEq, if_true, if_false] at hb
    exact (c80_read flexible rows t ht _ hb).1 hr

/-- So a source directory says what the texts of its files say: the claims about dictionaries that are compiled from a source directory (C64, C65, C70, C71) hold from the raw CSV files. -/
theorem c80_directory (build : BuildEnv) (decode : List UInt8 → Str) (he : build.csv = readCsvFile decode) (kind : DictionaryKind) (src : SourceDir) (c : Contents)
    (hd : ∃ bytes, src.charDef = some bytes ∧ DefText (build.decode (sourceFormat kind).encoding bytes) c.defs)
    (hu : ∃ bytes, src.unk = some bytes ∧ UnkText (sourceFormat kind).unkColumns (build.decode (sourceFormat kind).encoding bytes) c.unk)
    (hm : ∃ bytes, src.matrix = some bytes ∧ MatrixText (build.decode (sourceFormat kind).encoding bytes) c.forward c.backward c.costs)
    (files : List (List UInt8 × List Row)) (hs : src.csvs = files.map (fun f => some f.1))
    (hf : ∀ f ∈ files, CsvFile decode (sourceFormat kind).flexible (sourceFormat kind).encoding f.1 f.2) (hr : c.rows = files.flatMap (·.2)) :
    WellFormed build kind src c :=
  ⟨hd, hu, hm, files, hs, fun f h => by rw [he]; exact c80_file decode _ _ _ _ (hf f h), hr⟩

/-- A user dictionary is read from a CSV file in UTF-8: reading it with the loader's reader and checking the number of fields afterwards is the same as one reader with the builder's setting. -/
theorem c80_user (load : LoadEnv) (he : load.csv = readCsv true) (kind : DictionaryKind) (p : Path) (data : List UInt8) (hp : load.files p = some data) :
    load.buildUserDict kind p =
      match readCsv (UserCfg.ofKind kind).flexible data with
      | some rows => Model.buildUserDict load.yada (UserCfg.ofKind kind) rows
      | none => .error (.err .content) := by
  unfold LoadEnv.buildUserDict LoadEnv.readFile
  rw [hp, he]
  simp only [bind_ok]
  unfold readCsv
  cases (csvRecords csvSym (stripBom data)).mapM csvRow with
  | none => rfl
  | some rows =>
    simp only [Bool.true_or, if_true]
    split
    · rename_i h
      split at h
      · cases h; rfl
      · cases h
    · rename_i h
      split at h
      · cases h
      · rename_i hn
        unfold Model.buildUserDict UserCfg.readRows
        cases rows with
        | nil => simp [sameLengths] at hn
        | cons r rs =>
          simp only [sameLengths] at hn
          simp only [hn]
          rfl

/-! ### Cases -/

/-- Quoted fields with commas, quotes and line ends, an empty field, an empty line and a missing last line end. -/
example : readCsv true (utf8 "東京,1,\"a,\"\"b\"\"\r\nc\",\r\n\r\nx".toList) =
    some [⟨"東京".toList, ["1".toList, "a,\"b\"\r\nc".toList, []]⟩, ⟨"x".toList, []⟩] := by decide +kernel

example : CsvText [["a\"b".toList, []], ["x".toList]] "\"a\"\"b\",\r\n\nx".toList := by
  refine CsvText.record (t := "\"a\"\"b\",".toList) (t' := "\r\n\nx".toList) ⟨by decide, ?_⟩ ?_ ?_
  · exact .more (t := "\"a\"\"b\"".toList) (ts := []) (.quoted "a\"b".toList) (.one (.plain (by simp) (by simp)))
  · intro c hc; cases hc; exact .inl rfl
  · refine .blank (.inl rfl) (.blank (.inr rfl) (.blank (.inr rfl) ?_))
    exact CsvText.record (t := ['x']) (t' := []) ⟨by decide, .one (.plain (by decide) (by decide))⟩ (by simp) .nil

/-- Numbers of fields that differ. -/
example : readCsv false (utf8 "a,b\nc\n".toList) = none ∧ readCsv true (utf8 "a,b\nc\n".toList) = some [⟨"a".toList, ["b".toList]⟩, ⟨"c".toList, []⟩] := by
  decide +kernel

/-- Nothing is trimmed. -/
example : plainRecords " a , b\r\n\r\nc,".toList = [[" a ".toList, " b".toList], ["c".toList, []]] := by decide +kernel

/-- A file in Shift_JIS, say. -/
example : (34 : UInt8) ∉ [0x93, 0x8C, 0x2C, 0x31] ∧ decodeUtf8 [0x93, 0x8C, 0x2C, 0x31] = none := by decide +kernel

/-- The builder with this reader, on the sample directory of C64. -/
def Lang.csvEnv : BuildEnv := { Dir.env with csv := readCsvFile (fun _ => []) }

theorem Lang.csvFile (rows : List Row) (t : Str) (hq : '"' ∉ t) (hb : t.head? ≠ some '\uFEFF') (hr : rows.map Row.fields = plainRecords t) (hs : Rectangular rows)
    (flexible : Bool) : CsvFile (fun _ => []) flexible .utf8 (utf8 t) rows :=
  ⟨⟨t, .inr ⟨rfl, hb⟩, hr ▸ (c80_plain t hq).1⟩, .inr hs⟩

example : WellFormed Lang.csvEnv .unidic Lang.source Lang.contents := by
  refine c80_directory Lang.csvEnv (fun _ => []) rfl .unidic Lang.source Lang.contents Lang.wellFormed.charDef Lang.wellFormed.unk Lang.wellFormed.matrix
    [(utf8 Lang.csv1.toList, Lang.contents.rows.take 1), (utf8 Lang.csv2.toList, Lang.contents.rows.drop 1)] rfl ?_ rfl
  intro f hf
  simp only [List.mem_cons, List.not_mem_nil, or_false] at hf
  rcases hf with rfl | rfl
  · exact Lang.csvFile (Lang.contents.rows.take 1) Lang.csv1.toList (by decide +kernel) (by decide +kernel) (by decide +kernel) (sameLengths_iff.mp (by decide +kernel)) _
  · exact Lang.csvFile (Lang.contents.rows.drop 1) Lang.csv2.toList (by decide +kernel) (by decide +kernel) (by decide +kernel) (sameLengths_iff.mp (by decide +kernel)) _

end Verif.Props
