import Verif.Proofs.ManyHomographs
import Verif.Props.Sample
/-! Properties of the system dictionary compiler: C16-C19, C54. -/
namespace Verif.Props
open Verif.Model Verif.Spec

/-! ### A small source file for the examples -/
namespace Src

def row (s l r c : Str) (ds : List Str) : Row := ⟨s, l :: r :: c :: ds⟩

/-- `猫,1,2,-7,名詞,ネコ` / `a,0,0,x,bad` (unreadable cost) / `～a,3,4, 5 ,記号,－` / `猫,1,2,9,動物,` -/
def rows : List Row :=
  [row ['猫'] ['1'] ['2'] ['-', '7'] [['名', '詞'], ['ネ', 'コ']],
   row ['a'] ['0'] ['0'] ['x'] [['b', 'a', 'd']],
   row ['～', 'a'] ['3'] ['+', '4'] [' ', '5', ' '] [['記', '号'], ['～']],
   row ['猫'] ['1'] ['2'] ['9'] [['動', '物'], []]]

def cfg : DictCfg := ⟨true, true⟩

/-- A double-array builder that meets the contract. -/
def yada : DaBuilder := fun ks => some ⟨ks⟩

theorem yadaOk : YadaContract yada := fun _ _ _ _ => rfl

theorem accepted : Acceptable true true rows := by
  unfold Acceptable
  decide +kernel

theorem sourceOk : sourceWords true rows =
    [⟨['猫'], -7, 1, 2, [['名', '詞'], ['ネ', 'コ']]⟩, ⟨['〜', 'a'], 5, 3, 4, [['記', '号'], ['〜']]⟩,
     ⟨['猫'], 9, 1, 2, [['動', '物'], []]⟩] := by decide +kernel

theorem fits : Fits true rows where
  homographs s := by
    have h1 := List.length_filter_le (fun w : SourceWord => decide (w.surface = s)) (sourceWords true rows)
    have h2 : (sourceWords true rows).length = 3 := by rw [sourceOk]; rfl
    unfold wordsFor
    omega
  total := by rw [sourceOk]; decide
  numRows := by decide
  detailBytes := by decide +kernel
  surfaces := by decide +kernel
  noNul := by decide +kernel
  nonempty := by rw [sourceOk]; simp

end Src

/-! ### C16 WordEntry round trip -/

/-- C16: reading back the ten bytes written for an entry, whatever bytes follow, gives the entry with the dictionary's flag. -/
theorem c16_roundtrip (e : WordEntry) (following : List UInt8) (isSystem : Bool) :
    e.serialize.length = serializedLen ∧
    WordEntry.deserialize (e.serialize ++ following) isSystem =
      .ok ⟨⟨e.wordId.id, isSystem⟩, e.wordCost, e.leftId, e.rightId⟩ :=
  ⟨serialize_length e, deserialize_serialize e following isSystem⟩

/-- C16: the bytes determine the entry (up to the flag, which is not written). -/
theorem c16_injective (a b : WordEntry) (h : a.serialize = b.serialize) (hs : a.wordId.sys = b.wordId.sys) : a = b := by
  have h1 := deserialize_serialize a [] a.wordId.sys
  have h2 := deserialize_serialize b [] a.wordId.sys
  rw [h, h2, hs] at h1
  obtain ⟨⟨ai, as⟩, ac, al, ar⟩ := a
  obtain ⟨⟨bi, bs⟩, bc, bl, br⟩ := b
  simp_all

example : WordEntry.serialize ⟨⟨0x01020304, true⟩, -2, 0x0506, 7⟩ = [4, 3, 2, 1, 254, 255, 6, 5, 7, 0] := by decide
example : WordEntry.deserialize [4, 3, 2, 1, 254, 255, 6, 5, 7, 0] false = .ok ⟨⟨0x01020304, false⟩, -2, 0x0506, 7⟩ := by
  decide +kernel

/-! ### C17 Compiled dictionary finds exactly the source rows -/

private theorem found_prefixes {out : DictFiles} (s : Str) {find : Str → List WordEntry} (ws : Nat → List SourceWord)
    (hd : ∀ i, List.Forall₂ (Describes (wordDetails out.wordsIdx out.words)) (find (s.take (i + 1))) (ws i)) (hs : ∀ i, ∀ w ∈ ws i, w.surface = s.take (i + 1)) (xs : List Nat) :
    List.Forall₂ (fun (p : Nat × WordEntry) (q : Nat × SourceWord) => p.1 = q.1 ∧ Describes (wordDetails out.wordsIdx out.words) p.2 q.2)
      (xs.flatMap fun i => (find (s.take (i + 1))).map fun e => (blen (s.take (i + 1)), e)) (xs.flatMap fun i => (ws i).map fun w => (blen w.surface, w)) := by
  induction xs with
  | nil => exact .nil
  | cons i xs ih =>
    rw [List.flatMap_cons, List.flatMap_cons]
    refine List.rel_append ?_ ih
    have h1 := hd i
    have h2 := hs i
    generalize ws i = ws at h1 h2
    generalize find (s.take (i + 1)) = es at h1
    induction h1 with
    | nil => exact .nil
    | cons he _ ih =>
      refine .cons ⟨?_, he⟩ (ih fun w hw => h2 w (by simp [hw]))
      show blen _ = blen _
      rw [h2 _ (by simp)]

/-- C17: for an acceptable source within the limits of the format the build succeeds, and a prefix lookup in the loaded dictionary lists,
for every non-empty prefix of the text by increasing length, one entry per source word with that surface, in file order, with the word's
numbers, its byte length, and an id that selects the word's details. -/
theorem c17_prefix {yada : DaBuilder} (hy : YadaContract yada) (cfg : DictCfg) (rows : List Row)
    (ha : Acceptable cfg.normalizeDetails cfg.skipInvalid rows) (hf : Fits cfg.normalizeDetails rows) :
    ∃ out, buildDict yada cfg rows = .ok out ∧ ∀ s : Str, ∃ found, out.prefixDict.prefix s = .ok found ∧
      List.Forall₂ (fun (p : Nat × WordEntry) (q : Nat × SourceWord) =>
          p.1 = q.1 ∧ Describes (wordDetails out.wordsIdx out.words) p.2 q.2) found
        ((List.range s.length).flatMap fun i =>
          (wordsFor cfg.normalizeDetails rows (s.take (i + 1))).map fun w => (blen w.surface, w)) := by
  obtain ⟨out, hb, hk, find, hfind, hd, -⟩ := buildDict_spec hy ha hf
  refine ⟨out, hb, fun s => ⟨_, prefix_eq_findSurface hk hfind s, ?_⟩⟩
  exact found_prefixes s _ (fun i => hd (s.take (i + 1))) (fun i w hw => by simpa [wordsFor] using (List.mem_filter.mp hw).2) _

/-- C17: the lookup of a whole surface lists exactly the source words with this surface, in file order. -/
theorem c17_find_surface {yada : DaBuilder} (hy : YadaContract yada) (cfg : DictCfg) (rows : List Row)
    (ha : Acceptable cfg.normalizeDetails cfg.skipInvalid rows) (hf : Fits cfg.normalizeDetails rows) :
    ∃ out, buildDict yada cfg rows = .ok out ∧ ∀ surface : Str, ∃ found, out.prefixDict.findSurface surface = .ok found ∧
      List.Forall₂ (Describes (wordDetails out.wordsIdx out.words)) found
        (wordsFor cfg.normalizeDetails rows surface) := by
  obtain ⟨out, hb, -, find, hfind, hd, -⟩ := buildDict_spec hy ha hf
  exact ⟨out, hb, fun s => ⟨_, hfind s, hd s⟩⟩

/-- Non-vacuity: the sample source (with homographs, an unreadable row and normalized characters) meets the hypotheses, and its
lookups are not trivial. -/
example : YadaContract Src.yada ∧ Acceptable Src.cfg.normalizeDetails Src.cfg.skipInvalid Src.rows ∧
    Fits Src.cfg.normalizeDetails Src.rows := ⟨Src.yadaOk, Src.accepted, Src.fits⟩
example : (do
    let out ← buildDict Src.yada Src.cfg Src.rows
    let found ← out.prefixDict.prefix ['猫', 'x']
    return found.map fun p => (p.1, p.2.wordCost)) = (.ok [(3, -7), (3, 9)] : R _) := by decide +kernel

/-! ### C18 Word details round trip -/

/-- C18: every source word with at least one detail column is found by its surface under an entry whose word id selects exactly
its detail columns. -/
theorem c18_details {yada : DaBuilder} (hy : YadaContract yada) (cfg : DictCfg) (rows : List Row)
    (ha : Acceptable cfg.normalizeDetails cfg.skipInvalid rows) (hf : Fits cfg.normalizeDetails rows) :
    ∃ out, buildDict yada cfg rows = .ok out ∧ ∀ row ∈ rows, ∀ w, readRow cfg.normalizeDetails row = some w →
      w.details ≠ [] → ∃ found, out.prefixDict.findSurface w.surface = .ok found ∧ ∃ e ∈ found,
        e.wordCost = w.cost ∧ e.leftId = w.leftId ∧ e.rightId = w.rightId ∧
        wordDetails out.wordsIdx out.words e.wordId.id.toNat = .ok (some w.details) := by
  obtain ⟨out, hb, -, find, hfind, hd, -⟩ := buildDict_spec hy ha hf
  refine ⟨out, hb, ?_⟩
  intro row hr w hw hne
  refine ⟨_, hfind w.surface, ?_⟩
  have hm : w ∈ wordsFor cfg.normalizeDetails rows w.surface := by
    simp only [wordsFor, sourceWords, List.mem_filter, List.mem_filterMap, decide_true, and_true]
    exact ⟨row, hr, hw⟩
  have h1 := hd w.surface
  generalize wordsFor cfg.normalizeDetails rows w.surface = ws at h1 hm
  generalize find w.surface = es at h1
  induction h1 with
  | nil => simp at hm
  | cons he _ ih =>
    rcases List.mem_cons.mp hm with rfl | hm
    · refine ⟨_, by simp, he.1, he.2.1, he.2.2.1, ?_⟩
      rw [he.2.2.2, shown, if_neg hne]
    · obtain ⟨e, h2, h3⟩ := ih hm
      exact ⟨e, by simp [h2], h3⟩

/-- C18: word-details lookups in a compiled dictionary never panic: an id of a row gives the stored columns of a row of the source, any
other id gives nothing. -/
theorem c18_total {yada : DaBuilder} (hy : YadaContract yada) (cfg : DictCfg) (rows : List Row)
    (ha : Acceptable cfg.normalizeDetails cfg.skipInvalid rows) (hf : Fits cfg.normalizeDetails rows) :
    ∃ out, buildDict yada cfg rows = .ok out ∧
      (∀ i, rows.length ≤ i → wordDetails out.wordsIdx out.words i = .ok none) ∧
      (∀ i, i < rows.length → ∃ row ∈ rows, wordDetails out.wordsIdx out.words i =
        .ok (some (shown ((row.fields.drop 4).map (fieldText cfg.normalizeDetails))))) := by
  obtain ⟨out, hb, -, find, -, -, hl, hd⟩ := buildDict_spec hy ha hf
  refine ⟨out, hb, ?_, ?_⟩
  · intro i hi
    unfold wordDetails
    rw [if_pos (by omega)]
  · intro i hi
    have hp := sortByKey_perm cfg.rowKey rows
    have hi' : i < (sortByKey cfg.rowKey rows).length := by rw [hp.length_eq]; exact hi
    exact ⟨_, hp.mem_iff.mp (List.getElem_mem hi'), hd i _ (List.getElem?_eq_getElem hi')⟩

/-- C18: a row with no detail column reads back as one empty column. -/
theorem c18_no_details_fails : ∃ out, buildDict Src.yada ⟨false, false⟩ [Src.row ['a'] ['0'] ['0'] ['0'] []] = .ok out ∧
    wordDetails out.wordsIdx out.words 0 = .ok (some [[]]) := by
  refine ⟨_, rfl, ?_⟩
  decide +kernel

/-- C18: a NUL character inside a detail column splits it. -/
theorem c18_nul_fails : ∃ out, buildDict Src.yada ⟨false, false⟩ [Src.row ['a'] ['0'] ['0'] ['0'] [['x', '\x00', 'y']]] = .ok out ∧
    wordDetails out.wordsIdx out.words 0 = .ok (some [['x'], ['y']]) := by
  refine ⟨_, rfl, ?_⟩
  decide +kernel

example : ∃ w, readRow Src.cfg.normalizeDetails (Src.row ['～', 'a'] ['3'] ['+', '4'] [' ', '5', ' '] [['記', '号'], ['～']]) = some w ∧
    w.details = [['記', '号'], ['〜']] := ⟨_, rfl, rfl⟩
example : (do
    let out ← buildDict Src.yada Src.cfg Src.rows
    let found ← out.prefixDict.findSurface ['〜', 'a']
    found.mapM fun e => wordDetails out.wordsIdx out.words e.wordId.id.toNat) =
      (.ok [some [['記', '号'], ['〜']]] : R _) := by decide +kernel

/-! ### C19 Skipped rows do not shift word ids -/

/-- C19: building with unreadable rows skipped gives, for every surface, the same words with the same numbers and details as building the file
from which those rows were deleted. -/
theorem c19_skipped {yada : DaBuilder} (hy : YadaContract yada) (norm : Bool) (rows : List Row)
    (h4 : ∀ row ∈ rows, 4 ≤ row.fields.length) (hf : Fits norm rows) :
    ∃ out out', buildDict yada ⟨norm, true⟩ rows = .ok out ∧
      buildDict yada ⟨norm, false⟩ (rows.filter fun r => (readRow norm r).isSome) = .ok out' ∧
      ∀ surface, ∃ found found', out.prefixDict.findSurface surface = .ok found ∧
        out'.prefixDict.findSurface surface = .ok found' ∧
        List.Forall₂ (fun e e' => e.wordCost = e'.wordCost ∧ e.leftId = e'.leftId ∧ e.rightId = e'.rightId ∧
          wordDetails out.wordsIdx out.words e.wordId.id.toNat = wordDetails out'.wordsIdx out'.words e'.wordId.id.toNat)
          found found' := by
  have hsw : sourceWords norm (rows.filter fun r => (readRow norm r).isSome) = sourceWords norm rows := by
    unfold sourceWords
    induction rows with
    | nil => rfl
    | cons r rows ih =>
      have ih : ∀ rows : List Row, List.filterMap (readRow norm) (rows.filter fun r => (readRow norm r).isSome) =
          List.filterMap (readRow norm) rows := by
        intro rows
        induction rows with
        | nil => rfl
        | cons r rows ih =>
          cases hr : readRow norm r <;> simp [hr, ih]
      exact ih _
  have hsub : (rows.filter fun r => (readRow norm r).isSome).Sublist rows := List.filter_sublist
  have hf' : Fits norm (rows.filter fun r => (readRow norm r).isSome) := by
    refine ⟨?_, ?_, ?_, ?_, ?_, ?_, ?_⟩
    · intro s
      have := hf.homographs s
      unfold wordsFor at this ⊢
      rw [hsw]
      exact this
    · rw [hsw]; exact hf.total
    · have := hsub.length_le
      have := hf.numRows
      omega
    · have := sum_le_of_sublist (hsub.map detailSize)
      have := hf.detailBytes
      omega
    · exact fun r hr => hf.surfaces r (hsub.subset hr)
    · exact fun r hr => hf.noNul r (hsub.subset hr)
    · rw [hsw]; exact hf.nonempty
  obtain ⟨out, hb, -, find, hfind, hd, -⟩ := buildDict_spec hy (cfg := ⟨norm, true⟩) (rows := rows)
    (fun r hr => ⟨h4 r hr, .inl rfl⟩) hf
  obtain ⟨out', hb', -, find', hfind', hd', -⟩ := buildDict_spec hy (cfg := ⟨norm, false⟩)
    (rows := rows.filter fun r => (readRow norm r).isSome)
    (fun r hr => ⟨h4 r (hsub.subset hr), .inr (by simpa using (List.mem_filter.mp hr).2)⟩) hf'
  refine ⟨out, out', hb, hb', fun s => ⟨_, _, hfind s, hfind' s, ?_⟩⟩
  have h1 := hd s
  have h2 := hd' s
  have he : wordsFor norm (rows.filter fun r => (readRow norm r).isSome) s = wordsFor norm rows s := by
    unfold wordsFor; rw [hsw]
  simp only [he] at h1 h2
  generalize wordsFor norm rows s = ws at h1 h2
  generalize find s = es at h1
  generalize find' s = es' at h2
  induction h1 generalizing es' with
  | nil => cases h2; exact .nil
  | cons ha _ ih =>
    cases h2 with
    | cons hb h2 =>
      refine .cons ⟨?_, ?_, ?_, ?_⟩ (ih _ h2)
      · rw [ha.1, hb.1]
      · rw [ha.2.1, hb.2.1]
      · rw [ha.2.2.1, hb.2.2.1]
      · rw [ha.2.2.2, hb.2.2.2]

/-- Non-vacuity: the second row of the sample is unreadable. -/
example : (∀ row ∈ Src.rows, 4 ≤ row.fields.length) ∧ Fits true Src.rows ∧
    (Src.rows.filter fun r => (readRow true r).isSome).length = 3 := ⟨by decide, Src.fits, by decide +kernel⟩

/-- C19: without the skip option an unreadable number in any row is reported as a parse error, whatever the other rows (rows
have four or more columns). -/
theorem c19_reported (yada : DaBuilder) (norm : Bool) (rows : List Row) (h4 : ∀ row ∈ rows, 4 ≤ row.fields.length)
    (hbad : ∃ row ∈ rows, readRow norm row = none) :
    buildDict yada ⟨norm, false⟩ rows = .error (.err .parse) := by
  have hp := sortByKey_perm (DictCfg.rowKey ⟨norm, false⟩) rows
  have key : ∀ (xs : List (Row × Nat)) (m : EntryMap), (∀ p ∈ xs, 4 ≤ p.1.fields.length) →
      (∃ p ∈ xs, readRow norm p.1 = none) →
      xs.foldlM (init := m) (fun m (p : Row × Nat) => (do
        let e ← DictCfg.rowEntry ⟨norm, false⟩ p.2 p.1
        return pushEntry m e : R EntryMap)) = .error (.err .parse) := by
    intro xs
    induction xs with
    | nil => rintro m - ⟨p, hp, -⟩; simp at hp
    | cons p xs ih =>
      intro m h4 hbad
      rw [List.foldlM_cons, rowEntry_eq (h4 p (by simp))]
      cases hr : readRow norm p.1 with
      | none => simp
      | some w =>
        simp only [bind_ok]
        refine ih _ (fun q hq => h4 q (by simp [hq])) ?_
        obtain ⟨q, hq, hn⟩ := hbad
        rcases List.mem_cons.mp hq with rfl | hq
        · rw [hr] at hn; simp at hn
        · exact ⟨q, hq, hn⟩
  unfold buildDict DictCfg.entryMap
  simp only []
  rw [key]
  · rfl
  · intro p hp'
    exact h4 p.1 (hp.mem_iff.mp (List.fst_mem_of_mem_zipIdx hp'))
  · obtain ⟨row, hr, hn⟩ := hbad
    obtain ⟨i, hi, he⟩ := List.mem_iff_getElem.mp (hp.mem_iff.mpr hr)
    refine ⟨(row, i), ?_, hn⟩
    rw [List.mem_zipIdx_iff_getElem?, List.getElem?_eq_getElem hi]
    simp [he]

example : ∃ row ∈ Src.rows, readRow true row = none := by decide +kernel

/-! ### C54 Sources beyond the limits of the format -/

/-- C54 fails: 32 words with one surface build without error, and then none of them is found. -/
theorem c54_homographs_fails : ∃ rows out, rows.length = 32 ∧ buildDict Src.yada ⟨false, false⟩ rows = .ok out ∧
    Acceptable false false rows ∧ (wordsFor false rows ['a']).length = 32 ∧
    out.prefixDict.findSurface ['a'] = .ok [] := by
  refine ⟨List.replicate 32 (Src.row ['a'] ['0'] ['0'] ['0'] [['x']]), _, by simp, rfl, ?_, by decide +kernel, by decide +kernel⟩
  intro row hr
  rw [List.eq_of_mem_replicate hr]
  decide +kernel

/-- C54 (the part that holds): a source within the limits is never rejected and never loses a word. -/
theorem c54_within_limits_partial {yada : DaBuilder} (hy : YadaContract yada) (cfg : DictCfg) (rows : List Row)
    (ha : Acceptable cfg.normalizeDetails cfg.skipInvalid rows) (hf : Fits cfg.normalizeDetails rows) :
    ∃ out, buildDict yada cfg rows = .ok out ∧ ∀ surface, ∃ found, out.prefixDict.findSurface surface = .ok found ∧
      found.length = (wordsFor cfg.normalizeDetails rows surface).length := by
  obtain ⟨out, hb, h⟩ := c17_find_surface hy cfg rows ha hf
  refine ⟨out, hb, fun s => ?_⟩
  obtain ⟨found, h1, h2⟩ := h s
  exact ⟨found, h1, h2.length_eq⟩

/-- C54, exactly, for lookups of a surface: the build succeeds however many words share a surface, and a lookup finds `n % 32` of the `n` words with this surface, in order and without gaps. Which ones depends on the
number of words with smaller surfaces. -/
theorem c54_lookup {yada : DaBuilder} (hy : YadaContract yada) (cfg : DictCfg) (rows : List Row)
    (ha : Acceptable cfg.normalizeDetails cfg.skipInvalid rows) (hf : FitsApart cfg.normalizeDetails rows) :
    ∃ out, buildDict yada cfg rows = .ok out ∧ ∀ surface, ∃ found, out.prefixDict.findSurface surface = .ok found ∧
      found.length = (wordsFor cfg.normalizeDetails rows surface).length % 32 ∧
      List.Forall₂ (Describes (wordDetails out.wordsIdx out.words)) found
        (leftOver (wordsBefore cfg.normalizeDetails rows surface) (wordsFor cfg.normalizeDetails rows surface)) := by
  obtain ⟨out, hb, -, find, hfind, hd, -⟩ := buildDict_leftOver hy ha hf
  exact ⟨out, hb, fun s => ⟨_, hfind s, by rw [(hd s).length_eq, leftOver_length], hd s⟩⟩

/-- C54: a lookup finds all words with a surface exactly when fewer than 32 words have it. It never finds other words. -/
theorem c54_exact {yada : DaBuilder} (hy : YadaContract yada) (cfg : DictCfg) (rows : List Row)
    (ha : Acceptable cfg.normalizeDetails cfg.skipInvalid rows) (hf : FitsApart cfg.normalizeDetails rows) :
    ∃ out, buildDict yada cfg rows = .ok out ∧ ∀ surface,
      ((∃ found, out.prefixDict.findSurface surface = .ok found ∧ List.Forall₂ (Describes (wordDetails out.wordsIdx out.words)) found (wordsFor cfg.normalizeDetails rows surface)) ↔
        (wordsFor cfg.normalizeDetails rows surface).length < 32) ∧
      ∃ found ws, out.prefixDict.findSurface surface = .ok found ∧ List.Forall₂ (Describes (wordDetails out.wordsIdx out.words)) found ws ∧
        ws.Sublist (wordsFor cfg.normalizeDetails rows surface) := by
  obtain ⟨out, hb, -, find, hfind, hd, -⟩ := buildDict_leftOver hy ha hf
  refine ⟨out, hb, fun s => ⟨⟨?_, fun h => ⟨_, hfind s, ?_⟩⟩, _, _, hfind s, hd s, leftOver_sublist _ _⟩⟩
  · rintro ⟨found, h1, h2⟩
    rw [hfind s] at h1
    cases h1
    have h3 := h2.length_eq
    rw [(hd s).length_eq, leftOver_length] at h3
    omega
  · have := hd s
    rwa [leftOver_small _ h] at this

/-- C54, exactly, for the lookups of the tokenizer: at every position the words of a text are found that are left over of their homographs. -/
theorem c54_prefix {yada : DaBuilder} (hy : YadaContract yada) (cfg : DictCfg) (rows : List Row)
    (ha : Acceptable cfg.normalizeDetails cfg.skipInvalid rows) (hf : FitsApart cfg.normalizeDetails rows) :
    ∃ out, buildDict yada cfg rows = .ok out ∧ ∀ s : Str, ∃ found, out.prefixDict.prefix s = .ok found ∧
      List.Forall₂ (fun (p : Nat × WordEntry) (q : Nat × SourceWord) => p.1 = q.1 ∧ Describes (wordDetails out.wordsIdx out.words) p.2 q.2) found
        ((List.range s.length).flatMap fun i =>
          (leftOver (wordsBefore cfg.normalizeDetails rows (s.take (i + 1))) (wordsFor cfg.normalizeDetails rows (s.take (i + 1)))).map fun w => (blen w.surface, w)) := by
  obtain ⟨out, hb, hk, find, hfind, hd, -⟩ := buildDict_leftOver hy ha hf
  refine ⟨out, hb, fun s => ⟨_, prefix_eq_findSurface hk hfind s, ?_⟩⟩
  exact found_prefixes s _ (fun i => hd (s.take (i + 1))) (fun i w hw => by
    have hw := (leftOver_sublist _ _).subset hw
    simpa [wordsFor] using (List.mem_filter.mp hw).2) _

namespace Many

/-- One word `a` and 37 words `b` with different costs. -/
def rows : List Row := Src.row ['a'] ['0'] ['0'] ['7'] [['x']] :: (List.range 37).map fun i => Src.row ['b'] ['0'] ['0'] (Nat.repr i).toList [['y']]

theorem accepted : Acceptable false false rows := by unfold Acceptable; decide +kernel

theorem apart : FitsApart false rows where
  total := by decide +kernel
  numRows := by decide
  detailBytes := by decide +kernel
  surfaces := by decide +kernel
  noNul := by decide +kernel
  nonempty := by decide +kernel

end Many

/-- The conditions of the exact statements hold: five of 37 words are found, the first ones. -/
example : (∃ out, buildDict Src.yada ⟨false, false⟩ Many.rows = .ok out ∧ ∃ found, out.prefixDict.findSurface ['b'] = .ok found ∧ found.length = 5) ∧
    (leftOver (wordsBefore false Many.rows ['b']) (wordsFor false Many.rows ['b'])).map (·.cost) = [0, 1, 2, 3, 4] := by
  obtain ⟨out, hb, h⟩ := c54_lookup Src.yadaOk ⟨false, false⟩ Many.rows Many.accepted Many.apart
  obtain ⟨found, h1, h2, -⟩ := h ['b']
  refine ⟨⟨out, hb, found, h1, ?_⟩, by decide +kernel⟩
  rw [h2]
  decide +kernel

end Verif.Props
