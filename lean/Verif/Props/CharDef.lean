import Verif.Proofs.CharDef
import Verif.Proofs.Unk
import Verif.Proofs.Accepted
import Verif.Props.Sample
/-! Properties of the compilers of character definitions and unknown words: C21, C22, C23, C24. -/
namespace Verif.Props
open Verif.Model Verif.Spec

/-- The text compiles, whatever the order of the hash map of names, to these character definitions. -/
def Compiles (text : Str) (d : CharDefs) : Prop :=
  ∃ b, CharDefBuilder.empty.parse text = .ok b ∧ ∀ order : List (Str × Nat), order.Perm b.index → b.build order = .ok d

theorem compiles_read {text : Str} {file : List DefLine} (h : DefRead text file) :
    ∃ b, BuilderOk file b (firsts (file.flatMap DefLine.names)) ∧
      Compiles text ⟨b.definitions, firsts (file.flatMap DefLine.names), b.buildLookupTable⟩ := by
  refine ⟨_, builderOk file, _, parse_iff.mpr ⟨file, h, rfl⟩, ?_⟩
  intro order ho
  have hb := builderOk file
  generalize file.foldl CharDefBuilder.step .empty = b at *
  unfold CharDefBuilder.build
  rw [hb.index] at ho ⊢
  rw [fillNames_spec ho]
  rfl

theorem compiles {text : Str} {file : List DefLine} (h : DefText text file) :
    ∃ b, BuilderOk file b (firsts (file.flatMap DefLine.names)) ∧
      Compiles text ⟨b.definitions, firsts (file.flatMap DefLine.names), b.buildLookupTable⟩ := compiles_read (defText_read h)

theorem categories_read (text : Str) (file : List DefLine) (h : DefRead text file) :
    ∃ d, Compiles text d ∧ ∀ c : Char, ∃ ids, d.lookupCategories c = .ok ids ∧ ids.Nodup ∧
      ids.mapM d.categoryName = .ok (categoriesOf file c.toNat) := by
  obtain ⟨b, hb, hc⟩ := compiles_read h
  refine ⟨_, hc, fun c => ?_⟩
  have h1 := lookupCategories_spec hb c.toNat
  refine ⟨_, buildLookupTable_eval b c.toNat, ?_, ?_⟩
  · unfold CharDefBuilder.lookupCategories
    dsimp only
    split
    · split <;> simp
    · rw [foldl_rangeStep]
      exact foldl_push_nodup _ _ List.nodup_nil
  · rw [mapM_ok_iff]
    refine h1.imp ?_
    intro i n hi
    simp only [CharDefs.categoryName]
    rw [hi]
    rfl

/-- C21: the categories of every character are those of the range lines that contain it, each once and in file order, or `DEFAULT`. -/
theorem c21_categories (text : Str) (file : List DefLine) (h : DefText text file) :
    ∃ d, Compiles text d ∧ ∀ c : Char, ∃ ids, d.lookupCategories c = .ok ids ∧ ids.Nodup ∧
      ids.mapM d.categoryName = .ok (categoriesOf file c.toNat) := categories_read text file (defText_read h)

/-- What `categoriesOf` lists: the names on a range line that contains the code point, or `DEFAULT`. -/
theorem mem_categoriesOf (file : List DefLine) (c : Nat) (name : Str) :
    name ∈ categoriesOf file c ↔
      (∃ lo hi names, DefLine.range lo hi names ∈ file ∧ lo ≤ c ∧ c ≤ hi ∧ name ∈ names) ∨
      ((∀ lo hi names, DefLine.range lo hi names ∈ file → lo ≤ c → c ≤ hi → names = []) ∧ name = ['D', 'E', 'F', 'A', 'U', 'L', 'T'] ∧
        ∃ l ∈ file, name ∈ l.names) := by
  have hflat : ∀ n, n ∈ file.flatMap (DefLine.categoriesOf c) ↔
      ∃ lo hi names, DefLine.range lo hi names ∈ file ∧ lo ≤ c ∧ c ≤ hi ∧ n ∈ names := by
    intro n
    rw [List.mem_flatMap]
    constructor
    · rintro ⟨l, hl, hn⟩
      cases l with
      | category => simp [DefLine.categoriesOf] at hn
      | range lo hi names =>
        simp only [DefLine.categoriesOf] at hn
        split at hn
        next h => exact ⟨lo, hi, names, hl, h.1, h.2, hn⟩
        next => simp at hn
    · rintro ⟨lo, hi, names, hl, h1, h2, hn⟩
      exact ⟨_, hl, by simp [DefLine.categoriesOf, h1, h2, hn]⟩
  have hnil : firsts (file.flatMap (DefLine.categoriesOf c)) = [] ↔
      ∀ lo hi names, DefLine.range lo hi names ∈ file → lo ≤ c → c ≤ hi → names = [] := by
    rw [List.eq_nil_iff_forall_not_mem]
    simp only [mem_firsts, hflat]
    constructor
    · intro h lo hi names hm h1 h2
      rw [List.eq_nil_iff_forall_not_mem]
      exact fun n hn => h n ⟨lo, hi, names, hm, h1, h2, hn⟩
    · rintro h n ⟨lo, hi, names, hm, h1, h2, hn⟩
      rw [h lo hi names hm h1 h2] at hn
      simp at hn
  unfold categoriesOf
  dsimp only
  rw [← hnil, ← hflat]
  split
  next h =>
    rw [List.mem_singleton]
    constructor
    · rintro rfl
      exact .inr ⟨h.1, rfl, List.mem_flatMap.mp h.2⟩
    · rintro (h' | ⟨-, h', -⟩)
      · rw [← mem_firsts, h.1] at h'
        simp at h'
      · exact h'
  next h =>
    rw [mem_firsts]
    constructor
    · exact .inl
    · rintro (h' | ⟨h1, rfl, h2⟩)
      · exact h'
      · exact absurd ⟨h1, List.mem_flatMap.mpr h2⟩ h

theorem flags_read (text : Str) (file : List DefLine) (h : DefRead text file) (ho : Ordered [] file) :
    ∃ d, Compiles text d ∧ ∀ id name, d.categoryName id = .ok name →
      ∃ data, definitionsOf file name = [data] ∧ d.lookupDefinition id = .ok data := by
  obtain ⟨b, hb, hc⟩ := compiles_read h
  refine ⟨_, hc, fun id name hn => ?_⟩
  have hnames : firsts (file.flatMap DefLine.names) = catNames file := by
    have := ordered_names ho [] (by simp)
    rwa [foldl_push_nil, List.nil_append] at this
  simp only [CharDefs.categoryName, orPanic_eq_ok, hnames] at hn
  obtain ⟨data, h1, h2⟩ := ordered_definition ho hn
  refine ⟨data, h1, ?_⟩
  simp only [CharDefs.lookupDefinition, hb.datas, h2, orPanic_some]

/-- C22, for files in which every category is defined once and before the first range line that mentions it: each category id has the flags that the
file gives for its name. -/
theorem c22_flags_partial (text : Str) (file : List DefLine) (h : DefText text file) (ho : Ordered [] file) :
    ∃ d, Compiles text d ∧ ∀ id name, d.categoryName id = .ok name →
      ∃ data, definitionsOf file name = [data] ∧ d.lookupDefinition id = .ok data := flags_read text file (defText_read h) ho

/-- The flags of the definition lines, in file order. -/
def definitionLines (file : List DefLine) : List CategoryData :=
  file.filterMap fun
    | .category _ data => some data
    | .range .. => none

/-- C22, exactly: for every file that is accepted, the category with the `k`-th name (in order of first mention) gets the flags of the `k`-th definition line, whichever category that line is about. Looking
them up panics if there is no such line. So the flags are right exactly if the `k`-th definition line gives those of the `k`-th name. -/
theorem c22_exact (text : Str) (file : List DefLine) (h : DefRead text file) :
    ∃ d, Compiles text d ∧ ∀ k, d.categoryName k = orPanic (firsts (file.flatMap DefLine.names))[k]? ∧ d.lookupDefinition k = orPanic (definitionLines file)[k]? := by
  obtain ⟨b, hb, hc⟩ := compiles_read h
  refine ⟨_, hc, fun k => ⟨rfl, ?_⟩⟩
  simp only [CharDefs.lookupDefinition, hb.datas]
  rfl

/-- C21: every id a character gets has a name and, if the file is ordered, a definition. -/
theorem c21_c22_no_panic (text : Str) (file : List DefLine) (h : DefText text file) (ho : Ordered [] file) :
    ∃ d, Compiles text d ∧ ∀ c : Char, ∃ ids, d.lookupCategories c = .ok ids ∧
      ∀ id ∈ ids, ∃ name data, d.categoryName id = .ok name ∧ d.lookupDefinition id = .ok data ∧ definitionsOf file name = [data] := by
  obtain ⟨d, hc, h1⟩ := c21_categories text file h
  obtain ⟨d', hc', h2⟩ := c22_flags_partial text file h ho
  have : d = d' := by
    obtain ⟨b, hb, hd⟩ := hc
    obtain ⟨b', hb', hd'⟩ := hc'
    rw [hb] at hb'
    cases hb'
    have e1 := hd _ (List.Perm.refl _)
    have e2 := hd' _ (List.Perm.refl _)
    rw [e1] at e2
    cases e2
    rfl
  subst this
  refine ⟨d, hc, fun c => ?_⟩
  obtain ⟨ids, h3, -, h4⟩ := h1 c
  refine ⟨ids, h3, fun id hid => ?_⟩
  obtain ⟨name, -, hn⟩ := mem_mapM_ok h4 hid
  obtain ⟨data, h5, h6⟩ := h2 id name hn
  exact ⟨name, data, hn, h6, h5⟩

/-- A small `char.def`: comments, blank lines, overlapping ranges and a repeated category. -/
def charDefText : Str :=
  "DEFAULT 0 1 0 # c\n\nKANJI 0 0 2\nNUM\t1 1 0\r\n0x0030..0x0039 NUM\n0x0035 KANJI NUM #x\n0x4E00..0x9FA5 KANJI".toList
/-- What it says. -/
def charDefFile : List DefLine :=
  [.category "DEFAULT".toList ⟨false, true, 0⟩, .category "KANJI".toList ⟨false, false, 2⟩, .category "NUM".toList ⟨true, true, 0⟩,
   .range 0x30 0x39 ["NUM".toList], .range 0x35 0x35 ["KANJI".toList, "NUM".toList], .range 0x4E00 0x9FA5 ["KANJI".toList]]

example : DefText charDefText charDefFile := readDef_iff.mp (by decide +kernel)
example : Ordered [] charDefFile := by
  refine .category (by decide) (.category (by decide) (.category (by decide) (.range (by decide) (.range (by decide) (.range (by decide) (.nil _))))))
example : categoriesOf charDefFile 0x35 = ["NUM".toList, "KANJI".toList] ∧ categoriesOf charDefFile 0x1F600 = ["DEFAULT".toList] := by
  decide +kernel
example : (do
    let b ← CharDefBuilder.empty.parse charDefText
    let d ← b.build b.index.reverse
    let x ← d.lookupCategories '5'
    let y ← d.lookupCategories '😀'
    return (x, y)) = (.ok ([2, 1], [0]) : R _) := by decide +kernel

/-- The flags found through the compiled definitions for the id of a category. -/
def flagsOf (text : Str) (id : Nat) : R (Str × CategoryData) := do
  let b ← CharDefBuilder.empty.parse text
  let d ← b.build b.index
  let n ← d.categoryName id
  let f ← d.lookupDefinition id
  return (n, f)

/-- C22 fails if a range line comes before the definitions and mentions the categories in another order: `A` gets the flags of `B`. -/
theorem c22_order_fails : ∃ text file, DefText text file ∧ flagsOf text 0 = .ok (['A'], ⟨true, true, 0⟩) ∧
    definitionsOf file ['A'] = [⟨false, false, 2⟩] :=
  ⟨"0x0041 A B\nB 1 1 0\nA 0 0 2".toList,
    [.range 0x41 0x41 [['A'], ['B']], .category ['B'] ⟨true, true, 0⟩, .category ['A'] ⟨false, false, 2⟩],
    readDef_iff.mp (by decide +kernel), by decide +kernel⟩

/-- The conditions of `c22_exact` hold for this file: names `A`, `B` in order of first mention, flags of `B`, `A` in order of definition. -/
example : DefRead "0x0041 A B\nB 1 1 0\nA 0 0 2".toList [.range 0x41 0x41 [['A'], ['B']], .category ['B'] ⟨true, true, 0⟩, .category ['A'] ⟨false, false, 2⟩] ∧
    definitionLines [.range 0x41 0x41 [['A'], ['B']], .category ['B'] ⟨true, true, 0⟩, .category ['A'] ⟨false, false, 2⟩] = [⟨true, true, 0⟩, ⟨false, false, 2⟩] :=
  ⟨defText_read (readDef_iff.mp (by decide +kernel)), rfl⟩

/-- C22 fails after a repeated definition: `B` gets flags of `A`. -/
theorem c22_repeated_fails : ∃ text file, DefText text file ∧ flagsOf text 1 = .ok (['B'], ⟨false, false, 3⟩) ∧
    definitionsOf file ['B'] = [⟨true, true, 0⟩] :=
  ⟨"A 0 0 2\nA 0 0 3\nB 1 1 0".toList,
    [.category ['A'] ⟨false, false, 2⟩, .category ['A'] ⟨false, false, 3⟩, .category ['B'] ⟨true, true, 0⟩],
    readDef_iff.mp (by decide +kernel), by decide +kernel⟩

/-- C22 fails for a category without definition: looking up its flags panics. -/
theorem c22_undefined_fails : ∃ text file, DefText text file ∧ flagsOf text 0 = .error .panic :=
  ⟨"0x0041 A".toList, [.range 0x41 0x41 [['A']]],
    readDef_iff.mp (by decide +kernel), by decide +kernel⟩

/-- C23: for every text, well-formed or not, the result does not depend on the iteration order of the hash map. -/
theorem c23_hash_order (text : Str) (b : CharDefBuilder) (h : CharDefBuilder.empty.parse text = .ok b)
    (order order' : List (Str × Nat)) (ho : order.Perm b.index) (ho' : order'.Perm b.index) :
    ∃ d, b.build order = .ok d ∧ b.build order' = .ok d := by
  have key : ∃ ms : List Str, b.index = ms.zipIdx := by
    have hstep : ∀ (b b' : CharDefBuilder) (line : Str), (∃ ms : List Str, b.index = ms.zipIdx) → b.parseLine line = .ok b' →
        ∃ ms : List Str, b'.index = ms.zipIdx := by
      rintro b b' line ⟨ms, hi⟩ hl
      unfold CharDefBuilder.parseLine at hl
      dsimp only at hl
      split at hl
      · cases hl
        exact ⟨ms, hi⟩
      split at hl
      · simp only [CharDefBuilder.parseRange, bind_eq_ok, pure_eq_ok, Except.ok.injEq] at hl
        obtain ⟨_, _, _, _, rfl⟩ := hl
        exact ⟨_, congrArg CharDefBuilder.index (categoryIds_spec hi _).1⟩
      · unfold CharDefBuilder.parseCategory at hl
        split at hl
        · simp only [bind_eq_ok, pure_eq_ok, Except.ok.injEq] at hl
          obtain ⟨_, _, _, _, _, _, rfl⟩ := hl
          exact ⟨_, congrArg CharDefBuilder.index (categoryId_spec hi _).1⟩
        · simp at hl
    refine foldlM_inv (f := CharDefBuilder.parseLine) (fun _ (b : CharDefBuilder) => ∃ ms : List Str, b.index = ms.zipIdx) ?_ _ _ _ ⟨[], rfl⟩ h
    intro x rest b b' hb hl
    exact hstep b b' x hb hl
  obtain ⟨ms, hi⟩ := key
  unfold CharDefBuilder.build
  rw [hi] at ho ho' ⊢
  rw [fillNames_spec ho, fillNames_spec ho']
  exact ⟨_, rfl, rfl⟩

example : ∃ b, CharDefBuilder.empty.parse charDefText = .ok b ∧ b.index.length = 3 ∧ b.build b.index.reverse = b.build b.index := by
  refine ⟨_, parse_of (file := charDefFile) (by decide +kernel) _, by decide +kernel, by decide +kernel⟩

/-- C24: for a well-formed file with ids and costs that fit 16 bits, looking up a category lists the entries of exactly the lines with its name, in file
order; no lookup panics. -/
theorem c24_unknown_words (categories : List Str) (expected : Nat) (text : Str) (ls : List UnkLine) (h : UnkText expected text ls)
    (hlen : ls.length ≤ 2 ^ 32) :
    ∃ u, parseUnk categories text expected = .ok u ∧ ∀ cat name, categories[cat]? = some name →
      ∃ ids, u.lookupWordIds cat = .ok ids ∧ ids.mapM u.wordEntry = .ok ((ls.filter fun l => l.name = name).map UnkLine.entry) := by
  refine ⟨⟨makeCategoryReferences categories (ls.map unkOf), ls.map UnkLine.entry⟩, ?_, ?_⟩
  · unfold parseUnk
    rw [readUnk_entries (readUnk_iff.mpr h), bind_ok]
    simp [makeCostsArray, unkOf_entry, Function.comp_def]
  · intro cat name hc
    refine ⟨entryIdsMatching (ls.map unkOf) name, ?_, ?_⟩
    · simp [UnkDict.lookupWordIds, makeCategoryReferences, hc]
    · exact lookup_entries _ ls name hlen [] ls rfl

/-- Non-vacuity of C24. -/
def unkText : Str := "DEFAULT,5,5,4769,x\nNUM,0,1,-3,y\nDEFAULT,6,6,8922,z\n".toList
example : UnkText 5 unkText [⟨"DEFAULT".toList, 5, 5, 4769⟩, ⟨"NUM".toList, 0, 1, -3⟩, ⟨"DEFAULT".toList, 6, 6, 8922⟩] :=
  readUnk_iff.mp (by decide +kernel)

/-- C24: a line with a wrong number of fields is rejected. -/
theorem c24_rejects (categories : List Str) (expected : Nat) (text : Str) (ls : List Str) (hls : TextLines text ls) (line : Str) (hl : line ∈ ls)
    (fields : List Str) (hf : Columns (· = ',') line fields) (hn : fields.length ≠ expected) : ∃ e, parseUnk categories text expected = .error e := by
  rw [← lines_iff.mpr hls] at hl
  rw [← (splitAll_iff comma_iff).mpr hf] at hn
  have h1 : parseUnkEntry expected (splitAll (· = ',') line) = .error (.err .content) := by
    unfold parseUnkEntry
    rw [if_pos hn]
  obtain ⟨e, he⟩ := mapM_error_mem (f := fun line => parseUnkEntry expected (splitAll (· = ',') line)) hl h1
  refine ⟨e, ?_⟩
  unfold parseUnk
  rw [he]
  rfl

example : ∃ fields, Columns (· = ',') "A,1,1".toList fields ∧ fields.length ≠ 5 := ⟨_, (splitAll_iff comma_iff).mp rfl, by decide +kernel⟩

/-- C24 fails for ids and costs beyond 16 bits: they are truncated without an error. -/
theorem c24_wide_fails : (do
    let u ← parseUnk [['A']] "A,65537,65536,40000".toList 4
    let ids ← u.lookupWordIds 0
    ids.mapM u.wordEntry) = (.ok [⟨⟨4294967295, true⟩, -25536, 1, 0⟩] : R _) := by decide +kernel

end Verif.Props
