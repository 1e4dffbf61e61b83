import Verif.Proofs.Reordered
import Verif.Props.Renamed
/-! C93: the order of lines in definition files matters only between lines for the same thing. -/
namespace Verif.Props
open Verif.Model Verif.Spec

/-! ### C93 The order of lines -/

/-- C93: dictionaries with the same words for each text, the same categories, flags and unknown words of every character, and the same connection costs in use give the same tokens. -/
theorem c93_meaning {env env' : BuildEnv} {kind kind' : DictionaryKind} {src src' : SourceDir} {c c' : Contents} {user user' : Option (DictionaryKind × List Row)} (hr : Ready env kind src c user)
    (hr' : Ready env' kind' src' c' user') (h : SameMeaning (c.lexicon kind user) (c'.lexicon kind' user')) {mode : Mode} {text : Str} {ss : List Str} (hss : Sentences text ss)
    (hno : ∀ s ∈ ss, (c.lexicon kind user).CostsFit mode s) {shown : List (Str × Nat × Nat × Nat × Option (List Str))} (ht : Tokenizes env kind src user mode text shown) : Tokenizes env' kind' src' user' mode text shown := by
  obtain ⟨segs, h1, rfl⟩ := (c82_fitting env hr.yada hr.hashOrder kind src c hr.contents hr.good user hr.user mode text ss hss hno shown).mp ht
  exact (c82_fitting env' hr'.yada hr'.hashOrder kind' src' c' hr'.contents hr'.good user' hr'.user mode text ss hss (fun s hs => h.fits (hno s hs)) _).mpr ⟨segs, h1.imp fun _ _ hc => h.chosen hc, rfl⟩

/-- C93: the lines of `char.def` (except for ranges with a code point in common), of `unk.def` (except for those of the same category) and of `matrix.def` (if no pair of ids occurs twice) can be written in any order. -/
theorem c93_reordered {env env' : BuildEnv} {kind : DictionaryKind} {src src' : SourceDir} {c c' : Contents} {user : Option (DictionaryKind × List Row)} (hr : Ready env kind src c user)
    (hr' : Ready env' kind src' c' user) (h : Reordered c c') {mode : Mode} {text : Str} {ss : List Str} (hss : Sentences text ss)
    (hno : ∀ s ∈ ss, (c.lexicon kind user).CostsFit mode s) {shown : List (Str × Nat × Nat × Nat × Option (List Str))} (ht : Tokenizes env kind src user mode text shown) : Tokenizes env' kind src' user mode text shown :=
  c93_meaning hr hr' (h.meaning hr.good.ordered kind user) hss hno ht

/-! ### Non-vacuity, and ranges with a code point in common -/

namespace Order

def unkText : String := "DEFAULT,0,0,100,a,b,c,d,e,f\nA,1,1,-7,a,b,c,d,e,f\nB,0,1,50,a,b,c,d,e,f\n"
def unkText' : String := "B,0,1,50,a,b,c,d,e,f\nA,1,1,-7,a,b,c,d,e,f\nDEFAULT,0,0,100,a,b,c,d,e,f\n"
def unk : List UnkLine := [⟨"DEFAULT".toList, 0, 0, 100⟩, ⟨['A'], 1, 1, -7⟩, ⟨['B'], 0, 1, 50⟩]
def unk' : List UnkLine := [⟨['B'], 0, 1, 50⟩, ⟨['A'], 1, 1, -7⟩, ⟨"DEFAULT".toList, 0, 0, 100⟩]
def matrixText : String := "2 2\n0 0 5\n0 1 -3\n1 0 2\n1 1 9\n"
def matrixText' : String := "2 2\n1 1 9\n0 0 5\n1 0 2\n0 1 -3\n"
def costs : List CostLine := [⟨0, 0, 5⟩, ⟨0, 1, -3⟩, ⟨1, 0, 2⟩, ⟨1, 1, 9⟩]
def costs' : List CostLine := [⟨1, 1, 9⟩, ⟨0, 0, 5⟩, ⟨1, 0, 2⟩, ⟨0, 1, -3⟩]
def csv : String := "a,0,0,-3,y,z\n"
def rows : List Row := [⟨['a'], [['0'], ['0'], ['-', '3'], ['y'], ['z']]⟩]

def source (charDefText unkText matrixText : String) : SourceDir := ⟨some (utf8 charDefText.toList), some (utf8 unkText.toList), some (utf8 matrixText.toList), [some (utf8 csv.toList)]⟩
def contents (defs : List DefLine) (unk : List UnkLine) (costs : List CostLine) : Contents := ⟨defs, unk, 2, 2, costs, rows⟩

theorem ready {charDefText unkText matrixText : String} {defs : List DefLine} {unk : List UnkLine} {costs : List CostLine} (h1 : readDef charDefText.toList = some defs)
    (h2 : readUnk 10 unkText.toList = some unk) (h3 : MatrixText matrixText.toList 2 2 costs) (ho : Ordered [] defs)
    (hx : "DEFAULT".toList ∈ defs.flatMap DefLine.names) (hn : ∀ name ∈ defs.flatMap DefLine.names, ∃ l ∈ unk, l.name = name) (hl : unk.length ≤ 2 ^ 32)
    (hi : ∀ l ∈ unk, l.left.toNat < 2 ∧ l.right.toNat < 2) (hc : ∀ l ∈ costs, l.forward < 2 ∧ l.backward < 2) : Ready Dir.env .unidic (source charDefText unkText matrixText) (contents defs unk costs) none := by
  have hw : WellFormed Dir.env .unidic (source charDefText unkText matrixText) (contents defs unk costs) :=
    { charDef := ⟨_, rfl, by rw [Lang.decode]; exact readDef_iff.mp h1⟩
      unk := ⟨_, rfl, by rw [Lang.decode]; exact readUnk_iff.mp h2⟩
      matrix := ⟨_, rfl, by rw [Lang.decode]; exact h3⟩
      rows := ⟨[(utf8 csv.toList, rows)], rfl, by decide +kernel, by simp [contents]⟩ }
  refine ⟨Src.yadaOk, fun _ => .refl _, wellFormed_says hw (show 2 < 2 ^ 31 ∧ 2 < 2 ^ 31 by decide) hc, ?_, fun _ _ h => by cases h⟩
  exact
    { ordered := ho
      default := hx
      unknown := hn
      unkCount := hl
      unkIds := hi
      zero := show (0 : UInt16).toNat < 2 ∧ (0 : UInt16).toNat < 2 by decide
      sizes := show 2 < 2 ^ 31 ∧ 2 < 2 ^ 15 ∧ 2 * 2 < 2 ^ 31 by decide
      cells := hc
      rows := show Acceptable _ _ rows by unfold Acceptable; decide +kernel
      fits := show Fits _ rows from Local.fits (by decide +kernel) (by decide +kernel) (by decide +kernel) (by decide +kernel) (by decide +kernel)
      rowIds := show ∀ w ∈ sourceWords (sourceFormat .unidic).unify rows, w.leftId.toNat < 2 ∧ w.rightId.toNat < 2 by decide +kernel }

theorem matrix : MatrixText matrixText.toList 2 2 costs :=
  ⟨"2 2".toList, ["0 0 5".toList, "0 1 -3".toList, "1 0 2".toList, "1 1 9".toList], lines_iff.mp (by decide +kernel), numberLine_iff (vs := [2, 2]).mp (by decide +kernel),
    .cons (numberLine_iff (vs := [0, 0, 5]).mp (by decide +kernel)) (.cons (numberLine_iff (vs := [0, 1, -3]).mp (by decide +kernel))
    (.cons (numberLine_iff (vs := [1, 0, 2]).mp (by decide +kernel)) (.cons (numberLine_iff (vs := [1, 1, 9]).mp (by decide +kernel)) .nil)))⟩

theorem matrix' : MatrixText matrixText'.toList 2 2 costs' :=
  ⟨"2 2".toList, ["1 1 9".toList, "0 0 5".toList, "1 0 2".toList, "0 1 -3".toList], lines_iff.mp (by decide +kernel), numberLine_iff (vs := [2, 2]).mp (by decide +kernel),
    .cons (numberLine_iff (vs := [1, 1, 9]).mp (by decide +kernel)) (.cons (numberLine_iff (vs := [0, 0, 5]).mp (by decide +kernel))
    (.cons (numberLine_iff (vs := [1, 0, 2]).mp (by decide +kernel)) (.cons (numberLine_iff (vs := [0, 1, -3]).mp (by decide +kernel)) .nil)))⟩

/-- `1` is in `A` and then in `B`, `2` is in `A`. -/
def defText : String := "DEFAULT 0 1 0\nA 1 1 0\nB 1 1 0\n0x0031..0x0032 A\n0x0031 B\n0x0078 B\n"
def defs : List DefLine :=
  [.category "DEFAULT".toList ⟨false, true, 0⟩, .category ['A'] ⟨true, true, 0⟩, .category ['B'] ⟨true, true, 0⟩, .range 0x31 0x32 [['A']], .range 0x31 0x31 [['B']], .range 0x78 0x78 [['B']]]
/-- The same in another order. -/
def defText' : String := "B 1 1 0\n0x0078 B\nA 1 1 0\n0x0031..0x0032 A\n0x0031 B\nDEFAULT 0 1 0\n"
def defs' : List DefLine :=
  [.category ['B'] ⟨true, true, 0⟩, .range 0x78 0x78 [['B']], .category ['A'] ⟨true, true, 0⟩, .range 0x31 0x32 [['A']], .range 0x31 0x31 [['B']], .category "DEFAULT".toList ⟨false, true, 0⟩]
/-- The two ranges with `1` are exchanged. -/
def swappedText : String := "DEFAULT 0 1 0\nA 1 1 0\nB 1 1 0\n0x0031 B\n0x0031..0x0032 A\n0x0078 B\n"
def swapped : List DefLine :=
  [.category "DEFAULT".toList ⟨false, true, 0⟩, .category ['A'] ⟨true, true, 0⟩, .category ['B'] ⟨true, true, 0⟩, .range 0x31 0x31 [['B']], .range 0x31 0x32 [['A']], .range 0x78 0x78 [['B']]]
/-- A range is cut into two. -/
def cutText : String := "DEFAULT 0 1 0\nA 1 1 0\nB 1 1 0\n0x0031 A B\n0x0032 A A # twice\n0x0078 B\n"
def cut : List DefLine :=
  [.category "DEFAULT".toList ⟨false, true, 0⟩, .category ['A'] ⟨true, true, 0⟩, .category ['B'] ⟨true, true, 0⟩, .range 0x31 0x31 [['A'], ['B']], .range 0x32 0x32 [['A'], ['A']], .range 0x78 0x78 [['B']]]

theorem readyDefs : Ready Dir.env .unidic (source defText unkText matrixText) (contents defs unk costs) none :=
  ready (by decide +kernel) (by decide +kernel) matrix (.category (by decide) (.category (by decide) (.category (by decide) (.range (by decide) (.range (by decide) (.range (by decide) (.nil _)))))))
    (by decide +kernel) (by decide +kernel) (by decide) (by decide) (by decide)

theorem readyDefs' : Ready Dir.env .unidic (source defText' unkText' matrixText') (contents defs' unk' costs') none :=
  ready (by decide +kernel) (by decide +kernel) matrix' (.category (by decide) (.range (by decide) (.category (by decide) (.range (by decide) (.range (by decide) (.category (by decide) (.nil _)))))))
    (by decide +kernel) (by decide +kernel) (by decide) (by decide) (by decide)

theorem readySwapped : Ready Dir.env .unidic (source swappedText unkText matrixText) (contents swapped unk costs) none :=
  ready (by decide +kernel) (by decide +kernel) matrix (.category (by decide) (.category (by decide) (.category (by decide) (.range (by decide) (.range (by decide) (.range (by decide) (.nil _)))))))
    (by decide +kernel) (by decide +kernel) (by decide) (by decide) (by decide)

theorem readyCut : Ready Dir.env .unidic (source cutText unkText matrixText) (contents cut unk costs) none :=
  ready (by decide +kernel) (by decide +kernel) matrix (.category (by decide) (.category (by decide) (.category (by decide) (.range (by decide) (.range (by decide) (.range (by decide) (.nil _)))))))
    (by decide +kernel) (by decide +kernel) (by decide) (by decide) (by decide)

theorem covers_none {p : Nat} (h1 : p ≠ 0x31) (h2 : p ≠ 0x32) (h3 : p ≠ 0x78) : (∀ l ∈ defs, ¬ DefLine.covers p l = true) ∧ (∀ l ∈ defs', ¬ DefLine.covers p l = true) ∧ ∀ l ∈ cut, ¬ DefLine.covers p l = true := by
  refine ⟨fun l hl => ?_, fun l hl => ?_, fun l hl => ?_⟩
  · simp only [defs, List.mem_cons, List.not_mem_nil, or_false] at hl
    rcases hl with rfl | rfl | rfl | rfl | rfl | rfl <;> simp only [DefLine.covers, decide_eq_true_eq, Bool.false_eq_true, not_false_eq_true] <;> omega
  · simp only [defs', List.mem_cons, List.not_mem_nil, or_false] at hl
    rcases hl with rfl | rfl | rfl | rfl | rfl | rfl <;> simp only [DefLine.covers, decide_eq_true_eq, Bool.false_eq_true, not_false_eq_true] <;> omega
  · simp only [cut, List.mem_cons, List.not_mem_nil, or_false] at hl
    rcases hl with rfl | rfl | rfl | rfl | rfl | rfl <;> simp only [DefLine.covers, decide_eq_true_eq, Bool.false_eq_true, not_false_eq_true] <;> omega

theorem reordered : Reordered (contents defs unk costs) (contents defs' unk' costs') where
  defs := by decide +kernel
  ranges p := by
    show defs'.filter _ = defs.filter _
    by_cases h1 : p = 0x31
    · subst h1; decide +kernel
    by_cases h2 : p = 0x32
    · subst h2; decide +kernel
    by_cases h3 : p = 0x78
    · subst h3; decide +kernel
    rw [List.filter_eq_nil_iff.mpr (covers_none h1 h2 h3).1, List.filter_eq_nil_iff.mpr (covers_none h1 h2 h3).2.1]
  unk name := by
    show unk'.filter _ = unk.filter _
    by_cases h1 : name = "DEFAULT".toList
    · subst h1; decide +kernel
    by_cases h2 : name = ['A']
    · subst h2; decide +kernel
    by_cases h3 : name = ['B']
    · subst h3; decide +kernel
    have hm : ∀ l ∈ unk ++ unk', l.name = "DEFAULT".toList ∨ l.name = ['A'] ∨ l.name = ['B'] := by decide +kernel
    have none : ∀ l ∈ unk ++ unk', ¬ decide (l.name = name) = true := by
      intro l hl e
      have e := of_decide_eq_true e
      rcases hm l hl with h | h | h <;> rw [e] at h <;> contradiction
    rw [List.filter_eq_nil_iff.mpr fun l hl => none l (List.mem_append_left _ hl), List.filter_eq_nil_iff.mpr fun l hl => none l (List.mem_append_right _ hl)]
  costs := by decide +kernel
  pairs := by decide +kernel
  rows := rfl

theorem cutCategories (p : Nat) : categoriesOf cut p = categoriesOf defs p := by
  by_cases h1 : p = 0x31
  · subst h1; decide +kernel
  by_cases h2 : p = 0x32
  · subst h2; decide +kernel
  by_cases h3 : p = 0x78
  · subst h3; decide +kernel
  have hd : ∀ file ∈ [defs, cut], ['D', 'E', 'F', 'A', 'U', 'L', 'T'] ∈ file.flatMap DefLine.names := by decide +kernel
  unfold categoriesOf
  simp only [covers_flatMap, List.filter_eq_nil_iff.mpr (covers_none h1 h2 h3).1, List.filter_eq_nil_iff.mpr (covers_none h1 h2 h3).2.2, hd defs (by simp), hd cut (by simp)]

theorem cutMeaning : SameMeaning ((contents defs unk costs).lexicon .unidic none) ((contents cut unk costs).lexicon .unidic none) where
  words _ := rfl
  categories c := cutCategories c.toNat
  flags _ _ := rfl
  unknown _ _ := rfl
  costs _ _ _ _ := rfl

end Order

/-- C93: the order of ranges with a code point in common matters. -/
theorem c93_overlap_matters : ∃ src src' c c', Ready Dir.env .unidic src c none ∧ Ready Dir.env .unidic src' c' none ∧ c'.defs.Perm c.defs ∧ c' = { c with defs := c'.defs } ∧
    ∃ text shown shown', Tokenizes Dir.env .unidic src none .normal text shown ∧ Tokenizes Dir.env .unidic src' none .normal text shown' ∧ shown.map (·.1) ≠ shown'.map (·.1) :=
  ⟨_, _, _, _, Order.readyDefs, Order.readySwapped, by decide +kernel, rfl, "12".toList,
    [(['1', '2'], 0, 2, 0, some [['U', 'N', 'K']])],
    [(['1'], 0, 1, 0, some [['U', 'N', 'K']]), (['2'], 1, 2, 1, some [['U', 'N', 'K']])],
    Extra.run_ok (by decide +kernel), Extra.run_ok (by decide +kernel), by decide +kernel⟩

/-- The conditions of `c93_reordered` hold. -/
example : Tokenizes Dir.env .unidic (Order.source Order.defText' Order.unkText' Order.matrixText') none .normal "12ax".toList
    [(['1', '2'], 0, 2, 0, some [['U', 'N', 'K']]), (['a'], 2, 3, 1, some [['y'], ['z']]), (['x'], 3, 4, 2, some [['U', 'N', 'K']])] :=
  c93_reordered Order.readyDefs Order.readyDefs' Order.reordered (Twin.sentence _ (by decide +kernel)) (fun s hs => costsFit_of_short (noOverflow_normal (by simp at hs; subst hs; decide +kernel)))
    (Extra.run_ok (by decide +kernel))

/-- The conditions of `c93_meaning` hold. -/
example : Tokenizes Dir.env .unidic (Order.source Order.cutText Order.unkText Order.matrixText) none .normal "12ax".toList
    [(['1', '2'], 0, 2, 0, some [['U', 'N', 'K']]), (['a'], 2, 3, 1, some [['y'], ['z']]), (['x'], 3, 4, 2, some [['U', 'N', 'K']])] :=
  c93_meaning Order.readyDefs Order.readyCut Order.cutMeaning (Twin.sentence _ (by decide +kernel)) (fun s hs => costsFit_of_short (noOverflow_normal (by simp at hs; subst hs; decide +kernel)))
    (Extra.run_ok (by decide +kernel))

end Verif.Props
