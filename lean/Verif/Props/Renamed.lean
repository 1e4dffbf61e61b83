import Verif.Proofs.Renamed
import Verif.Props.Added
/-! C92: names of categories, numbers of contexts and details of words do not influence the segmentation. -/
namespace Verif.Props
open Verif.Model Verif.Spec

/-! ### C92 Names and numbers do not matter -/

private theorem all_chosen {lm rm : UInt16 → UInt16} {ν : Str → Str} {L L' : Lexicon} (h : Renamed lm rm ν L L') {mode : Mode} {ss : List Str} {segs : List (List Item)}
    (hc : List.Forall₂ (L.Chosen mode) ss segs) : ∃ segs', List.Forall₂ (L'.Chosen mode) ss segs' ∧ List.Forall₂ (Renamed.Rel lm rm L) segs.flatten segs'.flatten ∧
      List.Forall₂ (Renamed.Shown L L') segs.flatten segs'.flatten := by
  obtain ⟨segs', h1, h2⟩ := (h.corr mode).all_chosen hc
  exact ⟨segs', h1, h2.imp fun _ _ => And.left, h2.imp fun _ _ => And.right⟩

private theorem tokensFor_spans {lm rm : UInt16 → UInt16} {L : Lexicon} {ws ws' : List Item} (h : List.Forall₂ (Renamed.Rel lm rm L) ws ws') : ∀ {byte pos : Nat},
    (Lexicon.tokensFor byte pos ws').map (fun t => (t.1, t.2.1, t.2.2.1, t.2.2.2.1)) = (Lexicon.tokensFor byte pos ws).map (fun t => (t.1, t.2.1, t.2.2.1, t.2.2.2.1)) := by
  induction h with
  | nil => intro _ _; rfl
  | cons h1 _ ih => intro byte pos; simp only [Lexicon.tokensFor, List.map_cons, h1.surface, ih]

private theorem tokensFor_same {lm rm : UInt16 → UInt16} {L L' : Lexicon} (hd : SameDetails L L') {ws ws' : List Item} (h : List.Forall₂ (Renamed.Rel lm rm L) ws ws')
    (h' : List.Forall₂ (Renamed.Shown L L') ws ws') : ∀ {byte pos : Nat}, Lexicon.tokensFor byte pos ws' = Lexicon.tokensFor byte pos ws := by
  induction h with
  | nil => intro _ _; rfl
  | cons h1 _ ih =>
    cases h' with
    | cons h2 h3 => intro byte pos; simp only [Lexicon.tokensFor, h1.surface, h2 hd, ih h3]

private theorem only_one {env : BuildEnv} {kind : DictionaryKind} {src : SourceDir} {user : Option (DictionaryKind × List Row)} {mode : Mode} {text : Str}
    {shown shown' : List (Str × Nat × Nat × Nat × Option (List Str))} (h : Tokenizes env kind src user mode text shown) (h' : Tokenizes env kind src user mode text shown') : shown = shown' := by
  obtain ⟨parts, m, u, toks, h1, h2, h3, h4, h5⟩ := h
  obtain ⟨parts', m', u', toks', h1', h2', h3', h4', h5'⟩ := h'
  cases h1.symm.trans h1'
  cases h2.symm.trans h2'
  cases h3.symm.trans h3'
  cases h4.symm.trans h4'
  exact Except.ok.inj (h5.symm.trans h5')

/-- C92: if categories are renamed, context ids are renumbered (0 and the connection costs are kept) and details of words are changed, every text whose costs fit into the range of costs is cut into the same tokens, at the same bytes. -/
theorem c92_segmentation {env env' : BuildEnv} {kind kind' : DictionaryKind} {src src' : SourceDir} {c c' : Contents} {user user' : Option (DictionaryKind × List Row)} (hr : Ready env kind src c user)
    (hr' : Ready env' kind' src' c' user') {lm rm : UInt16 → UInt16} {ν : Str → Str} (h : Renamed lm rm ν (c.lexicon kind user) (c'.lexicon kind' user')) {mode : Mode} {text : Str} {ss : List Str}
    (hss : Sentences text ss) (hfit : ∀ s ∈ ss, (c.lexicon kind user).CostsFit mode s) {shown shown' : List (Str × Nat × Nat × Nat × Option (List Str))} (ht : Tokenizes env kind src user mode text shown)
    (ht' : Tokenizes env' kind' src' user' mode text shown') : shown'.map (fun t => (t.1, t.2.1, t.2.2.1, t.2.2.2.1)) = shown.map (fun t => (t.1, t.2.1, t.2.2.1, t.2.2.2.1)) := by
  obtain ⟨segs, h1, rfl⟩ := (c82_fitting env hr.yada hr.hashOrder kind src c hr.contents hr.good user hr.user mode text ss hss hfit shown).mp ht
  obtain ⟨segs', h2, h3, -⟩ := all_chosen h h1
  rw [only_one ht' ((c82_fitting env' hr'.yada hr'.hashOrder kind' src' c' hr'.contents hr'.good user' hr'.user mode text ss hss (fun s hs => h.fits (hfit s hs)) _).mpr ⟨segs', h2, rfl⟩)]
  exact tokensFor_spans h3

/-- C92: if the details are kept, the tokens are the same. -/
theorem c92_tokens {env env' : BuildEnv} {kind kind' : DictionaryKind} {src src' : SourceDir} {c c' : Contents} {user user' : Option (DictionaryKind × List Row)} (hr : Ready env kind src c user)
    (hr' : Ready env' kind' src' c' user') {lm rm : UInt16 → UInt16} {ν : Str → Str} (h : Renamed lm rm ν (c.lexicon kind user) (c'.lexicon kind' user'))
    (hd : SameDetails (c.lexicon kind user) (c'.lexicon kind' user')) {mode : Mode} {text : Str} {ss : List Str} (hss : Sentences text ss) (hfit : ∀ s ∈ ss, (c.lexicon kind user).CostsFit mode s)
    {shown : List (Str × Nat × Nat × Nat × Option (List Str))} (ht : Tokenizes env kind src user mode text shown) : Tokenizes env' kind' src' user' mode text shown := by
  obtain ⟨segs, h1, rfl⟩ := (c82_fitting env hr.yada hr.hashOrder kind src c hr.contents hr.good user hr.user mode text ss hss hfit shown).mp ht
  obtain ⟨segs', h2, h3, h4⟩ := all_chosen h h1
  exact (c82_fitting env' hr'.yada hr'.hashOrder kind' src' c' hr'.contents hr'.good user' hr'.user mode text ss hss (fun s hs => h.fits (hfit s hs)) _).mpr ⟨segs', h2, (tokensFor_same hd h3 h4).symm⟩

/-- C92: so for any two tokenizers that answer by such lexicons, whether they were compiled, loaded or built in. -/
theorem c92_answers {lm rm : UInt16 → UInt16} {ν : Str → Str} {L L' : Lexicon} (h : Renamed lm rm ν L L') {t t' : Tokenizer} (ht : L.AnsweredBy t) (ht' : L'.AnsweredBy t') (hm : t'.mode = t.mode)
    {text : Str} {ss : List Str} (hss : Sentences text ss) (hfit : ∀ s ∈ ss, L.CostsFit t.mode s) {toks toks' : List Token} (hk : t.tokenize text = .ok toks) (hk' : t'.tokenize text = .ok toks')
    {shown shown' : List (Str × Nat × Nat × Nat × Option (List Str))} (hv : Lexicon.visible t toks = .ok shown) (hv' : Lexicon.visible t' toks' = .ok shown') :
    shown'.map (fun t => (t.1, t.2.1, t.2.2.1, t.2.2.2.1)) = shown.map (fun t => (t.1, t.2.1, t.2.2.1, t.2.2.2.1)) ∧ (SameDetails L L' → shown' = shown) := by
  obtain ⟨segs, h1, rfl⟩ := (c82_answers ht text ss hss hfit shown).mp ⟨toks, hk, hv⟩
  obtain ⟨segs', h2, h3, h4⟩ := all_chosen h h1
  obtain ⟨toks2, hk2, hv2⟩ := (c82_answers ht' text ss hss (fun s hs => by rw [hm]; exact h.fits (hfit s hs)) _).mpr ⟨segs', by rw [hm]; exact h2, rfl⟩
  cases hk2.symm.trans hk'
  cases hv2.symm.trans hv'
  exact ⟨tokensFor_spans h3, fun hd => tokensFor_same hd h3 h4⟩

/-! ### Non-vacuity -/

namespace Other

/-- The example sources with another name for `NUMERIC`, with context 1 renumbered as 2 (left) and 3 (right), and with the words of another file. -/
def charDefText : String := "DEFAULT 0 1 0\nZIFFER 1 1 0\n0x0030..0x0039 ZIFFER\n"
def unkText : String := "DEFAULT,0,0,100,a,b,c,d,e,f\nZIFFER,2,3,-7,a,b,c,d,e,f\nZIFFER,0,3,50,a,b,c,d,e,f\n"
def matrixText : String := "4 3\n0 0 5\n0 2 -3\n3 0 2\n3 2 9\n"
def source (csv : String) : SourceDir := ⟨some (utf8 charDefText.toList), some (utf8 unkText.toList), some (utf8 matrixText.toList), [some (utf8 csv.toList)]⟩

def contents (rows : List Row) : Contents where
  defs := [.category "DEFAULT".toList ⟨false, true, 0⟩, .category "ZIFFER".toList ⟨true, true, 0⟩, .range 0x30 0x39 ["ZIFFER".toList]]
  unk := [⟨"DEFAULT".toList, 0, 0, 100⟩, ⟨"ZIFFER".toList, 2, 3, -7⟩, ⟨"ZIFFER".toList, 0, 3, 50⟩]
  forward := 4
  backward := 3
  costs := [⟨0, 0, 5⟩, ⟨0, 2, -3⟩, ⟨3, 0, 2⟩, ⟨3, 2, 9⟩]
  rows := rows

/-- Other details, and the same details. -/
def csv : String := "b,0,3,3,x\na,0,0,-3,y\nab,2,3,10,v,w\n"
def rows : List Row := [⟨['b'], [['0'], ['3'], ['3'], ['x']]⟩, ⟨['a'], [['0'], ['0'], ['-', '3'], ['y']]⟩, ⟨['a', 'b'], [['2'], ['3'], ['1', '0'], ['v'], ['w']]⟩]
def csvKept : String := "b,0,3,3,x\na,0,0,-3,y,z\nab,2,3,10,y,w\n"
def rowsKept : List Row := [⟨['b'], [['0'], ['3'], ['3'], ['x']]⟩, ⟨['a'], [['0'], ['0'], ['-', '3'], ['y'], ['z']]⟩, ⟨['a', 'b'], [['2'], ['3'], ['1', '0'], ['y'], ['w']]⟩]

theorem wellFormed {csv : String} {rows : List Row} (h : Dir.env.csv true .utf8 (utf8 csv.toList) = some rows) : WellFormed Dir.env .unidic (source csv) (contents rows) where
  charDef := ⟨_, rfl, by rw [Lang.decode]; exact readDef_iff.mp (show readDef charDefText.toList = some (contents []).defs by decide +kernel)⟩
  unk := ⟨_, rfl, by rw [Lang.decode]; exact readUnk_iff.mp (show readUnk (sourceFormat .unidic).unkColumns unkText.toList = some (contents []).unk by decide +kernel)⟩
  matrix := ⟨_, rfl, by
    rw [Lang.decode]
    exact ⟨"4 3".toList, ["0 0 5".toList, "0 2 -3".toList, "3 0 2".toList, "3 2 9".toList], lines_iff.mp (by decide +kernel), numberLine_iff (vs := [4, 3]).mp (by decide +kernel),
      .cons (numberLine_iff (vs := [0, 0, 5]).mp (by decide +kernel)) (.cons (numberLine_iff (vs := [0, 2, -3]).mp (by decide +kernel))
      (.cons (numberLine_iff (vs := [3, 0, 2]).mp (by decide +kernel)) (.cons (numberLine_iff (vs := [3, 2, 9]).mp (by decide +kernel)) .nil)))⟩⟩
  rows := ⟨[(utf8 csv.toList, rows)], rfl, fun f hf => by cases List.mem_singleton.mp hf; exact h, by simp [contents]⟩

theorem good : Good .unidic (contents rows) where
  ordered := .category (by decide) (.category (by decide) (.range (by decide) (.nil _)))
  default := by decide +kernel
  unknown := by decide +kernel
  unkCount := by decide +kernel
  unkIds := by unfold Contents.Inside; decide +kernel
  zero := by unfold Contents.Inside; decide +kernel
  sizes := by decide +kernel
  cells := by decide +kernel
  rows := by unfold Acceptable; decide +kernel
  fits := Local.fits (by decide +kernel) (by decide +kernel) (by decide +kernel) (by decide +kernel) (by decide +kernel)
  rowIds := by unfold Contents.Inside; decide +kernel

theorem goodKept : Good .unidic (contents rowsKept) where
  ordered := good.ordered
  default := good.default
  unknown := good.unknown
  unkCount := good.unkCount
  unkIds := good.unkIds
  zero := good.zero
  sizes := good.sizes
  cells := good.cells
  rows := by unfold Acceptable; decide +kernel
  fits := Local.fits (by decide +kernel) (by decide +kernel) (by decide +kernel) (by decide +kernel) (by decide +kernel)
  rowIds := by unfold Contents.Inside; decide +kernel

theorem ready : Ready Dir.env .unidic (source csv) (contents rows) none :=
  ⟨Src.yadaOk, fun _ => .refl _, wellFormed_says (wellFormed (by decide +kernel)) (by decide) (by decide), good, fun _ _ h => by cases h⟩

theorem readyKept : Ready Dir.env .unidic (source csvKept) (contents rowsKept) none :=
  ⟨Src.yadaOk, fun _ => .refl _, wellFormed_says (wellFormed (by decide +kernel)) (by decide) (by decide), goodKept, fun _ _ h => by cases h⟩

theorem langReady : Ready Dir.env .unidic Lang.source Lang.contents none :=
  ⟨Src.yadaOk, fun _ => .refl _, Lang.saysSo, Lang.good, fun _ _ h => by cases h⟩

def lm (n : UInt16) : UInt16 := if n = 1 then 2 else n
def rm (n : UInt16) : UInt16 := if n = 1 then 3 else n
/-- `NUMERIC` and `ZIFFER` are exchanged. -/
def ν (s : Str) : Str := if s = "NUMERIC".toList then "ZIFFER".toList else if s = "ZIFFER".toList then "NUMERIC".toList else s

theorem costs (rs : List Row) {r l : UInt16} (h1 : (Lang.contents.lexicon .unidic none).RightUsed r) (h2 : (Lang.contents.lexicon .unidic none).LeftUsed l) :
    ((contents rs).lexicon .unidic none).conn (rm r) (lm l) = (Lang.contents.lexicon .unidic none).conn r l := by
  have key : ∀ r ∈ (0 : UInt16) :: (Lang.contents.lexicon .unidic none).words.map (·.rightId) ++ (Lang.contents.lexicon .unidic none).unk.map (·.right),
      ∀ l ∈ (0 : UInt16) :: (Lang.contents.lexicon .unidic none).words.map (·.leftId) ++ (Lang.contents.lexicon .unidic none).unk.map (·.left),
      ((contents []).lexicon .unidic none).conn (rm r) (lm l) = (Lang.contents.lexicon .unidic none).conn r l := by decide +kernel
  refine key r ?_ l ?_
  · rcases h1 with rfl | ⟨w, hw, rfl⟩ | ⟨w, hw, rfl⟩
    · simp
    · exact List.mem_append_left _ (List.mem_cons_of_mem _ (List.mem_map_of_mem (f := fun w : Item => w.rightId) hw))
    · exact List.mem_append_right _ (List.mem_map_of_mem (f := fun w : UnkLine => w.right) hw)
  · rcases h2 with rfl | ⟨w, hw, rfl⟩ | ⟨w, hw, rfl⟩
    · simp
    · exact List.mem_append_left _ (List.mem_cons_of_mem _ (List.mem_map_of_mem (f := fun w : Item => w.leftId) hw))
    · exact List.mem_append_right _ (List.mem_map_of_mem (f := fun w : UnkLine => w.left) hw)

theorem injective : Function.Injective ν := by
  intro a b h
  unfold ν at h
  split at h <;> split at h <;> (try split at h) <;> (try split at h) <;> simp_all

theorem langWords : (Lang.contents.lexicon .unidic none).words = [⟨['b'], 0, 1, 3, [['x']]⟩, ⟨['a'], 0, 0, -3, [['y'], ['z']]⟩, ⟨['a', 'b'], 1, 1, 10, [['y'], ['w']]⟩] := by decide +kernel

theorem renamed : Renamed lm rm ν (Lang.contents.lexicon .unidic none) ((contents rows).lexicon .unidic none) where
  words := by
    rw [langWords, show ((contents rows).lexicon .unidic none).words = [⟨['b'], 0, 3, 3, [['x']]⟩, ⟨['a'], 0, 0, -3, [['y']]⟩, ⟨['a', 'b'], 2, 3, 10, [['v'], ['w']]⟩] by decide +kernel]
    exact .cons (by decide) (.cons (by decide) (.cons (by decide) .nil))
  unk := by decide +kernel
  defs := by decide +kernel
  names := injective
  default := by decide +kernel
  edge := by decide
  costs _ _ := costs _

theorem renamedKept : Renamed lm rm ν (Lang.contents.lexicon .unidic none) ((contents rowsKept).lexicon .unidic none) where
  words := by
    rw [langWords, show ((contents rowsKept).lexicon .unidic none).words = [⟨['b'], 0, 3, 3, [['x']]⟩, ⟨['a'], 0, 0, -3, [['y'], ['z']]⟩, ⟨['a', 'b'], 2, 3, 10, [['y'], ['w']]⟩] by
      decide +kernel]
    exact .cons (by decide) (.cons (by decide) (.cons (by decide) .nil))
  unk := renamed.unk
  defs := renamed.defs
  names := injective
  default := renamed.default
  edge := renamed.edge
  costs _ _ := costs _

end Other

/-- The conditions of `c92_segmentation` hold. -/
example {shown : List (Str × Nat × Nat × Nat × Option (List Str))} (h : Tokenizes Dir.env .unidic (Other.source Other.csv) none .normal "ab12c".toList shown) :
    shown.map (fun t => (t.1, t.2.1, t.2.2.1, t.2.2.2.1)) = [(['a', 'b'], 0, 2, 0), (['1', '2'], 2, 4, 1), (['c'], 4, 5, 2)] :=
  c92_segmentation Other.langReady Other.ready Other.renamed (Twin.sentence _ (by decide +kernel)) (fun s hs => costsFit_of_short (noOverflow_normal (by simp at hs; subst hs; decide +kernel)))
    (shown := [(['a', 'b'], 0, 2, 0, some [['y'], ['w']]), (['1', '2'], 2, 4, 1, some [['U', 'N', 'K']]), (['c'], 4, 5, 2, some [['U', 'N', 'K']])]) (Extra.run_ok (by decide +kernel)) h

/-- The conditions of `c92_tokens` hold. -/
example : Tokenizes Dir.env .unidic (Other.source Other.csvKept) none .normal "ab12c".toList
    [(['a', 'b'], 0, 2, 0, some [['y'], ['w']]), (['1', '2'], 2, 4, 1, some [['U', 'N', 'K']]), (['c'], 4, 5, 2, some [['U', 'N', 'K']])] :=
  c92_tokens Other.langReady Other.readyKept Other.renamedKept (by unfold SameDetails; decide +kernel) (Twin.sentence _ (by decide +kernel))
    (fun s hs => costsFit_of_short (noOverflow_normal (by simp at hs; subst hs; decide +kernel))) (Extra.run_ok (by decide +kernel))

end Verif.Props
