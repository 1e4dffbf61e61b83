import Verif.Proofs.Scaled
import Verif.Props.Renamed
/-! C100: only the proportions of the costs matter, and not how they are shared between words and connections. -/
namespace Verif.Props
open Verif.Model Verif.Spec

/-! ### C100 The unit of the costs does not matter -/

private theorem tokensFor_rel {k : Int} {α β : UInt16 → Int} {L : Lexicon} {ws ws' : List Item} (h : List.Forall₂ (Scaled.Rel k α β L) ws ws') : ∀ {byte pos : Nat},
    Lexicon.tokensFor byte pos ws' = Lexicon.tokensFor byte pos ws := by
  induction h with
  | nil => intro _ _; rfl
  | cons h1 _ ih => intro byte pos; simp only [Lexicon.tokensFor, h1.surface, h1.details, ih]

private theorem one_answer {env : BuildEnv} {kind : DictionaryKind} {src : SourceDir} {user : Option (DictionaryKind × List Row)} {mode : Mode} {text : Str}
    {shown shown' : List (Str × Nat × Nat × Nat × Option (List Str))} (h : Tokenizes env kind src user mode text shown) (h' : Tokenizes env kind src user mode text shown') : shown = shown' := by
  obtain ⟨parts, m, u, toks, h1, h2, h3, h4, h5⟩ := h
  obtain ⟨parts', m', u', toks', h1', h2', h3', h4', h5'⟩ := h'
  cases h1.symm.trans h1'
  cases h2.symm.trans h2'
  cases h3.symm.trans h3'
  cases h4.symm.trans h4'
  exact Except.ok.inj (h5.symm.trans h5')

private theorem some_answer {env : BuildEnv} {kind : DictionaryKind} {src : SourceDir} {c : Contents} {user : Option (DictionaryKind × List Row)} (hr : Ready env kind src c user) (mode : Mode)
    {text : Str} {ss : List Str} (hss : Sentences text ss) : ∃ shown, Tokenizes env kind src user mode text shown := by
  obtain ⟨parts, m, u, h1, h2, h3, h4⟩ := c64_source_semantics env hr.yada hr.hashOrder kind src c hr.contents hr.good user hr.user
  obtain ⟨toks, segs, h5, h6, -⟩ := h4 mode text ss hss
  exact ⟨_, parts, m, u, toks, h1, h2, h3, h5, h6⟩

/-- C100: if all costs and penalties are multiplied by the same positive number, and costs are moved from connections to the words that have the contexts (or back), every text has the same tokens,
as long as the costs of its sentences fit into the range of costs. -/
theorem c100_tokens {env env' : BuildEnv} {kind kind' : DictionaryKind} {src src' : SourceDir} {c c' : Contents} {user user' : Option (DictionaryKind × List Row)} (hr : Ready env kind src c user)
    (hr' : Ready env' kind' src' c' user') {k : Int} {α β : UInt16 → Int} (h : Scaled k α β (c.lexicon kind user) (c'.lexicon kind' user')) {mode mode' : Mode} (hm : ScaledMode k mode mode')
    {text : Str} {ss : List Str} (hss : Sentences text ss) (hfit : ∀ s ∈ ss, (c.lexicon kind user).CostsFit mode s) (hfit' : ∀ s ∈ ss, (c'.lexicon kind' user').CostsFit mode' s)
    (shown : List (Str × Nat × Nat × Nat × Option (List Str))) : Tokenizes env kind src user mode text shown ↔ Tokenizes env' kind' src' user' mode' text shown := by
  have up : ∀ {shown}, Tokenizes env kind src user mode text shown → Tokenizes env' kind' src' user' mode' text shown := by
    intro shown ht
    obtain ⟨segs, h1, rfl⟩ := (c82_fitting env hr.yada hr.hashOrder kind src c hr.contents hr.good user hr.user mode text ss hss hfit shown).mp ht
    obtain ⟨segs', h2, h3⟩ := (h.corr hm).all_chosen h1
    exact (c82_fitting env' hr'.yada hr'.hashOrder kind' src' c' hr'.contents hr'.good user' hr'.user mode' text ss hss hfit' _).mpr ⟨segs', h2, (tokensFor_rel h3).symm⟩
  refine ⟨up, fun ht => ?_⟩
  obtain ⟨shown0, h0⟩ := some_answer hr mode hss
  rwa [one_answer ht (up h0)]

/-- C100: in particular for every text of short sentences. -/
theorem c100_short {env env' : BuildEnv} {kind kind' : DictionaryKind} {src src' : SourceDir} {c c' : Contents} {user user' : Option (DictionaryKind × List Row)} (hr : Ready env kind src c user)
    (hr' : Ready env' kind' src' c' user') {k : Int} {α β : UInt16 → Int} (h : Scaled k α β (c.lexicon kind user) (c'.lexicon kind' user')) {mode mode' : Mode} (hm : ScaledMode k mode mode')
    {text : Str} {ss : List Str} (hss : Sentences text ss) (hno : ∀ s ∈ ss, NoOverflow mode s ∧ NoOverflow mode' s) (shown : List (Str × Nat × Nat × Nat × Option (List Str))) :
    Tokenizes env kind src user mode text shown ↔ Tokenizes env' kind' src' user' mode' text shown :=
  c100_tokens hr hr' h hm hss (fun s hs => costsFit_of_short (hno s hs).1) (fun s hs => costsFit_of_short (hno s hs).2) shown

/-- C100: so for any two tokenizers that answer by such lexicons, whether they were compiled, loaded or built in. -/
theorem c100_answers {k : Int} {α β : UInt16 → Int} {L L' : Lexicon} (h : Scaled k α β L L') {t t' : Tokenizer} (ht : L.AnsweredBy t) (ht' : L'.AnsweredBy t') (hm : ScaledMode k t.mode t'.mode)
    {text : Str} {ss : List Str} (hss : Sentences text ss) (hfit : ∀ s ∈ ss, L.CostsFit t.mode s) (hfit' : ∀ s ∈ ss, L'.CostsFit t'.mode s) :
    ∃ toks toks' shown, t.tokenize text = .ok toks ∧ t'.tokenize text = .ok toks' ∧ Lexicon.visible t toks = .ok shown ∧ Lexicon.visible t' toks' = .ok shown := by
  obtain ⟨toks, segs0, h1, h2, -⟩ := ht text ss hss
  obtain ⟨segs, h3, h4⟩ := (c82_answers ht text ss hss hfit _).mp ⟨toks, h1, h2⟩
  obtain ⟨segs', h5, h6⟩ := (h.corr hm).all_chosen h3
  obtain ⟨toks', h7, h8⟩ := (c82_answers ht' text ss hss hfit' _).mpr ⟨segs', h5, rfl⟩
  exact ⟨toks, toks', _, h1, h7, h2, by rw [h8, h4, tokensFor_rel h6]⟩

/-! ### Non-vacuity -/

namespace Scl

/-- The example sources with twice the costs, where a word costs -1 or 4 more for its left context and 2 or -3 more for its right context. -/
def unkText : String := "DEFAULT,0,0,201,a,b,c,d,e,f\nNUMERIC,1,1,-13,a,b,c,d,e,f\nNUMERIC,0,1,96,a,b,c,d,e,f\n"
def matrixText : String := "2 2\n0 0 9\n0 1 -12\n1 0 8\n1 1 17\n"
def csv1 : String := "b,0,1,2,x\n"
def csv2 : String := "a,0,0,-5,y,z\nab,1,1,21,y,w\n"
def source : SourceDir :=
  ⟨some (utf8 Lang.charDefText.toList), some (utf8 unkText.toList), some (utf8 matrixText.toList), [some (utf8 csv1.toList), some (utf8 csv2.toList)]⟩

def contents : Contents where
  defs := Lang.contents.defs
  unk := [⟨"DEFAULT".toList, 0, 0, 201⟩, ⟨"NUMERIC".toList, 1, 1, -13⟩, ⟨"NUMERIC".toList, 0, 1, 96⟩]
  forward := 2
  backward := 2
  costs := [⟨0, 0, 9⟩, ⟨0, 1, -12⟩, ⟨1, 0, 8⟩, ⟨1, 1, 17⟩]
  rows := [⟨['b'], [['0'], ['1'], ['2'], ['x']]⟩, ⟨['a'], [['0'], ['0'], ['-', '5'], ['y'], ['z']]⟩, ⟨['a', 'b'], [['1'], ['1'], ['2', '1'], ['y'], ['w']]⟩]

theorem wellFormed : WellFormed Dir.env .unidic source contents where
  charDef := ⟨_, rfl, by rw [Lang.decode]; exact readDef_iff.mp (by decide +kernel)⟩
  unk := ⟨_, rfl, by rw [Lang.decode]; exact readUnk_iff.mp (by decide +kernel)⟩
  matrix := ⟨_, rfl, by
    rw [Lang.decode]
    exact ⟨"2 2".toList, ["0 0 9".toList, "0 1 -12".toList, "1 0 8".toList, "1 1 17".toList], lines_iff.mp (by decide +kernel), numberLine_iff (vs := [2, 2]).mp (by decide +kernel),
      .cons (numberLine_iff (vs := [0, 0, 9]).mp (by decide +kernel)) (.cons (numberLine_iff (vs := [0, 1, -12]).mp (by decide +kernel))
      (.cons (numberLine_iff (vs := [1, 0, 8]).mp (by decide +kernel)) (.cons (numberLine_iff (vs := [1, 1, 17]).mp (by decide +kernel)) .nil)))⟩⟩
  rows := ⟨[(utf8 csv1.toList, contents.rows.take 1), (utf8 csv2.toList, contents.rows.drop 1)], rfl, by decide +kernel, rfl⟩

theorem good : Good .unidic contents where
  ordered := Lang.good.ordered
  default := by decide +kernel
  unknown := by decide +kernel
  unkCount := by decide +kernel
  unkIds := by unfold Contents.Inside; decide +kernel
  zero := by unfold Contents.Inside; decide +kernel
  sizes := by decide +kernel
  cells := by decide +kernel
  rows := by unfold Acceptable; decide +kernel
  fits := Local.fits (by decide +kernel) (by decide +kernel) (by decide +kernel) (by decide +kernel) (by decide +kernel)
  rowIds := by unfold Contents.Inside; decide +kernel

theorem ready : Ready Dir.env .unidic source contents none :=
  ⟨Src.yadaOk, fun _ => .refl _, wellFormed_says wellFormed (by decide) (by decide), good, fun _ _ h => by cases h⟩

def α (n : UInt16) : Int := if n = 1 then 4 else -1
def β (n : UInt16) : Int := if n = 1 then -3 else 2

theorem costs {r l : UInt16} (h1 : (Lang.contents.lexicon .unidic none).RightUsed r) (h2 : (Lang.contents.lexicon .unidic none).LeftUsed l) :
    (contents.lexicon .unidic none).conn r l = 2 * (Lang.contents.lexicon .unidic none).conn r l - β r - α l := by
  have key : ∀ r ∈ (0 : UInt16) :: (Lang.contents.lexicon .unidic none).words.map (·.rightId) ++ (Lang.contents.lexicon .unidic none).unk.map (·.right),
      ∀ l ∈ (0 : UInt16) :: (Lang.contents.lexicon .unidic none).words.map (·.leftId) ++ (Lang.contents.lexicon .unidic none).unk.map (·.left),
      (contents.lexicon .unidic none).conn r l = 2 * (Lang.contents.lexicon .unidic none).conn r l - β r - α l := by decide +kernel
  refine key r ?_ l ?_
  · rcases h1 with rfl | ⟨w, hw, rfl⟩ | ⟨w, hw, rfl⟩
    · simp
    · exact List.mem_append_left _ (List.mem_cons_of_mem _ (List.mem_map_of_mem (f := fun w : Item => w.rightId) hw))
    · exact List.mem_append_right _ (List.mem_map_of_mem (f := fun w : UnkLine => w.right) hw)
  · rcases h2 with rfl | ⟨w, hw, rfl⟩ | ⟨w, hw, rfl⟩
    · simp
    · exact List.mem_append_left _ (List.mem_cons_of_mem _ (List.mem_map_of_mem (f := fun w : Item => w.leftId) hw))
    · exact List.mem_append_right _ (List.mem_map_of_mem (f := fun w : UnkLine => w.left) hw)

theorem scaled : Scaled 2 α β (Lang.contents.lexicon .unidic none) (contents.lexicon .unidic none) where
  factor := by decide
  words := by
    rw [Other.langWords, show (contents.lexicon .unidic none).words = [⟨['b'], 0, 1, 2, [['x']]⟩, ⟨['a'], 0, 0, -5, [['y'], ['z']]⟩, ⟨['a', 'b'], 1, 1, 21, [['y'], ['w']]⟩] by decide +kernel]
    exact .cons (by decide) (.cons (by decide) (.cons (by decide) .nil))
  unk := .cons (by decide +kernel) (.cons (by decide +kernel) (.cons (by decide +kernel) .nil))
  defs := rfl
  costs _ _ := costs

/-- Penalties for words of more than one character (a character counts as three bytes). -/
def mode : Mode := .decompose ⟨1, 50, 1, 60⟩
def mode' : Mode := .decompose ⟨1, 100, 1, 120⟩

end Scl

/-- The conditions of `c100_short` hold in normal mode. -/
example : Tokenizes Dir.env .unidic Scl.source none .normal "ab12c".toList
    [(['a', 'b'], 0, 2, 0, some [['y'], ['w']]), (['1', '2'], 2, 4, 1, some [['U', 'N', 'K']]), (['c'], 4, 5, 2, some [['U', 'N', 'K']])] :=
  (c100_short Other.langReady Scl.ready Scl.scaled (mode := .normal) (mode' := .normal) trivial (Twin.sentence _ (by decide +kernel))
    (fun s hs => by simp at hs; subst hs; exact ⟨noOverflow_normal (by decide +kernel), noOverflow_normal (by decide +kernel)⟩) _).mp (Extra.run_ok (by decide +kernel))

/-- And in decompose mode, where the penalties (here for the long number) are doubled, too. -/
example : Tokenizes Dir.env .unidic Scl.source none Scl.mode' "ab123456c".toList
    [(['a', 'b'], 0, 2, 0, some [['y'], ['w']]), (['1', '2', '3', '4', '5', '6'], 2, 8, 1, some [['U', 'N', 'K']]), (['c'], 8, 9, 2, some [['U', 'N', 'K']])] :=
  (c100_short Other.langReady Scl.ready Scl.scaled (mode := Scl.mode) (mode' := Scl.mode') (by unfold ScaledMode Scl.mode Scl.mode'; decide) (Twin.sentence _ (by decide +kernel))
    (fun s hs => by simp at hs; subst hs; unfold NoOverflow; decide +kernel) _).mp (Extra.run_ok (by decide +kernel))

/-- Tokenizers as in `c100_answers` and `c92_answers`. -/
example : ∃ t t' t'', (Lang.contents.lexicon .unidic none).AnsweredBy t ∧ (Scl.contents.lexicon .unidic none).AnsweredBy t' ∧ ((Other.contents Other.rows).lexicon .unidic none).AnsweredBy t'' ∧
    t.mode = .normal ∧ t'.mode = .normal ∧ t''.mode = .normal := by
  obtain ⟨parts, m, u, -, -, -, h⟩ := c64_source_semantics Dir.env Src.yadaOk (fun _ => .refl _) .unidic _ _ Other.langReady.contents Other.langReady.good none Other.langReady.user
  obtain ⟨parts', m', u', -, -, -, h'⟩ := c64_source_semantics Dir.env Src.yadaOk (fun _ => .refl _) .unidic _ _ Scl.ready.contents Scl.ready.good none Scl.ready.user
  obtain ⟨parts'', m'', u'', -, -, -, h''⟩ := c64_source_semantics Dir.env Src.yadaOk (fun _ => .refl _) .unidic _ _ Other.ready.contents Other.ready.good none Other.ready.user
  exact ⟨_, _, _, h .normal, h' .normal, h'' .normal, rfl, rfl, rfl⟩

end Verif.Props
