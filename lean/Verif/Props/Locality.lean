import Verif.Proofs.Locality
import Verif.Props.Language
/-! C72, C73: what a tokenization depends on. -/
namespace Verif.Props
open Verif.Model Verif.Spec

private theorem visible_same {t t' : Tokenizer} {toks toks' : List Token} (h : List.Forall₂ (SameToken (SameShown t t')) toks toks') :
    ∃ v, Lexicon.visible t toks = .ok v ∧ Lexicon.visible t' toks' = .ok v := by
  induction h with
  | nil => exact ⟨[], rfl, rfl⟩
  | @cons a b as bs hab _ ih =>
    obtain ⟨v, h1, h2⟩ := ih
    obtain ⟨d, hd, hd'⟩ := hab.id
    have ha := c30_first t.dictionary t.userDictionary a hab.details.1 _ hd
    have hb := c30_first t'.dictionary t'.userDictionary b hab.details.2 _ hd'
    rw [bind_eq_ok] at ha hb
    obtain ⟨x, hx, ex⟩ := ha
    obtain ⟨y, hy, ey⟩ := hb
    simp only [pure_eq_ok, Except.ok.injEq] at ex ey
    refine ⟨(a.text, a.byteStart, a.byteEnd, a.position, some d) :: v, ?_, ?_⟩
    · unfold Lexicon.visible at h1 ⊢
      rw [List.mapM_cons, h1, hx]
      simp only [bind_ok, pure_eq_ok, ex]
    · unfold Lexicon.visible at h2 ⊢
      rw [List.mapM_cons, h2, hy]
      simp only [bind_ok, pure_eq_ok, ey, hab.text, hab.start, hab.stop, hab.position]

/-! ### C72 Only the words that occur in a text matter -/

/-- C72: two source directories with the same definition files, and two user dictionaries, whose word lists agree on the words that occur in a sentence of the text, give the same tokens: the same texts, byte
ranges, positions and details. -/
theorem c72_local (env env' : BuildEnv) (hy : YadaContract env.yada) (hy' : YadaContract env'.yada) (hh : ∀ index, (env.hashOrder index).Perm index)
    (hh' : ∀ index, (env'.hashOrder index).Perm index) (kind : DictionaryKind) (src src' : SourceDir) (c c' : Contents) (hd : SameDefinitions env env' src src')
    (hs : Says env kind src c) (hs' : Says env' kind src' c') (hg : Good kind c) (hg' : Good kind c') (user user' : Option (DictionaryKind × List Row))
    (hu : ∀ k rows, user = some (k, rows) → GoodUser k c rows) (hu' : ∀ k rows, user' = some (k, rows) → GoodUser k c' rows) (mode : Mode) (text : Str)
    (hw : ∀ w, OccursIn w text → wordsFor (sourceFormat kind).unify c.rows w = wordsFor (sourceFormat kind).unify c'.rows w ∧ userWordsOf user w = userWordsOf user' w) :
    ∃ shown, Tokenizes env kind src user mode text shown ∧ Tokenizes env' kind src' user' mode text shown := by
  obtain ⟨parts, m, u, h1, h2, h3, h4⟩ := compile_good hy hh hs hg hu
  obtain ⟨parts', m', u', h1', h2', h3', h4'⟩ := compile_good hy' hh' hs' hg' hu'
  obtain ⟨e1, e2, e3⟩ := compile_same hh hh' hd hs hg h1 h1'
  have em : m' = m := by
    rw [e3, h2] at h2'
    exact (Except.ok.inj h2').symm
  subst em
  have hsame : ∀ s ∈ splitInclusive isDelimiter text, SameEnv (SameShown ⟨parts.dictionary m', u, mode⟩ ⟨parts'.dictionary m', u', mode⟩)
      (Tokenizer.env ⟨parts.dictionary m', u, mode⟩) (Tokenizer.env ⟨parts'.dictionary m', u', mode⟩) s := by
    intro s hm
    exact same_env (h4 mode) (h4' mode) rfl e1.symm e2.symm (parts_unk_ids h1) fun w hw1 hw2 => hw w ⟨_, s, sentences_exist text, hm, hw1, hw2⟩
  have hrun := tokenize_same (t := ⟨parts.dictionary m', u, mode⟩) (t' := ⟨parts'.dictionary m', u', mode⟩) (text := text) rfl (fun _ _ => rfl) hsame
  obtain ⟨toks, ht⟩ := c10_no_panic ((h4 mode).consistent hg hu) text
  obtain ⟨toks', ht', hf⟩ := hrun.ok ht
  obtain ⟨v, hv, hv'⟩ := visible_same hf
  exact ⟨v, ⟨parts, m', u, toks, h1, h2, h3, ht, hv⟩, parts', m', u', toks', h1', h2', h3', ht', hv'⟩

/-- A tokenization is determined. -/
theorem c72_unique {env : BuildEnv} {kind : DictionaryKind} {src : SourceDir} {user : Option (DictionaryKind × List Row)} {mode : Mode} {text : Str}
    {v v' : List (Str × Nat × Nat × Nat × Option (List Str))} (h : Tokenizes env kind src user mode text v) (h' : Tokenizes env kind src user mode text v') : v = v' := by
  obtain ⟨parts, m, u, toks, h1, h2, h3, h4, h5⟩ := h
  obtain ⟨parts', m', u', toks', h1', h2', h3', h4', h5'⟩ := h'
  rw [h1] at h1'
  cases h1'
  rw [h2] at h2'
  cases h2'
  rw [h3] at h3'
  cases h3'
  rw [h4] at h4'
  cases h4'
  rw [h5] at h5'
  exact Except.ok.inj h5'

private theorem wordsFor_append (norm : Bool) (rows rows' : List Row) (w : Str) : wordsFor norm (rows ++ rows') w = wordsFor norm rows w ++ wordsFor norm rows' w := by
  simp [wordsFor, sourceWords, List.filterMap_append]

/-- C72: a word added to the word lists changes no text in which it does not occur. -/
theorem c72_added_word (env : BuildEnv) (hy : YadaContract env.yada) (hh : ∀ index, (env.hashOrder index).Perm index) (kind : DictionaryKind) (src src' : SourceDir) (c c' : Contents)
    (hd : SameDefinitions env env src src') (hs : Says env kind src c) (hs' : Says env kind src' c') (hg : Good kind c) (hg' : Good kind c')
    (before after : List Row) (row : Row) (hc : c.rows = before ++ after) (hc' : c'.rows = before ++ row :: after) (user : Option (DictionaryKind × List Row))
    (hu : ∀ k rows, user = some (k, rows) → GoodUser k c rows ∧ GoodUser k c' rows) (mode : Mode) (text : Str)
    (hrow : ∀ word, readRow (sourceFormat kind).unify row = some word → ¬ OccursIn word.surface text) :
    ∃ shown, Tokenizes env kind src user mode text shown ∧ Tokenizes env kind src' user mode text shown := by
  refine c72_local env env hy hy hh hh kind src src' c c' hd hs hs' hg hg' user user (fun k rows h => (hu k rows h).1) (fun k rows h => (hu k rows h).2) mode text fun w hw => ⟨?_, rfl⟩
  have : wordsFor (sourceFormat kind).unify [row] w = [] := by
    unfold wordsFor sourceWords
    rw [List.filterMap_cons, List.filterMap_nil]
    cases hr : readRow (sourceFormat kind).unify row with
    | none => rfl
    | some word =>
      have hne : word.surface ≠ w := fun he => hrow word hr (he ▸ hw)
      simp [hne]
  rw [hc, hc', show row :: after = [row] ++ after from rfl, wordsFor_append, wordsFor_append, wordsFor_append, this, List.nil_append]

/-- C72: a user dictionary none of whose words occurs in a text changes nothing. -/
theorem c72_unused_user (env : BuildEnv) (hy : YadaContract env.yada) (hh : ∀ index, (env.hashOrder index).Perm index) (kind : DictionaryKind) (src : SourceDir) (c : Contents)
    (hs : Says env kind src c) (hg : Good kind c) (k : DictionaryKind) (rows : List Row) (hu : GoodUser k c rows) (mode : Mode) (text : Str)
    (hrows : ∀ row ∈ rows, ∀ word, readUserRow k row = some word → ¬ OccursIn word.surface text) :
    ∃ shown, Tokenizes env kind src (some (k, rows)) mode text shown ∧ Tokenizes env kind src none mode text shown := by
  refine c72_local env env hy hy hh hh kind src src c c ⟨rfl, rfl, rfl, rfl⟩ hs hs hg hg (some (k, rows)) none (fun _ _ h => by cases h; exact hu) (fun _ _ h => by cases h) mode text
    fun w hw => ⟨rfl, ?_⟩
  unfold userWordsOf userWords
  rw [List.filter_nil, List.filter_eq_nil_iff]
  intro word hword
  obtain ⟨row, hr, hread⟩ := List.mem_filterMap.mp hword
  simp only [decide_eq_true_eq]
  exact fun he => hrows row hr word hread (he ▸ hw)

/-! ### C73 The order of the files does not matter -/

private theorem flatten_perm {α : Type} {xs ys : List (List α)} (h : xs.Perm ys) (hp : xs.Pairwise fun a b => a = [] ∨ b = []) : xs.flatten = ys.flatten := by
  induction h with
  | nil => rfl
  | cons x _ ih => rw [List.flatten_cons, List.flatten_cons, ih (List.pairwise_cons.mp hp).2]
  | swap x y zs =>
    have := (List.pairwise_cons.mp hp).1 x (by simp)
    rcases this with rfl | rfl <;> simp
  | trans h1 _ ih1 ih2 => exact (ih1 hp).trans (ih2 (hp.perm h1 fun h => h.symm))

private theorem wordsFor_files (norm : Bool) (files : List (List Row)) (w : Str) : wordsFor norm files.flatten w = (files.map fun f => wordsFor norm f w).flatten := by
  induction files with
  | nil => rfl
  | cons f fs ih => rw [List.flatten_cons, wordsFor_append, ih, List.map_cons, List.flatten_cons]

/-- C73: word lists in which no word is in two of the files can be read in any order, and by any run of the builder (hash maps in any order, any double-array builder that does its work): the tokens are the same. -/
theorem c73_file_order (env env' : BuildEnv) (hy : YadaContract env.yada) (hy' : YadaContract env'.yada) (hh : ∀ index, (env.hashOrder index).Perm index)
    (hh' : ∀ index, (env'.hashOrder index).Perm index) (kind : DictionaryKind) (src src' : SourceDir) (c c' : Contents) (hd : SameDefinitions env env' src src')
    (hs : Says env kind src c) (hs' : Says env' kind src' c') (hg : Good kind c) (hg' : Good kind c') (files files' : List (List Row)) (hp : files.Perm files')
    (hc : c.rows = files.flatten) (hc' : c'.rows = files'.flatten)
    (hdis : files.Pairwise fun f g => ∀ a ∈ sourceWords (sourceFormat kind).unify f, ∀ b ∈ sourceWords (sourceFormat kind).unify g, a.surface ≠ b.surface)
    (user : Option (DictionaryKind × List Row)) (hu : ∀ k rows, user = some (k, rows) → GoodUser k c rows ∧ GoodUser k c' rows) (mode : Mode) (text : Str) :
    ∃ shown, Tokenizes env kind src user mode text shown ∧ Tokenizes env' kind src' user mode text shown := by
  refine c72_local env env' hy hy' hh hh' kind src src' c c' hd hs hs' hg hg' user user (fun k rows h => (hu k rows h).1) (fun k rows h => (hu k rows h).2) mode text fun w _ => ⟨?_, rfl⟩
  rw [hc, hc', wordsFor_files, wordsFor_files]
  refine flatten_perm (hp.map _) ?_
  rw [List.pairwise_map]
  refine hdis.imp fun {f g} h => ?_
  by_contra hn
  rw [not_or] at hn
  obtain ⟨a, ha⟩ := List.exists_mem_of_ne_nil _ hn.1
  obtain ⟨b, hb⟩ := List.exists_mem_of_ne_nil _ hn.2
  unfold wordsFor at ha hb
  obtain ⟨ha, ea⟩ := List.mem_filter.mp ha
  obtain ⟨hb, eb⟩ := List.mem_filter.mp hb
  simp only [decide_eq_true_eq] at ea eb
  exact h a ha b hb (ea.trans eb.symm)

/-- C73: in particular, building twice from the same sources gives dictionaries that tokenize every text alike. -/
theorem c73_reproducible (env env' : BuildEnv) (hy : YadaContract env.yada) (hy' : YadaContract env'.yada) (hh : ∀ index, (env.hashOrder index).Perm index)
    (hh' : ∀ index, (env'.hashOrder index).Perm index) (hdec : env'.decode = env.decode) (hcsv : env'.csv = env.csv) (kind : DictionaryKind) (src : SourceDir) (c : Contents)
    (hs : Says env kind src c) (hg : Good kind c) (user : Option (DictionaryKind × List Row)) (hu : ∀ k rows, user = some (k, rows) → GoodUser k c rows) (mode : Mode) (text : Str) :
    ∃ shown, Tokenizes env kind src user mode text shown ∧ Tokenizes env' kind src user mode text shown := by
  refine c72_local env env' hy hy' hh hh' kind src src c c ⟨hdec, rfl, rfl, rfl⟩ hs ?_ hg hg user user hu hu mode text fun _ _ => ⟨rfl, rfl⟩
  obtain ⟨h1, h2, h3, h4⟩ := hs
  exact ⟨by rw [hdec]; exact h1, by rw [hdec]; exact h2, by rw [hdec]; exact h3, by rw [hcsv]; exact h4⟩

/-! ### Non-vacuity -/

namespace Local

def csv3 : String := "zz,1,0,-500,q\n"

/-- One file more. -/
def more : SourceDir := { Lang.source with csvs := Lang.source.csvs ++ [some (utf8 csv3.toList)] }
def zz : Row := ⟨['z', 'z'], [['1'], ['0'], ['-', '5', '0', '0'], ['q']]⟩
def moreContents : Contents := { Lang.contents with rows := Lang.contents.rows ++ [zz] }

theorem fits {rows : List Row} (h3 : (sourceWords false rows).length < 32) (h : rows.length < 2 ^ 32) (h1 : (rows.map detailSize).sum < 2 ^ 32)
    (h2 : ∀ row ∈ rows, row.first ≠ [] ∧ ∀ f ∈ row.fields, '\x00' ∉ f) (h4 : sourceWords false rows ≠ []) : Fits false rows where
  homographs s := by
    have h1 := List.length_filter_le (fun w : SourceWord => decide (w.surface = s)) (sourceWords false rows)
    unfold wordsFor
    omega
  total := by omega
  numRows := h
  detailBytes := h1
  surfaces row hr := (h2 row hr).1
  noNul row hr := (h2 row hr).2
  nonempty := h4

theorem good {rows : List Row} (h : Acceptable false false rows) (h1 : Fits false rows) (h2 : ∀ w ∈ sourceWords false rows, w.leftId.toNat < 2 ∧ w.rightId.toNat < 2) :
    Good .unidic { Lang.contents with rows := rows } where
  ordered := Lang.good.ordered
  default := Lang.good.default
  unknown := Lang.good.unknown
  unkCount := Lang.good.unkCount
  unkIds := Lang.good.unkIds
  zero := Lang.good.zero
  sizes := Lang.good.sizes
  cells := Lang.good.cells
  rows := h
  fits := h1
  rowIds := h2

theorem moreSays : Says Dir.env .unidic more moreContents :=
  ⟨Lang.saysSo.charDef, Lang.saysSo.unk, Lang.saysSo.matrix,
    [(utf8 Lang.csv1.toList, Lang.contents.rows.take 1), (utf8 Lang.csv2.toList, Lang.contents.rows.drop 1), (utf8 csv3.toList, [zz])], rfl, by decide +kernel, rfl⟩

theorem moreGood : Good .unidic moreContents :=
  good (by unfold Acceptable; decide +kernel) (fits (by decide +kernel) (by decide +kernel) (by decide +kernel) (by decide +kernel) (by decide +kernel)) (by decide +kernel)

/-- The two files in the other order. -/
def swapped : SourceDir := { Lang.source with csvs := Lang.source.csvs.reverse }
def swappedContents : Contents := { Lang.contents with rows := Lang.contents.rows.drop 1 ++ Lang.contents.rows.take 1 }

theorem swappedSays : Says Dir.env .unidic swapped swappedContents :=
  ⟨Lang.saysSo.charDef, Lang.saysSo.unk, Lang.saysSo.matrix,
    [(utf8 Lang.csv2.toList, Lang.contents.rows.drop 1), (utf8 Lang.csv1.toList, Lang.contents.rows.take 1)], rfl, by decide +kernel, rfl⟩

theorem swappedGood : Good .unidic swappedContents :=
  good (by unfold Acceptable; decide +kernel) (fits (by decide +kernel) (by decide +kernel) (by decide +kernel) (by decide +kernel) (by decide +kernel)) (by decide +kernel)

instance decEqTail : DecidableEq (Nat × Nat × Option (List Str)) := inferInstance
instance decEqShown : DecidableEq (Str × Nat × Nat × Nat × Option (List Str)) := inferInstance

/-- What compiling and tokenizing shows. -/
def run (src : SourceDir) (text : Str) : R (List (Str × Nat × Nat × Nat × Option (List Str))) := do
  let parts ← compile Dir.env .unidic src
  let m ← ConnMatrix.load parts.matrix
  let toks ← Tokenizer.tokenize ⟨parts.dictionary m, none, .normal⟩ text
  Lexicon.visible ⟨parts.dictionary m, none, .normal⟩ toks

theorem run_ok {src : SourceDir} {text : Str} {v : List (Str × Nat × Nat × Nat × Option (List Str))} (h : run src text = .ok v) :
    Tokenizes Dir.env .unidic src none .normal text v := by
  unfold run at h
  rw [bind_eq_ok] at h
  obtain ⟨parts, h1, h⟩ := h
  rw [bind_eq_ok] at h
  obtain ⟨m, h2, h⟩ := h
  rw [bind_eq_ok] at h
  obtain ⟨toks, h3, h⟩ := h
  exact ⟨parts, m, none, toks, h1, h2, rfl, h3, h⟩

/-- The same word with equal numbers in two files. -/
def tied (first second : String) : SourceDir := { Lang.source with csvs := [some (utf8 first.toList), some (utf8 second.toList)] }

end Local

/-- `zz` does not occur in `ab1。a`. -/
example : ∃ shown, Tokenizes Dir.env .unidic Lang.source none .normal "ab1。a".toList shown ∧ Tokenizes Dir.env .unidic Local.more none .normal "ab1。a".toList shown := by
  refine c72_added_word Dir.env Src.yadaOk (fun _ => .refl _) .unidic Lang.source Local.more Lang.contents Local.moreContents ⟨rfl, rfl, rfl, rfl⟩ Lang.saysSo Local.moreSays Lang.good
    Local.moreGood Lang.contents.rows [] Local.zz (by simp) rfl none (fun _ _ h => by cases h) .normal _ ?_
  rintro word hw ⟨ss, s, hss, hs, -, hin⟩
  have hz : word.surface = ['z', 'z'] := by
    have : readRow false Local.zz = some ⟨['z', 'z'], -500, 1, 0, [['q']]⟩ := by decide +kernel
    rw [show (sourceFormat .unidic).unify = false from rfl, this] at hw
    cases hw; rfl
  rw [hz] at hin
  have : 'z' ∈ "ab1。a".toList := by
    rw [← sentences_split hss] at hs
    have h1 := splitInclusive_flatten isDelimiter "ab1。a".toList
    rw [← h1]
    exact List.mem_flatten.mpr ⟨s, hs, hin.subset (by simp)⟩
  revert this
  decide +kernel

/-- In `zz` it does occur, and the tokens differ. -/
example : ∃ v v', Tokenizes Dir.env .unidic Lang.source none .normal "azz".toList v ∧ Tokenizes Dir.env .unidic Local.more none .normal "azz".toList v' ∧ v ≠ v' :=
  ⟨[(['a'], 0, 1, 0, some [['y'], ['z']]), (['z', 'z'], 1, 3, 1, some ["UNK".toList])], [(['a'], 0, 1, 0, some [['y'], ['z']]), (['z', 'z'], 1, 3, 1, some [['q']])],
    Local.run_ok (by decide +kernel), Local.run_ok (by decide +kernel), by decide +kernel⟩

example : ∃ shown, Tokenizes Dir.env .unidic Lang.source Lang.user .normal "ab1".toList shown ∧ Tokenizes Dir.env .unidic Lang.source none .normal "ab1".toList shown := by
  refine c72_unused_user Dir.env Src.yadaOk (fun _ => .refl _) .unidic Lang.source Lang.contents Lang.saysSo Lang.good .ipadic [Usr.simple] (Lang.goodUser _ (.inl rfl)) .normal _ ?_
  rintro row hr word hw ⟨ss, s, hss, hs, -, hin⟩
  rw [List.mem_singleton] at hr
  subst hr
  rw [← sentences_split hss, show splitInclusive isDelimiter "ab1".toList = ["ab1".toList] by decide +kernel, List.mem_singleton] at hs
  subst hs
  have h1 : (readUserRow .ipadic Usr.simple).map (fun w => w.surface.all fun c => c ∉ "ab1".toList) = some true := by decide +kernel
  have h2 : (readUserRow .ipadic Usr.simple).map (fun w => w.surface ≠ []) = some True := by
    rw [hw]
    have : (readUserRow .ipadic Usr.simple).map (fun w => decide (w.surface ≠ [])) = some true := by decide +kernel
    rw [hw] at this
    simpa using this
  rw [hw] at h1 h2
  simp only [Option.map_some, Option.some.injEq] at h1 h2
  obtain ⟨c, hc⟩ := List.exists_mem_of_ne_nil _ (of_eq_true h2)
  have := List.all_eq_true.mp h1 c hc
  simp only [decide_eq_true_eq] at this
  exact this (hin.subset hc)

example (text : Str) : ∃ shown, Tokenizes Dir.env .unidic Lang.source none .normal text shown ∧ Tokenizes Dir.env .unidic Local.swapped none .normal text shown :=
  c73_file_order Dir.env Dir.env Src.yadaOk Src.yadaOk (fun _ => .refl _) (fun _ => .refl _) .unidic Lang.source Local.swapped Lang.contents Local.swappedContents ⟨rfl, rfl, rfl, rfl⟩
    Lang.saysSo Local.swappedSays Lang.good Local.swappedGood [Lang.contents.rows.take 1, Lang.contents.rows.drop 1] [Lang.contents.rows.drop 1, Lang.contents.rows.take 1] (.swap _ _ _)
    rfl rfl (by decide +kernel) none (fun _ _ h => by cases h) .normal text

/-- A word that is in two files, with the same numbers: the file read first wins, so here the order does matter. -/
example : ∃ v v', Tokenizes Dir.env .unidic (Local.tied "a,0,0,0,x\n" "a,0,0,0,y\n") none .normal ['a'] v ∧
    Tokenizes Dir.env .unidic (Local.tied "a,0,0,0,y\n" "a,0,0,0,x\n") none .normal ['a'] v' ∧ v ≠ v' :=
  ⟨[(['a'], 0, 1, 0, some [['x']])], [(['a'], 0, 1, 0, some [['y']])], Local.run_ok (by decide +kernel), Local.run_ok (by decide +kernel), by decide +kernel⟩

example (text : Str) : ∃ shown, Tokenizes Dir.env .unidic Lang.source Lang.user .normal text shown ∧
    Tokenizes { Dir.env with hashOrder := List.reverse } .unidic Lang.source Lang.user .normal text shown :=
  c73_reproducible Dir.env { Dir.env with hashOrder := List.reverse } Src.yadaOk Src.yadaOk (fun _ => .refl _) (fun _ => List.reverse_perm _) rfl rfl .unidic Lang.source Lang.contents
    Lang.saysSo Lang.good Lang.user Lang.users .normal text

end Verif.Props
