import Verif.Proofs.Storable
import Verif.Props.Tokenize
import Verif.Props.Lattice
import Verif.Props.UserDict
import Verif.Props.BuildDir
import Verif.Spec.Language
/-! C64, C65: tokenization from the source files. -/
namespace Verif.Props
open Verif.Model Verif.Spec

/-! ### C64 Tokenization is described by the source files -/

theorem segs_items {L : Lexicon} {t : Tokenizer} {look : WordId → List Str → Prop} {F B : Nat} (h : Rep L t.env look) (hc : RepCost L t.dictionary.costMatrix F B)
    {ss : List Str} {segs : List (List Word)}
    (hs : List.Forall₂ (SegResult t.env t.dictionary.costMatrix) ss segs) :
    ∃ items : List (List Item), List.Forall₂ (Match look) segs.flatten items.flatten ∧
      List.Forall₂ (fun s ws => L.Segmentation t.mode s ws ∧ (L.CostsFit t.mode s → L.Chosen t.mode s ws)) ss items ∧
      List.Forall₂ (L.LastRule t.mode) ss items := by
  induction hs with
  | nil => exact ⟨[], .nil, .nil, .nil⟩
  | cons h1 _ ih =>
    obtain ⟨its, h2, h3, h4⟩ := h.segResult hc h1.1 h1.2.1 (fun hno => (h1.2.2.1 hno).1)
    obtain ⟨items, h5, h6, h7⟩ := ih
    exact ⟨its :: items, by simpa using forall₂_append h2 h5, .cons ⟨h3, h4⟩ h6, .cons (h.lastRule hc h2 h3 h1.2.2.2.1) h7⟩

theorem visible_words {t : Tokenizer} {ws : List Word} {its : List Item} (h : List.Forall₂ (Match (Shows t.dictionary t.userDictionary)) ws its) : ∀ b p,
    Lexicon.visible t (Verif.Spec.tokensFor b p ws) = .ok (Lexicon.tokensFor b p its) := by
  induction h with
  | nil => intro b p; rfl
  | @cons w it ws its hm _ ih =>
    intro b p
    have hd := hm.2.2.2.2
    have hg := c30_first t.dictionary t.userDictionary ⟨w.surface, b, b + blen w.surface, p, 1, w.entry.wordId, none⟩ rfl _ hd
    rw [bind_eq_ok] at hg
    obtain ⟨r, h1, h2⟩ := hg
    simp only [pure_eq_ok, Except.ok.injEq] at h2
    unfold Lexicon.visible at ih ⊢
    unfold Verif.Spec.tokensFor Lexicon.tokensFor
    rw [List.mapM_cons, ih, h1]
    simp only [bind_ok, pure_eq_ok, h2, ← hm.1]

private theorem answered {c : Contents} {kind : DictionaryKind} {user : Option (DictionaryKind × List Row)} {us ws : List SourceWord} {t : Tokenizer} (h : TokOn c user us ws t)
    (hg : GoodApart kind c) (hws : ∀ w ∈ ws, c.Inside w.leftId w.rightId) (hus : ∀ w ∈ us, c.Inside w.leftId w.rightId) :
    Lexicon.AnsweredBy ⟨us.map SourceWord.userItem ++ ws.map SourceWord.systemItem, c.defs, c.unk, c.costs⟩ t := by
  intro text ss hss
  obtain ⟨toks, ht⟩ := c10_no_panic (h.consistent hg hws hus) text
  obtain ⟨segs, hf, rfl⟩ := tokenize_complete (h.complete hg) ht
  rw [sentences_split hss] at hf
  obtain ⟨items, h1, h2, -⟩ := segs_items h.rep (h.repCost hg hws hus) hf
  exact ⟨_, items, ht, visible_words h1 0 0, h2⟩

/-- C64: readable source files that fit together compile, and the tokenizer over the compiled dictionary (with or without a user dictionary, in any mode) answers every text
with a cheapest segmentation, where words, unknown words, costs and details are those written in the source files. -/
theorem c64_source_semantics (env : BuildEnv) (hy : YadaContract env.yada) (hh : ∀ index, (env.hashOrder index).Perm index) (kind : DictionaryKind) (src : SourceDir)
    (c : Contents) (hs : Says env kind src c) (hg : Good kind c) (user : Option (DictionaryKind × List Row))
    (hu : ∀ k rows, user = some (k, rows) → GoodUser k c rows) :
    ∃ parts m u, compile env kind src = .ok parts ∧ ConnMatrix.load parts.matrix = .ok m ∧ compileUser env.yada user = .ok u ∧
      ∀ mode, (c.lexicon kind user).AnsweredBy ⟨parts.dictionary m, u, mode⟩ := by
  obtain ⟨parts, m, u, h1, h2, h3, h4⟩ := compile_good hy hh hs hg hu
  exact ⟨parts, m, u, h1, h2, h3, fun mode => answered (h4 mode) (Good.apart hg) hg.rowIds (user_inside fun k rows h => (GoodUser.apart (hu k rows h)))⟩

/-- C54, exactly, for tokenization: sources with any number of words for one surface compile as well, and every text is answered as if the sources contained only the words that the compiled format keeps: of
each `n` words with the same surface `n % 32` successive ones. -/
theorem c54_tokens (env : BuildEnv) (hy : YadaContract env.yada) (hh : ∀ index, (env.hashOrder index).Perm index) (kind : DictionaryKind) (src : SourceDir)
    (c : Contents) (hs : Says env kind src c) (hg : GoodApart kind c) (user : Option (DictionaryKind × List Row))
    (hu : ∀ k rows, user = some (k, rows) → GoodUserApart k c rows) :
    ∃ parts m u, compile env kind src = .ok parts ∧ ConnMatrix.load parts.matrix = .ok m ∧ compileUser env.yada user = .ok u ∧
      ∀ mode, (c.keptLexicon kind user).AnsweredBy ⟨parts.dictionary m, u, mode⟩ := by
  obtain ⟨parts, m, u, h1, h2, h3, h4⟩ := compile_kept hy hh hs hg hu
  exact ⟨parts, m, u, h1, h2, h3, fun mode => answered (h4 mode) hg (fun w hw => hg.rowIds w (mem_keptWords hw)) fun w hw => user_inside hu w (mem_keptWords hw)⟩

/-- C64: well-formed files (as the format is documented) are read as they are written. `Says` also covers the further files that the compilers accept, see C69. -/
theorem c64_well_formed (env : BuildEnv) (kind : DictionaryKind) (src : SourceDir) (c : Contents) (h : WellFormed env kind src c) (hg : Good kind c) : Says env kind src c :=
  wellFormed_says h (by have := hg.sizes; omega) hg.cells

private theorem segFrom_surfaces {L : Lexicon} {mode : Mode} {text : Str} {ws : List Item} : ∀ {pre : Str}, L.SegFrom mode text pre ws →
    pre ++ (ws.map (·.surface)).flatten = text := by
  induction ws with
  | nil => intro pre h; simpa [Lexicon.SegFrom] using h
  | cons w ws ih =>
    rintro pre ⟨-, h⟩
    have := ih h
    simpa using this

private theorem tokensFor_surfaces (ws : List Item) : ∀ b p, (Lexicon.tokensFor b p ws).map (·.1) = ws.map (·.surface) := by
  induction ws with
  | nil => intro b p; rfl
  | cons w ws ih => intro b p; simp [Lexicon.tokensFor, ih]

private theorem visible_texts {t : Tokenizer} {toks : List Token} {vs : List (Str × Nat × Nat × Nat × Option (List Str))} (h : Lexicon.visible t toks = .ok vs) :
    toks.map (·.text) = vs.map (·.1) := by
  unfold Lexicon.visible at h
  rw [mapM_ok_iff] at h
  induction h with
  | nil => rfl
  | cons h _ ih =>
    rw [bind_eq_ok] at h
    obtain ⟨r, -, h⟩ := h
    cases h
    simp [ih]

/-- C64: in particular no text is lost. -/
theorem c64_lossless {L : Lexicon} {t : Tokenizer} (h : L.AnsweredBy t) (text : Str) : ∃ toks, t.tokenize text = .ok toks ∧ (toks.map (·.text)).flatten = text := by
  obtain ⟨toks, segs, h1, h2, h3⟩ := h text _ (sentences_exist text)
  refine ⟨toks, h1, ?_⟩
  have e1 : toks.map (·.text) = segs.flatten.map (·.surface) := by
    rw [visible_texts h2, tokensFor_surfaces]
  rw [e1]
  have e2 : (segs.flatten.map (·.surface)).flatten = (splitInclusive isDelimiter text).flatten := by
    generalize splitInclusive isDelimiter text = ss at h3
    clear e1 h2
    induction h3 with
    | nil => rfl
    | cons h _ ih =>
      have := segFrom_surfaces h.1
      simp only [List.nil_append] at this
      rw [List.flatten_cons, List.map_append, List.flatten_append, this, ih, List.flatten_cons]
  rw [e2, splitInclusive_flatten]

/-! ### C65 From the source files to the loaded dictionary -/

/-- C65: the same for a dictionary that is built into a directory and loaded from there, whatever the directory contained before. -/
theorem c65_built_and_loaded (env : BuildEnv) (hy : YadaContract env.yada) (hh : ∀ index, (env.hashOrder index).Perm index) (hp : PiecesOk env)
    (hfe : env.feature = false) (hfo : Faithful env.format) (kind : DictionaryKind) (src : SourceDir)
    (c : Contents) (hs : Says env kind src c) (hg : Good kind c) (hst : Storable c) (user : Option (DictionaryKind × List Row))
    (hu : ∀ k rows, user = some (k, rows) → GoodUser k c rows) (out : Path) (faults : Faults) (hf : NoFaults faults) (fs : Fs)
    (load : LoadEnv) (hl : load.format = env.format) (hfs : load.files = runOps fs ((env.buildDictionary kind src out).trace faults)) :
    (env.buildDictionary kind src out).result faults = .ok () ∧ ∃ d u, load.loadDictionary out = .ok d ∧ compileUser env.yada user = .ok u ∧
      ∀ mode, (c.lexicon kind user).AnsweredBy ⟨d, u, mode⟩ := by
  obtain ⟨parts, m, u, h1, h2, h3, h4⟩ := c64_source_semantics env hy hh kind src c hs hg user hu
  have h5 := parts_typed hh hs hg hst h1
  exact ⟨(c59_build env hp kind src parts h1 out faults hf fs).1, _, u,
    c60_load env hp hfe kind src parts h1 h5.1 h5.2 (hfo _) m h2 out faults hf fs load hl hfs, h3, h4⟩

/-- C65: the same for a dictionary that is built and embedded into a dictionary crate, with or without compression. -/
theorem c65_embedded (env : BuildEnv) (hy : YadaContract env.yada) (hh : ∀ index, (env.hashOrder index).Perm index) (hp : PiecesOk env)
    (hfl : FlateContract env.flate) (hfo : Faithful env.format) (kind : DictionaryKind) (src : SourceDir)
    (c : Contents) (hs : Says env kind src c) (hg : Good kind c) (hst : Storable c) (user : Option (DictionaryKind × List Row))
    (hu : ∀ k rows, user = some (k, rows) → GoodUser k c rows) (out : Path) (faults : Faults) (hf : NoFaults faults) (fs : Fs)
    (hsize : ∀ parts, compile env kind src = .ok parts → ∀ e ∈ parts.files env.format, Usize (compress env.flate e.2 .deflate).data.length) (d : DictData)
    (hd : let built := runOps fs ((env.buildDictionary kind src out).trace faults)
      built (inDir out "char_def.bin") = some d.charDef ∧ built (inDir out "unk.bin") = some d.unk ∧ built (inDir out "dict.da") = some d.da ∧
      built (inDir out "dict.vals") = some d.vals ∧ built (inDir out "dict.words") = some d.words ∧ built (inDir out "dict.wordsidx") = some d.wordsIdx ∧
      built (inDir out "matrix.mtx") = some d.matrix) :
    (env.buildDictionary kind src out).result faults = .ok () ∧ ∃ dict u, d.loadBuiltin env.feature env.flate env.format = .ok dict ∧
      compileUser env.yada user = .ok u ∧ ∀ mode, (c.lexicon kind user).AnsweredBy ⟨dict, u, mode⟩ := by
  obtain ⟨parts, m, u, h1, h2, h3, h4⟩ := c64_source_semantics env hy hh kind src c hs hg user hu
  have h5 := parts_typed hh hs hg hst h1
  exact ⟨(c59_build env hp kind src parts h1 out faults hf fs).1, _, u,
    c60_embedded env hp hfl kind src parts h1 h5.1 h5.2 (hfo _) (hsize parts h1) m h2 out faults hf fs d hd, h3, h4⟩

/-! ### Non-vacuity -/

namespace Lang

def charDefText : String := "DEFAULT 0 1 0 # others\nNUMERIC 1 1 0\n\n0x0030..0x0039 NUMERIC\n"
def unkText : String := "DEFAULT,0,0,100,a,b,c,d,e,f\nNUMERIC,1,1,-7,a,b,c,d,e,f\nNUMERIC,0,1,50,a,b,c,d,e,f\n"
def matrixText : String := "2 2\n0 0 5\n0 1 -3\n1 0 2\n1 1 9\n"
def csv1 : String := "b,0,1,3,x\n"
def csv2 : String := "a,0,0,-3,y,z\nab,1,1,10,y,w\n"

/-- Two categories, one of them grouping, three unknown-word lines, a 2 × 2 matrix and words in two files. -/
def source : SourceDir :=
  ⟨some (utf8 charDefText.toList), some (utf8 unkText.toList), some (utf8 matrixText.toList), [some (utf8 csv1.toList), some (utf8 csv2.toList)]⟩

def contents : Contents where
  defs := [.category "DEFAULT".toList ⟨false, true, 0⟩, .category "NUMERIC".toList ⟨true, true, 0⟩, .range 0x30 0x39 ["NUMERIC".toList]]
  unk := [⟨"DEFAULT".toList, 0, 0, 100⟩, ⟨"NUMERIC".toList, 1, 1, -7⟩, ⟨"NUMERIC".toList, 0, 1, 50⟩]
  forward := 2
  backward := 2
  costs := [⟨0, 0, 5⟩, ⟨0, 1, -3⟩, ⟨1, 0, 2⟩, ⟨1, 1, 9⟩]
  rows := [⟨['b'], [['0'], ['1'], ['3'], ['x']]⟩, ⟨['a'], [['0'], ['0'], ['-', '3'], ['y'], ['z']]⟩, ⟨['a', 'b'], [['1'], ['1'], ['1', '0'], ['y'], ['w']]⟩]

theorem decode (s : Str) (e : Encoding) : Dir.env.decode e (utf8 s) = s := by
  simp [Dir.env, decodeUtf8_utf8]

theorem wellFormed : WellFormed Dir.env .unidic source contents where
  charDef := ⟨_, rfl, by rw [decode]; exact readDef_iff.mp (by decide +kernel)⟩
  unk := ⟨_, rfl, by rw [decode]; exact readUnk_iff.mp (by decide +kernel)⟩
  matrix := ⟨_, rfl, by
    rw [decode]
    exact ⟨"2 2".toList, ["0 0 5".toList, "0 1 -3".toList, "1 0 2".toList, "1 1 9".toList], lines_iff.mp (by decide +kernel), numberLine_iff (vs := [2, 2]).mp (by decide +kernel),
      .cons (numberLine_iff (vs := [0, 0, 5]).mp (by decide +kernel)) (.cons (numberLine_iff (vs := [0, 1, -3]).mp (by decide +kernel))
      (.cons (numberLine_iff (vs := [1, 0, 2]).mp (by decide +kernel)) (.cons (numberLine_iff (vs := [1, 1, 9]).mp (by decide +kernel)) .nil)))⟩⟩
  rows := ⟨[(utf8 csv1.toList, contents.rows.take 1), (utf8 csv2.toList, contents.rows.drop 1)], rfl, by decide +kernel, rfl⟩

theorem saysSo : Says Dir.env .unidic source contents := wellFormed_says wellFormed (by decide) (by decide)

theorem fits : Fits false contents.rows where
  homographs s := by
    have h1 := List.length_filter_le (fun w : SourceWord => decide (w.surface = s)) (sourceWords false contents.rows)
    have h2 : (sourceWords false contents.rows).length = 3 := by decide +kernel
    unfold wordsFor
    omega
  total := by decide +kernel
  numRows := by decide +kernel
  detailBytes := by decide +kernel
  surfaces := by decide +kernel
  noNul := by decide +kernel
  nonempty := by decide +kernel

theorem good : Good .unidic contents where
  ordered := .category (by decide) (.category (by decide) (.range (by decide) (.nil _)))
  default := by decide +kernel
  unknown := by decide +kernel
  unkCount := by decide +kernel
  unkIds := by unfold Contents.Inside; decide +kernel
  zero := by unfold Contents.Inside; decide +kernel
  sizes := by decide +kernel
  cells := by decide +kernel
  rows := by unfold Acceptable; decide +kernel
  fits := fits
  rowIds := by unfold Contents.Inside; decide +kernel

theorem storable : Storable contents where
  lines := by decide +kernel
  mentions := by decide +kernel
  names := by decide +kernel

theorem goodUser (kind : DictionaryKind) (hk : kind = .ipadic ∨ kind = .unidic) : GoodUser kind contents [Usr.simple] where
  columns := by rcases hk with rfl | rfl <;> simp [SameColumns]
  readable := by rcases hk with rfl | rfl <;> decide +kernel
  fits := {
    nonempty := by simp
    numRows := by decide
    homographs := fun s => by
      have h1 := List.length_filter_le (fun w : SourceWord => decide (w.surface = s)) ([Usr.simple].filterMap (readUserRow kind))
      have h2 : ([Usr.simple].filterMap (readUserRow kind)).length = 1 := by rcases hk with rfl | rfl <;> decide +kernel
      unfold userWordsFor
      omega
    surfaces := by decide +kernel
    detailBytes := by rcases hk with rfl | rfl <;> decide +kernel }
  ids := by unfold Contents.Inside; rcases hk with rfl | rfl <;> decide +kernel

/-- With a user dictionary. -/
def user : Option (DictionaryKind × List Row) := some (.ipadic, [Usr.simple])

theorem users (k : DictionaryKind) (rows : List Row) (h : user = some (k, rows)) : GoodUser k contents rows := by
  cases h
  exact goodUser _ (.inl rfl)

/-- The compiled sources. -/
def compiled : CompiledParts := match compile Dir.env .unidic source with | .ok c => c | .error _ => ⟨⟨[], [], ⟨[], []⟩⟩, ⟨[], []⟩, ⟨⟨[]⟩, [], [], []⟩, []⟩

theorem compiles : compile Dir.env .unidic source = .ok compiled := by
  have h : (compile Dir.env .unidic source).toOption.isSome = true := by decide +kernel
  unfold compiled
  cases hc : compile Dir.env .unidic source with
  | ok c => rfl
  | error e => rw [hc] at h; simp [Except.toOption] at h

theorem sizes {view : List UInt8 → DoubleArray} : ∀ e ∈ compiled.files ⟨Stored.write, view⟩, Usize (compress Stored.flate e.2 .deflate).data.length := by
  have h : ∀ e ∈ compiled.files ⟨Stored.write, fun _ => ⟨[]⟩⟩, (compress Stored.flate e.2 .deflate).data.length < 2 ^ 64 := by decide +kernel
  exact h

end Lang

example : ∃ parts m u, compile Dir.env .unidic Lang.source = .ok parts ∧ ConnMatrix.load parts.matrix = .ok m ∧ compileUser Dir.env.yada Lang.user = .ok u ∧
    ∀ mode, (Lang.contents.lexicon .unidic Lang.user).AnsweredBy ⟨parts.dictionary m, u, mode⟩ :=
  c64_source_semantics Dir.env Src.yadaOk (fun _ => .refl _) .unidic Lang.source Lang.contents Lang.saysSo Lang.good Lang.user Lang.users

example : ∃ (env : BuildEnv) (load : LoadEnv) (d : Dictionary) (u : Option UserDictionary), load.loadDictionary Dir.out = .ok d ∧
    compileUser env.yada Lang.user = .ok u ∧ ∀ mode, (Lang.contents.lexicon .unidic Lang.user).AnsweredBy ⟨d, u, mode⟩ := by
  obtain ⟨f, hf, -⟩ := exists_faithful
  obtain ⟨env, henv⟩ : ∃ env, env = { Dir.env with format := f } := ⟨_, rfl⟩
  have hs : Says env .unidic Lang.source Lang.contents := by
    rw [henv]
    exact ⟨Lang.saysSo.charDef, Lang.saysSo.unk, Lang.saysSo.matrix, Lang.saysSo.rows⟩
  obtain ⟨disk, hdisk⟩ : ∃ disk, disk = runOps Dir.empty ((env.buildDictionary .unidic Lang.source Dir.out).trace Dir.noFaults) := ⟨_, rfl⟩
  obtain ⟨load, hload⟩ : ∃ load, load = { Dir.loader disk with format := f } := ⟨_, rfl⟩
  obtain ⟨-, d, u, h⟩ := c65_built_and_loaded env (by rw [henv]; exact Src.yadaOk) (by rw [henv]; exact fun _ => .refl _) (by rw [henv]; exact Dir.pieces)
    (by rw [henv]; rfl) (by rw [henv]; exact hf) .unidic Lang.source Lang.contents hs Lang.good Lang.storable
    Lang.user Lang.users Dir.out Dir.noFaults (fun _ => rfl) Dir.empty load (by rw [henv, hload]) (by rw [hload]; exact hdisk)
  exact ⟨env, load, d, u, h⟩

/-- Compressed and embedded. -/
example : ∃ (env : BuildEnv) (data : DictData) (d : Dictionary) (u : Option UserDictionary), env.feature = true ∧ data.loadBuiltin true env.flate env.format = .ok d ∧
    compileUser env.yada Lang.user = .ok u ∧ ∀ mode, (Lang.contents.lexicon .unidic Lang.user).AnsweredBy ⟨d, u, mode⟩ := by
  obtain ⟨f, hf, hst⟩ := exists_faithful
  obtain ⟨env, henv⟩ : ∃ env, env = { Dir.env with format := f, feature := true } := ⟨_, rfl⟩
  have hs : Says env .unidic Lang.source Lang.contents := by
    rw [henv]
    exact ⟨Lang.saysSo.charDef, Lang.saysSo.unk, Lang.saysSo.matrix, Lang.saysSo.rows⟩
  have hc : compile env .unidic Lang.source = .ok Lang.compiled := by
    rw [henv]
    exact Lang.compiles
  have hp : PiecesOk env := by rw [henv]; exact Dir.pieces
  have hw := (c59_build env hp .unidic Lang.source Lang.compiled hc Dir.out Dir.noFaults (fun _ => rfl) Dir.empty).2.1
  simp only [CompiledParts.files, List.mem_cons, List.not_mem_nil, or_false, forall_eq_or_imp, forall_eq] at hw
  obtain ⟨w1, w2, w3, w4, w5, w6, w7⟩ := hw
  obtain ⟨-, d, u, h1, h2⟩ := c65_embedded env (by rw [henv]; exact Src.yadaOk) (by rw [henv]; exact fun _ => .refl _) hp
    (by rw [henv]; exact Stored.flateOk) (by rw [henv]; exact hf) .unidic Lang.source Lang.contents hs Lang.good Lang.storable
    Lang.user Lang.users Dir.out Dir.noFaults (fun _ => rfl) Dir.empty (by
      intro parts h e he
      rw [hc] at h
      cases h
      subst henv
      have key := Lang.sizes (view := f.view)
      rw [← hst] at key
      exact key e he) ⟨_, _, _, _, _, _, _⟩ ⟨w1, w2, w3, w4, w5, w6, w7⟩
  have hfe : env.feature = true := by rw [henv]
  rw [hfe] at h1
  exact ⟨env, _, d, u, hfe, h1, h2⟩

namespace Lang

/-- The same sources, with the first list of words 34 times. -/
def crowded : Contents := { contents with rows := (List.replicate 34 (contents.rows.take 1)).flatten ++ contents.rows.drop 1 }

def crowdedSource : SourceDir := { source with csvs := List.replicate 34 (some (utf8 csv1.toList)) ++ [some (utf8 csv2.toList)] }

theorem crowdedSays : Says Dir.env .unidic crowdedSource crowded where
  charDef := saysSo.charDef
  unk := saysSo.unk
  matrix := saysSo.matrix
  rows := ⟨List.replicate 34 (utf8 csv1.toList, contents.rows.take 1) ++ [(utf8 csv2.toList, contents.rows.drop 1)], by simp [crowdedSource], by decide +kernel, by decide +kernel⟩

theorem crowdedGood : GoodApart .unidic crowded where
  ordered := good.ordered
  default := good.default
  unknown := good.unknown
  unkCount := good.unkCount
  unkIds := good.unkIds
  zero := good.zero
  sizes := good.sizes
  cells := good.cells
  rows := by unfold Acceptable; decide +kernel
  fits := ⟨by decide +kernel, by decide +kernel, by decide +kernel, by decide +kernel, by decide +kernel, by decide +kernel⟩
  rowIds := by unfold Contents.Inside; decide +kernel

end Lang

example : (wordsFor false Lang.crowded.rows ['b']).length = 34 ∧
    (Lang.crowded.keptLexicon .unidic Lang.user).words.map (·.surface) = [['東', '京'], ['b'], ['b'], ['a'], ['a', 'b']] ∧
    ∃ parts m u, compile Dir.env .unidic Lang.crowdedSource = .ok parts ∧ ConnMatrix.load parts.matrix = .ok m ∧ compileUser Dir.env.yada Lang.user = .ok u ∧
      ∀ mode, (Lang.crowded.keptLexicon .unidic Lang.user).AnsweredBy ⟨parts.dictionary m, u, mode⟩ :=
  ⟨by decide +kernel, by decide +kernel, c54_tokens Dir.env Src.yadaOk (fun _ => .refl _) .unidic Lang.crowdedSource Lang.crowded Lang.crowdedSays Lang.crowdedGood Lang.user fun k rows h =>
    have hu := GoodUser.apart (Lang.users k rows h)
    ⟨hu.columns, hu.readable, hu.fits, hu.ids⟩⟩

end Verif.Props
