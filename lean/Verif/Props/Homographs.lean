import Verif.Proofs.Homographs
import Verif.Props.Repriced
/-! C90: the order and the place of words, and words with the same text. -/
namespace Verif.Props
open Verif.Model Verif.Spec

/-! ### C90 Only the order of words with the same text matters -/

private theorem forall₂_chosen {L L' : Lexicon} {mode : Mode} {ss : List Str} {segs : List (List Item)} (h : List.Forall₂ (L.Chosen mode) ss segs)
    (hc : ∀ s ws, s ∈ ss → ws ∈ segs → L.Chosen mode s ws → L'.Chosen mode s ws) : List.Forall₂ (L'.Chosen mode) ss segs := by
  induction h with
  | nil => exact .nil
  | cons h1 _ ih => exact .cons (hc _ _ (by simp) (by simp) h1) (ih fun s ws hs hw => hc s ws (by simp [hs]) (by simp [hw]))

private theorem answered {env : BuildEnv} {kind : DictionaryKind} {src : SourceDir} {c : Contents} {user : Option (DictionaryKind × List Row)} (hr : Ready env kind src c user) {mode : Mode}
    {text : Str} {ss : List Str} (hss : Sentences text ss) : ∃ shown, Tokenizes env kind src user mode text shown := by
  obtain ⟨parts, m, u, h1, h2, h3, h4⟩ := c64_source_semantics env hr.yada hr.hashOrder kind src c hr.contents hr.good user hr.user
  obtain ⟨toks, segs, h5, h6, -⟩ := h4 mode text ss hss
  exact ⟨_, parts, m, u, toks, h1, h2, h3, h5, h6⟩

/-- C90: two dictionaries (with their user dictionaries) that have the same words in the same order for every text, and otherwise say the same, give the same tokens, however their words are distributed over
the files and the user dictionary, and in whatever order words with different texts are written. -/
theorem c90_same {env env' : BuildEnv} {kind : DictionaryKind} {src src' : SourceDir} {c c' : Contents} {user user' : Option (DictionaryKind × List Row)} (hr : Ready env kind src c user)
    (hr' : Ready env' kind src' c' user') (h : SameHomographs (c.lexicon kind user) (c'.lexicon kind user')) {mode : Mode} {text : Str} {ss : List Str} (hss : Sentences text ss)
    (hno : ∀ s ∈ ss, (c.lexicon kind user).CostsFit mode s) (shown : List (Str × Nat × Nat × Nat × Option (List Str))) :
    Tokenizes env kind src user mode text shown ↔ Tokenizes env' kind src' user' mode text shown := by
  rw [c82_fitting env hr.yada hr.hashOrder kind src c hr.contents hr.good user hr.user mode text ss hss hno shown,
    c82_fitting env' hr'.yada hr'.hashOrder kind src' c' hr'.contents hr'.good user' hr'.user mode text ss hss (fun s hs => sameHomographs_fit h (hno s hs)) shown]
  constructor
  · rintro ⟨segs, h1, rfl⟩
    exact ⟨segs, forall₂_chosen h1 fun _ _ _ _ hc => sameHomographs_chosen h hc, rfl⟩
  · rintro ⟨segs, h1, rfl⟩
    exact ⟨segs, forall₂_chosen h1 fun _ _ _ _ hc => sameHomographs_chosen (sameHomographs_symm h) hc, rfl⟩

/-- C90: a word with a text that no other word has can be moved from the word list to the user dictionary: a row of the list and a record of the user dictionary that say the same word are worth the same. -/
theorem c90_moved {kind : DictionaryKind} {c c' : Contents} {user user' : Option (DictionaryKind × List Row)} {before after : List Row} {row : Row} {ubefore uafter : List SourceWord} {w w' : SourceWord}
    (hc : c.rows = before ++ row :: after) (hc' : c' = { c with rows := before ++ after }) (hw : readRow (sourceFormat kind).unify row = some w)
    (hu : userWords user = ubefore ++ uafter) (hu' : userWords user' = ubefore ++ w' :: uafter) (heq : w'.userItem = w.systemItem)
    (hone : ∀ u ∈ (c'.lexicon kind user).words, u.surface ≠ w.surface) : SameHomographs (c.lexicon kind user) (c'.lexicon kind user') := by
  subst hc'
  refine ⟨fun s => ?_, rfl, rfl, rfl⟩
  have h1 : (c.lexicon kind user).words = ubefore.map SourceWord.userItem ++ uafter.map SourceWord.userItem ++ ((sourceWords (sourceFormat kind).unify before).map SourceWord.systemItem ++
      w.systemItem :: (sourceWords (sourceFormat kind).unify after).map SourceWord.systemItem) := by
    simp only [Contents.lexicon, hu, hc, sourceWords, List.filterMap_append, List.filterMap_cons, hw, List.map_append, List.map_cons]
  have h2 : (Contents.lexicon { c with rows := before ++ after } kind user').words = ubefore.map SourceWord.userItem ++ w.systemItem :: uafter.map SourceWord.userItem ++
      ((sourceWords (sourceFormat kind).unify before).map SourceWord.systemItem ++ (sourceWords (sourceFormat kind).unify after).map SourceWord.systemItem) := by
    simp only [Contents.lexicon, hu', sourceWords, List.filterMap_append, List.map_append, List.map_cons, heq]
  have h3 : (Contents.lexicon { c with rows := before ++ after } kind user).words = ubefore.map SourceWord.userItem ++ uafter.map SourceWord.userItem ++
      ((sourceWords (sourceFormat kind).unify before).map SourceWord.systemItem ++ (sourceWords (sourceFormat kind).unify after).map SourceWord.systemItem) := by
    simp only [Contents.lexicon, hu, sourceWords, List.filterMap_append, List.map_append]
  rw [h3] at hone
  rw [h1, h2]
  simp only [List.mem_append] at hone
  have hs : w.systemItem.surface = w.surface := rfl
  simp only [List.filter_append, List.filter_cons]
  by_cases hsw : s = w.surface
  · subst hsw
    have hnil : ∀ l : List Item, (∀ u ∈ l, u.surface ≠ w.surface) → l.filter (·.surface = w.surface) = [] := fun l hl => by
      rw [List.filter_eq_nil_iff]; simpa using hl
    rw [hnil _ fun u hu => hone u (.inl (.inl hu)), hnil _ fun u hu => hone u (.inl (.inr hu)), hnil _ fun u hu => hone u (.inr (.inl hu)), hnil _ fun u hu => hone u (.inr (.inr hu))]
    simp [hs]
  · have : decide (w.systemItem.surface = s) = false := by simp [hs, Ne.symm hsw]
    simp [this]

/-- C90: a word that no token of a text shows can be removed without changing the tokens of this text, if another word has the same text. (Without the other word, unknown words may be looked for where there
were none before.) -/
theorem c90_unused {env env' : BuildEnv} {kind : DictionaryKind} {src src' : SourceDir} {c c' : Contents} {user user' : Option (DictionaryKind × List Row)} (hr : Ready env kind src c user)
    (hr' : Ready env' kind src' c' user') {before : List Item} {w : Item} (h : Without (c.lexicon kind user) (c'.lexicon kind user') before w)
    (hother : ∃ u ∈ (c'.lexicon kind user').words, u.surface = w.surface) {mode : Mode} {text : Str} {ss : List Str} (hss : Sentences text ss) (hno : ∀ s ∈ ss, (c.lexicon kind user).CostsFit mode s)
    {shown : List (Str × Nat × Nat × Nat × Option (List Str))} (ht : Tokenizes env kind src user mode text shown) (hn : uses w shown = 0) : Tokenizes env' kind src' user' mode text shown := by
  obtain ⟨segs, h1, rfl⟩ := (c82_fitting env hr.yada hr.hashOrder kind src c hr.contents hr.good user hr.user mode text ss hss hno shown).mp ht
  refine (c82_fitting env' hr'.yada hr'.hashOrder kind src' c' hr'.contents hr'.good user' hr'.user mode text ss hss (fun s hs => without_fit h hother (hno s hs)) _).mpr ⟨segs, forall₂_chosen h1 fun _ ws _ hws hc => ?_, rfl⟩
  rw [tokensFor_uses, List.countP_eq_zero] at hn
  exact removed_chosen h hother hc fun hm => absurd (hn w (List.mem_flatten.mpr ⟨ws, hws, hm⟩)) (by simp)

/-- C90: a word that has a cheaper twin, with the same text and the same context ids, is never used, and neither is one with a twin of the same cost that is written before: every text has the same tokens with
and without it. -/
theorem c90_dominated {env env' : BuildEnv} {kind : DictionaryKind} {src src' : SourceDir} {c c' : Contents} {user user' : Option (DictionaryKind × List Row)} (hr : Ready env kind src c user)
    (hr' : Ready env' kind src' c' user') {before : List Item} {w u : Item} (h : Without (c.lexicon kind user) (c'.lexicon kind user') before w)
    (hu : u ∈ (c'.lexicon kind user').words) (ha : Alike u w) (hcost : u.cost.toInt < w.cost.toInt ∨ (u.cost = w.cost ∧ u ∈ before))
    {mode : Mode} {text : Str} {ss : List Str} (hss : Sentences text ss) (hno : ∀ s ∈ ss, (c.lexicon kind user).CostsFit mode s) (shown : List (Str × Nat × Nat × Nat × Option (List Str))) :
    Tokenizes env kind src user mode text shown ↔ Tokenizes env' kind src' user' mode text shown := by
  have fwd : ∀ shown, Tokenizes env kind src user mode text shown → Tokenizes env' kind src' user' mode text shown := by
    intro shown ht
    obtain ⟨segs, h1, rfl⟩ := (c82_fitting env hr.yada hr.hashOrder kind src c hr.contents hr.good user hr.user mode text ss hss hno shown).mp ht
    refine (c82_fitting env' hr'.yada hr'.hashOrder kind src' c' hr'.contents hr'.good user' hr'.user mode text ss hss (fun s hs => without_fit h ⟨u, hu, ha.1⟩ (hno s hs)) _).mpr ⟨segs, forall₂_chosen h1 fun _ ws _ _ hc => ?_, rfl⟩
    obtain ⟨⟨after, e1, e2⟩, -⟩ := id h
    refine removed_chosen h ⟨u, hu, ha.1⟩ hc fun hm => dominated_unused e1 ha ?_ hcost hc hm
    rw [e2] at hu
    rw [e1]
    simp only [List.mem_append, List.mem_cons] at hu ⊢
    tauto
  refine ⟨fwd shown, fun h' => ?_⟩
  obtain ⟨shown', ht⟩ := answered hr (mode := mode) hss
  rw [c72_unique h' (fwd _ ht)]
  exact ht

/-- C90: in particular a word that is written twice is as good as one that is written once. -/
theorem c90_duplicate {env env' : BuildEnv} {kind : DictionaryKind} {src src' : SourceDir} {c c' : Contents} {user user' : Option (DictionaryKind × List Row)} (hr : Ready env kind src c user)
    (hr' : Ready env' kind src' c' user') {before : List Item} {w : Item} (h : Without (c.lexicon kind user) (c'.lexicon kind user') before w) (hw : w ∈ before)
    {mode : Mode} {text : Str} {ss : List Str} (hss : Sentences text ss) (hno : ∀ s ∈ ss, (c.lexicon kind user).CostsFit mode s) (shown : List (Str × Nat × Nat × Nat × Option (List Str))) :
    Tokenizes env kind src user mode text shown ↔ Tokenizes env' kind src' user' mode text shown := by
  refine c90_dominated hr hr' h (u := w) ?_ ⟨rfl, rfl, rfl⟩ (.inr ⟨rfl, hw⟩) hss hno shown
  obtain ⟨⟨after, -, e⟩, -⟩ := h
  rw [e]
  exact List.mem_append_left _ hw

/-- Leaving out a row of a CSV file removes one word. -/
theorem c90_row {kind : DictionaryKind} {c c' : Contents} {user : Option (DictionaryKind × List Row)} {before after : List Row} {row : Row} {w : SourceWord}
    (h : c.rows = before ++ row :: after) (h' : c' = { c with rows := before ++ after }) (hw : readRow (sourceFormat kind).unify row = some w) :
    Without (c.lexicon kind user) (c'.lexicon kind user)
      ((userWords user).map SourceWord.userItem ++ (sourceWords (sourceFormat kind).unify before).map SourceWord.systemItem) w.systemItem := by
  subst h'
  refine ⟨⟨(sourceWords (sourceFormat kind).unify after).map SourceWord.systemItem, ?_, ?_⟩, rfl, rfl, rfl⟩
  · simp only [Contents.lexicon, h, sourceWords, List.filterMap_append, List.filterMap_cons, hw, List.map_append, List.map_cons, List.append_assoc]
  · simp only [Contents.lexicon, sourceWords, List.filterMap_append, List.map_append, List.append_assoc]

/-! ### Non-vacuity -/

namespace Twin

/-- The second file of the example sources with other words. -/
def src (csvs : List String) : SourceDir := { Lang.source with csvs := csvs.map fun s => some (utf8 s.toList) }
def contents (rows : List Row) : Contents := { Lang.contents with rows := rows }

theorem ready {files : List (String × List Row)} (h1 : ∀ f ∈ files.map (fun f => (utf8 f.1.toList, f.2)), Dir.env.csv false .utf8 f.1 = some f.2)
    (h3 : (files.flatMap (·.2)).length < 2 ^ 32 ∧ ((files.flatMap (·.2)).map detailSize).sum < 2 ^ 32)
    (h4 : ∀ r ∈ files.flatMap (·.2), r.first ≠ [] ∧ ∀ f ∈ r.fields, '\x00' ∉ f) (h5 : (sourceWords false (files.flatMap (·.2))).length < 32 ∧ sourceWords false (files.flatMap (·.2)) ≠ [])
    (h6 : ∀ w ∈ sourceWords false (files.flatMap (·.2)), w.leftId.toNat < 2 ∧ w.rightId.toNat < 2) (h7 : Acceptable false false (files.flatMap (·.2)))
    (user : Option (DictionaryKind × List Row)) (h8 : ∀ k rows, user = some (k, rows) → GoodUser k (contents (files.flatMap (·.2))) rows) :
    Ready Dir.env .unidic (src (files.map (·.1))) (contents (files.flatMap (·.2))) user where
  yada := Src.yadaOk
  hashOrder _ := .refl _
  contents := ⟨Lang.saysSo.charDef, Lang.saysSo.unk, Lang.saysSo.matrix, files.map fun f => (utf8 f.1.toList, f.2), by simp [src], h1, by simp [contents, List.flatMap_map]⟩
  good := Local.good h7 (Local.fits h5.1 h3.1 h3.2 h4 h5.2) h6
  user := h8

/-- `ab` with a cheaper and a dearer reading. -/
def both : List (String × List Row) :=
  [("a,0,0,-3,y,z\nab,1,1,-9,y,w\nab,1,1,11,y,v\n", [⟨['a'], [['0'], ['0'], ['-', '3'], ['y'], ['z']]⟩, ⟨['a', 'b'], [['1'], ['1'], ['-', '9'], ['y'], ['w']]⟩,
    ⟨['a', 'b'], [['1'], ['1'], ['1', '1'], ['y'], ['v']]⟩])]
def one : List (String × List Row) :=
  [("a,0,0,-3,y,z\nab,1,1,-9,y,w\n", [⟨['a'], [['0'], ['0'], ['-', '3'], ['y'], ['z']]⟩, ⟨['a', 'b'], [['1'], ['1'], ['-', '9'], ['y'], ['w']]⟩])]

theorem bothReady : Ready Dir.env .unidic (src (both.map (·.1))) (contents (both.flatMap (·.2))) none :=
  ready (by decide +kernel) (by decide +kernel) (by decide +kernel) (by decide +kernel) (by decide +kernel) (by unfold Acceptable; decide +kernel) none (fun _ _ h => by cases h)
theorem oneReady : Ready Dir.env .unidic (src (one.map (·.1))) (contents (one.flatMap (·.2))) none :=
  ready (by decide +kernel) (by decide +kernel) (by decide +kernel) (by decide +kernel) (by decide +kernel) (by unfold Acceptable; decide +kernel) none (fun _ _ h => by cases h)

/-- `ab` in UniDic's 21 columns, in the word list and in a user dictionary. -/
def stars : List Str := ['p'] :: List.replicate 16 ['*']
def longText : String := "ab,1,1,-9,p,*,*,*,*,*,*,*,*,*,*,*,*,*,*,*,*\n"
def longRow : Row := ⟨['a', 'b'], [['1'], ['1'], ['-', '9']] ++ stars⟩
def listed : List (String × List Row) := [("a,0,0,-3,y,z\n", [⟨['a'], [['0'], ['0'], ['-', '3'], ['y'], ['z']]⟩]), (longText, [longRow])]
def bare : List (String × List Row) := [("a,0,0,-3,y,z\n", [⟨['a'], [['0'], ['0'], ['-', '3'], ['y'], ['z']]⟩])]
def longWord : SourceWord := ⟨['a', 'b'], -9, 1, 1, stars⟩

theorem listedReady : Ready Dir.env .unidic (src (listed.map (·.1))) (contents (listed.flatMap (·.2))) none :=
  ready (by decide +kernel) (by decide +kernel) (by decide +kernel) (by decide +kernel) (by decide +kernel) (by unfold Acceptable; decide +kernel) none (fun _ _ h => by cases h)

theorem bareReady : Ready Dir.env .unidic (src (bare.map (·.1))) (contents (bare.flatMap (·.2))) (some (.unidic, [longRow])) :=
  ready (by decide +kernel) (by decide +kernel) (by decide +kernel) (by decide +kernel) (by decide +kernel) (by unfold Acceptable; decide +kernel) _ fun _ _ h => by
    cases h
    exact {
      columns := .inr (.inr (by decide +kernel))
      readable := by decide +kernel
      fits := {
        nonempty := by simp
        numRows := by decide
        homographs := fun s => by
          have h1 := List.length_filter_le (fun w : SourceWord => decide (w.surface = s)) ([longRow].filterMap (readUserRow .unidic))
          have h2 : ([longRow].filterMap (readUserRow .unidic)).length = 1 := by decide +kernel
          unfold userWordsFor
          omega
        surfaces := by decide +kernel
        detailBytes := by decide +kernel }
      ids := by unfold Contents.Inside; decide +kernel }

theorem sentence (s : Str) (h : splitInclusive isDelimiter s = [s]) : Sentences s [s] := by
  have := sentences_exist s
  rwa [h] at this

theorem without : Without ((contents (both.flatMap (·.2))).lexicon .unidic none) ((contents (one.flatMap (·.2))).lexicon .unidic none)
    ((contents (one.flatMap (·.2))).lexicon .unidic none).words (SourceWord.systemItem ⟨['a', 'b'], 11, 1, 1, [['y'], ['v']]⟩) := by
  have := c90_row (kind := .unidic) (c := contents (both.flatMap (·.2))) (c' := contents (one.flatMap (·.2))) (user := none) (before := one.flatMap (·.2)) (after := [])
    (row := ⟨['a', 'b'], [['1'], ['1'], ['1', '1'], ['y'], ['v']]⟩) (w := ⟨['a', 'b'], 11, 1, 1, [['y'], ['v']]⟩) rfl (by simp [contents]) (by decide +kernel)
  exact this

end Twin

/-- The conditions of `c90_dominated` hold: `ab` has a cheaper twin. -/
example : Tokenizes Dir.env .unidic (Twin.src (Twin.both.map (·.1))) none .normal "aba".toList [(['a', 'b'], 0, 2, 0, some [['y'], ['w']]), (['a'], 2, 3, 1, some [['y'], ['z']])] := by
  refine (c90_dominated Twin.bothReady Twin.oneReady Twin.without (u := SourceWord.systemItem ⟨['a', 'b'], -9, 1, 1, [['y'], ['w']]⟩) (by decide +kernel) ⟨rfl, rfl, rfl⟩
    (.inl (by decide +kernel)) (Twin.sentence _ (by decide +kernel)) (fun s hs => costsFit_of_short (noOverflow_normal (by simp at hs; subst hs; decide +kernel))) _).mpr ?_
  exact Local.run_ok (by decide +kernel)

/-- The conditions of `c90_unused` hold for the same sources. -/
example : Tokenizes Dir.env .unidic (Twin.src (Twin.one.map (·.1))) none .normal "aba".toList [(['a', 'b'], 0, 2, 0, some [['y'], ['w']]), (['a'], 2, 3, 1, some [['y'], ['z']])] :=
  c90_unused Twin.bothReady Twin.oneReady Twin.without (by decide +kernel) (Twin.sentence _ (by decide +kernel))
    (fun s hs => costsFit_of_short (noOverflow_normal (by simp at hs; subst hs; decide +kernel))) (Local.run_ok (by decide +kernel)) (by decide +kernel)

/-- The conditions of `c90_moved` and `c90_same` hold: `ab` in the word list, or in the user dictionary. -/
example : Tokenizes Dir.env .unidic (Twin.src (Twin.bare.map (·.1))) (some (.unidic, [Twin.longRow])) .normal "aba".toList
    [(['a', 'b'], 0, 2, 0, some Twin.stars), (['a'], 2, 3, 1, some [['y'], ['z']])] := by
  have hm : SameHomographs ((Twin.contents (Twin.listed.flatMap (·.2))).lexicon .unidic none) ((Twin.contents (Twin.bare.flatMap (·.2))).lexicon .unidic (some (.unidic, [Twin.longRow]))) :=
    c90_moved (before := Twin.bare.flatMap (·.2)) (after := []) (row := Twin.longRow) (ubefore := []) (uafter := []) (w := Twin.longWord) (w' := Twin.longWord) rfl (by simp [Twin.contents])
      (by decide +kernel) rfl (by decide +kernel) (by decide +kernel) (by decide +kernel)
  refine (c90_same Twin.listedReady Twin.bareReady hm (Twin.sentence _ (by decide +kernel)) (fun s hs => costsFit_of_short (noOverflow_normal (by simp at hs; subst hs; decide +kernel))) _).mp ?_
  exact Local.run_ok (by decide +kernel)

/-- `c90_duplicate`: its conditions can be met; a row twice. -/
example : ∃ before, Without ⟨[⟨['a'], 0, 0, 5, []⟩, ⟨['a'], 0, 0, 5, []⟩], [], [], []⟩ ⟨[⟨['a'], 0, 0, 5, []⟩], [], [], []⟩ before ⟨['a'], 0, 0, 5, []⟩ ∧ ⟨['a'], 0, 0, 5, []⟩ ∈ before :=
  ⟨[⟨['a'], 0, 0, 5, []⟩], ⟨⟨[], rfl, rfl⟩, rfl, rfl, rfl⟩, by simp⟩

end Verif.Props
