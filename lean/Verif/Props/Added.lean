import Verif.Proofs.Added
import Verif.Props.Homographs
/-! C91: adding a word changes only texts in which it is used. -/
namespace Verif.Props
open Verif.Model Verif.Spec

/-! ### C91 A word that is not used changes nothing -/

private theorem forall₂_chosen' {L L' : Lexicon} {mode : Mode} {ss : List Str} {segs : List (List Item)} (h : List.Forall₂ (L.Chosen mode) ss segs)
    (hc : ∀ s ws, s ∈ ss → ws ∈ segs → L.Chosen mode s ws → L'.Chosen mode s ws) : List.Forall₂ (L'.Chosen mode) ss segs := by
  induction h with
  | nil => exact .nil
  | cons h1 _ ih => exact .cons (hc _ _ (by simp) (by simp) h1) (ih fun s ws hs hw => hc s ws (by simp [hs]) (by simp [hw]))

private theorem tokenizes_unique {env : BuildEnv} {kind : DictionaryKind} {src : SourceDir} {user : Option (DictionaryKind × List Row)} {mode : Mode} {text : Str}
    {shown shown' : List (Str × Nat × Nat × Nat × Option (List Str))} (h : Tokenizes env kind src user mode text shown) (h' : Tokenizes env kind src user mode text shown') : shown = shown' := by
  obtain ⟨parts, m, u, toks, h1, h2, h3, h4, h5⟩ := h
  obtain ⟨parts', m', u', toks', h1', h2', h3', h4', h5'⟩ := h'
  cases h1.symm.trans h1'
  cases h2.symm.trans h2'
  cases h3.symm.trans h3'
  cases h4.symm.trans h4'
  cases h5.symm.trans h5'
  rfl

private theorem unused_same {env env' : BuildEnv} {kind : DictionaryKind} {src src' : SourceDir} {c c' : Contents} {user user' : Option (DictionaryKind × List Row)} (hr : Ready env kind src c user)
    (hr' : Ready env' kind src' c' user') {before : List Item} {w : Item} (h : Without (c.lexicon kind user) (c'.lexicon kind user') before w) {mode : Mode} {text : Str} {ss : List Str}
    (hss : Sentences text ss) (hag : ∀ s ∈ ss, Agree (c.lexicon kind user) (c'.lexicon kind user') mode s) (hno : ∀ s ∈ ss, (c.lexicon kind user).CostsFit mode s)
    {shown shown' : List (Str × Nat × Nat × Nat × Option (List Str))} (ht : Tokenizes env kind src user mode text shown) (ht' : Tokenizes env' kind src' user' mode text shown') :
    shown = shown' ∨ 0 < uses w shown := by
  rcases Nat.eq_zero_or_pos (uses w shown) with hn | hn
  · left
    obtain ⟨segs, h1, rfl⟩ := (c82_fitting env hr.yada hr.hashOrder kind src c hr.contents hr.good user hr.user mode text ss hss hno shown).mp ht
    refine tokenizes_unique ((c82_fitting env' hr'.yada hr'.hashOrder kind src' c' hr'.contents hr'.good user' hr'.user mode text ss hss (fun s hs => without_agree_fit h (hag s hs) (hno s hs)) _).mpr
      ⟨segs, forall₂_chosen' h1 fun s ws hs hws hc => ?_, rfl⟩) ht'
    rw [tokensFor_uses, List.countP_eq_zero] at hn
    exact dropped_chosen h (hag s hs) hc fun hm => absurd (hn w (List.mem_flatten.mpr ⟨ws, hws, hm⟩)) (by simp)
  · exact .inr hn

/-- C91: let a word be added to a dictionary or a user dictionary, and let its text be one that can be cut into words that are there already (as for a compound, or another reading of a word). Then every text is
tokenized as before, or its tokens show the new word. -/
theorem c91_compound_partial {env env' : BuildEnv} {kind : DictionaryKind} {src src' : SourceDir} {c c' : Contents} {user user' : Option (DictionaryKind × List Row)} (hr : Ready env kind src c user)
    (hr' : Ready env' kind src' c' user') {before : List Item} {w : Item} (h : Without (c.lexicon kind user) (c'.lexicon kind user') before w)
    (hcut : CutInto (c'.lexicon kind user').words w.surface) {mode : Mode} {text : Str} {ss : List Str} (hss : Sentences text ss) (hno : ∀ s ∈ ss, (c.lexicon kind user).CostsFit mode s)
    {shown shown' : List (Str × Nat × Nat × Nat × Option (List Str))} (ht : Tokenizes env kind src user mode text shown) (ht' : Tokenizes env' kind src' user' mode text shown') :
    shown = shown' ∨ 0 < uses w shown :=
  unused_same hr hr' h hss (fun s _ => cut_agree h hcut mode s) hno ht ht'

/-- C91: in decompose mode the same holds for every word that hides no unknown words of the text: where it occurs, another word starts, or the invoke flags of the next character's categories are set. -/
theorem c91_decompose_partial {env env' : BuildEnv} {kind : DictionaryKind} {src src' : SourceDir} {c c' : Contents} {user user' : Option (DictionaryKind × List Row)} (hr : Ready env kind src c user)
    (hr' : Ready env' kind src' c' user') {before : List Item} {w : Item} (h : Without (c.lexicon kind user) (c'.lexicon kind user') before w) {p : Penalty} {text : Str} {ss : List Str}
    (hss : Sentences text ss) (hh : ∀ s ∈ ss, HidesNothing (c'.lexicon kind user') w.surface s) (hno : ∀ s ∈ ss, (c.lexicon kind user).CostsFit (.decompose p) s)
    {shown shown' : List (Str × Nat × Nat × Nat × Option (List Str))} (ht : Tokenizes env kind src user (.decompose p) text shown)
    (ht' : Tokenizes env' kind src' user' (.decompose p) text shown') : shown = shown' ∨ 0 < uses w shown :=
  unused_same hr hr' h hss (fun s hs => open_agree h (by simp) (hh s hs)) hno ht ht'

/-- C91: for any added word, every text is tokenized as before, or its tokens show the new word, or the word changes which unknown words are looked for in a sentence of the text. So this is the only other way in
which an added word changes tokens. -/
theorem c91_general {env env' : BuildEnv} {kind : DictionaryKind} {src src' : SourceDir} {c c' : Contents} {user user' : Option (DictionaryKind × List Row)} (hr : Ready env kind src c user)
    (hr' : Ready env' kind src' c' user') {before : List Item} {w : Item} (h : Without (c.lexicon kind user) (c'.lexicon kind user') before w) {mode : Mode} {text : Str} {ss : List Str}
    (hss : Sentences text ss) (hno : ∀ s ∈ ss, (c.lexicon kind user).CostsFit mode s)
    {shown shown' : List (Str × Nat × Nat × Nat × Option (List Str))} (ht : Tokenizes env kind src user mode text shown) (ht' : Tokenizes env' kind src' user' mode text shown') :
    shown = shown' ∨ 0 < uses w shown ∨ ∃ s ∈ ss, ¬ SameUnknowns (c.lexicon kind user) (c'.lexicon kind user') mode s := by
  by_cases hd : ∃ s ∈ ss, ¬ SameUnknowns (c.lexicon kind user) (c'.lexicon kind user') mode s
  · exact .inr (.inr hd)
  · push Not at hd
    rcases unused_same hr hr' h hss (fun s hs => same_agree h (hd s hs)) hno ht ht' with e | e
    · exact .inl e
    · exact .inr (.inl e)

/-- Leaving out a record of the user dictionary removes one word. -/
theorem c91_record {kind ukind : DictionaryKind} {c : Contents} {rows after : List Row} {row : Row} {w : SourceWord} (hw : readUserRow ukind row = some w) :
    Without (c.lexicon kind (some (ukind, rows ++ row :: after))) (c.lexicon kind (some (ukind, rows ++ after))) ((rows.filterMap (readUserRow ukind)).map SourceWord.userItem) w.userItem := by
  refine ⟨⟨(after.filterMap (readUserRow ukind)).map SourceWord.userItem ++ (sourceWords (sourceFormat kind).unify c.rows).map SourceWord.systemItem, ?_, ?_⟩, rfl, rfl, rfl⟩
  · simp only [Contents.lexicon, userWords, List.filterMap_append, List.filterMap_cons, hw, List.map_append, List.map_cons, List.append_assoc, List.cons_append]
  · simp only [Contents.lexicon, userWords, List.filterMap_append, List.map_append, List.append_assoc]

/-! ### Witnesses -/

namespace Extra

/-- `Local.run` in any mode. -/
def run (src : SourceDir) (mode : Mode) (text : Str) : R (List (Str × Nat × Nat × Nat × Option (List Str))) := do
  let parts ← compile Dir.env .unidic src
  let m ← ConnMatrix.load parts.matrix
  let toks ← Tokenizer.tokenize ⟨parts.dictionary m, none, mode⟩ text
  Lexicon.visible ⟨parts.dictionary m, none, mode⟩ toks

theorem run_ok {src : SourceDir} {mode : Mode} {text : Str} {v : List (Str × Nat × Nat × Nat × Option (List Str))} (h : run src mode text = .ok v) :
    Tokenizes Dir.env .unidic src none mode text v := by
  unfold run at h
  rw [bind_eq_ok] at h
  obtain ⟨parts, h1, h⟩ := h
  rw [bind_eq_ok] at h
  obtain ⟨m, h2, h⟩ := h
  rw [bind_eq_ok] at h
  obtain ⟨toks, h3, h⟩ := h
  exact ⟨parts, m, none, toks, h1, h2, rfl, h3, h⟩

/-- Words `a` and `ab`, and also `bx` at a high cost. -/
def few : List (String × List Row) :=
  [("a,0,0,-3,y,z\nab,0,0,10,y,w\n", [⟨['a'], [['0'], ['0'], ['-', '3'], ['y'], ['z']]⟩, ⟨['a', 'b'], [['0'], ['0'], ['1', '0'], ['y'], ['w']]⟩])]
def more : List (String × List Row) :=
  [("a,0,0,-3,y,z\nab,0,0,10,y,w\nbx,0,0,32000,y,v\n", [⟨['a'], [['0'], ['0'], ['-', '3'], ['y'], ['z']]⟩, ⟨['a', 'b'], [['0'], ['0'], ['1', '0'], ['y'], ['w']]⟩,
    ⟨['b', 'x'], [['0'], ['0'], ['3', '2', '0', '0', '0'], ['y'], ['v']]⟩])]

theorem fewReady : Ready Dir.env .unidic (Twin.src (few.map (·.1))) (Twin.contents (few.flatMap (·.2))) none :=
  Twin.ready (by decide +kernel) (by decide +kernel) (by decide +kernel) (by decide +kernel) (by decide +kernel) (by unfold Acceptable; decide +kernel) none (fun _ _ h => by cases h)
theorem moreReady : Ready Dir.env .unidic (Twin.src (more.map (·.1))) (Twin.contents (more.flatMap (·.2))) none :=
  Twin.ready (by decide +kernel) (by decide +kernel) (by decide +kernel) (by decide +kernel) (by decide +kernel) (by unfold Acceptable; decide +kernel) none (fun _ _ h => by cases h)

theorem without : Without ((Twin.contents (more.flatMap (·.2))).lexicon .unidic none) ((Twin.contents (few.flatMap (·.2))).lexicon .unidic none)
    ((Twin.contents (few.flatMap (·.2))).lexicon .unidic none).words (SourceWord.systemItem ⟨['b', 'x'], 32000, 0, 0, [['y'], ['v']]⟩) :=
  c90_row (kind := .unidic) (c := Twin.contents (more.flatMap (·.2))) (c' := Twin.contents (few.flatMap (·.2))) (user := none) (before := few.flatMap (·.2)) (after := [])
    (row := ⟨['b', 'x'], [['0'], ['0'], ['3', '2', '0', '0', '0'], ['y'], ['v']]⟩) (w := ⟨['b', 'x'], 32000, 0, 0, [['y'], ['v']]⟩) rfl (by simp [Twin.contents]) (by decide +kernel)

/-- Words `a1` and `a12`, and also `a` at a high cost. -/
def whole : List (String × List Row) :=
  [("a1,0,0,-3,y,z\na12,0,0,500,y,w\n", [⟨['a', '1'], [['0'], ['0'], ['-', '3'], ['y'], ['z']]⟩, ⟨['a', '1', '2'], [['0'], ['0'], ['5', '0', '0'], ['y'], ['w']]⟩])]
def start : List (String × List Row) :=
  [("a1,0,0,-3,y,z\na12,0,0,500,y,w\na,0,0,32000,y,v\n", [⟨['a', '1'], [['0'], ['0'], ['-', '3'], ['y'], ['z']]⟩, ⟨['a', '1', '2'], [['0'], ['0'], ['5', '0', '0'], ['y'], ['w']]⟩,
    ⟨['a'], [['0'], ['0'], ['3', '2', '0', '0', '0'], ['y'], ['v']]⟩])]

theorem wholeReady : Ready Dir.env .unidic (Twin.src (whole.map (·.1))) (Twin.contents (whole.flatMap (·.2))) none :=
  Twin.ready (by decide +kernel) (by decide +kernel) (by decide +kernel) (by decide +kernel) (by decide +kernel) (by unfold Acceptable; decide +kernel) none (fun _ _ h => by cases h)
theorem startReady : Ready Dir.env .unidic (Twin.src (start.map (·.1))) (Twin.contents (start.flatMap (·.2))) none :=
  Twin.ready (by decide +kernel) (by decide +kernel) (by decide +kernel) (by decide +kernel) (by decide +kernel) (by unfold Acceptable; decide +kernel) none (fun _ _ h => by cases h)

theorem without' : Without ((Twin.contents (start.flatMap (·.2))).lexicon .unidic none) ((Twin.contents (whole.flatMap (·.2))).lexicon .unidic none)
    ((Twin.contents (whole.flatMap (·.2))).lexicon .unidic none).words (SourceWord.systemItem ⟨['a'], 32000, 0, 0, [['y'], ['v']]⟩) :=
  c90_row (kind := .unidic) (c := Twin.contents (start.flatMap (·.2))) (c' := Twin.contents (whole.flatMap (·.2))) (user := none) (before := whole.flatMap (·.2)) (after := [])
    (row := ⟨['a'], [['0'], ['0'], ['3', '2', '0', '0', '0'], ['y'], ['v']]⟩) (w := ⟨['a'], 32000, 0, 0, [['y'], ['v']]⟩) rfl (by simp [Twin.contents]) (by decide +kernel)

theorem hides : HidesNothing ((Twin.contents (whole.flatMap (·.2))).lexicon .unidic none) ['a'] "a12".toList := by
  intro pre post c he hc
  left
  rw [show "a12".toList = ['a', '1', '2'] by decide +kernel] at he
  have : pre = [] ∧ post = ['1', '2'] := by
    cases pre with
    | nil => exact ⟨rfl, by have := he; simp at this; exact this.symm⟩
    | cons x pre =>
      exfalso
      have h1 : 'a' ∈ ['1', '2'] := by
        have : ['1', '2'] = pre ++ ['a'] ++ post := by simpa using (List.cons.inj he).2
        rw [this]; simp
      revert h1; decide
  obtain ⟨rfl, rfl⟩ := this
  exact ⟨SourceWord.systemItem ⟨['a', '1'], -3, 0, 0, [['y'], ['z']]⟩, by decide +kernel, by simp [SourceWord.systemItem], by decide⟩

end Extra

/-- C91 fails in general, in both modes: a word that is not used can change the tokens, because no unknown words are looked for where it occurs. (With `bx` at a high cost, `abx` becomes `ab`, `x` instead of
`a`, `bx`.) -/
theorem c91_fails (mode : Mode) (hm : mode = .normal ∨ mode = .decompose Penalty.default) :
    ¬ ∀ (env : BuildEnv) (kind : DictionaryKind) (src src' : SourceDir) (c c' : Contents) (before : List Item) (w : Item), Ready env kind src c none → Ready env kind src' c' none →
      Without (c.lexicon kind none) (c'.lexicon kind none) before w → ∀ text ss, Sentences text ss → (∀ s ∈ ss, NoOverflow mode s) → ∀ shown shown',
      Tokenizes env kind src none mode text shown → Tokenizes env kind src' none mode text shown' → shown = shown' ∨ 0 < uses w shown := by
  intro h
  have key := h Dir.env .unidic _ _ _ _ _ _ Extra.moreReady Extra.fewReady Extra.without "abx".toList _ (Twin.sentence _ (by decide +kernel))
  rcases hm with rfl | rfl
  · have := key (fun s hs => noOverflow_normal (by simp at hs; subst hs; decide +kernel))
      [(['a', 'b'], 0, 2, 0, some [['y'], ['w']]), (['x'], 2, 3, 1, some [['U', 'N', 'K']])] [(['a'], 0, 1, 0, some [['y'], ['z']]), (['b', 'x'], 1, 3, 1, some [['U', 'N', 'K']])]
      (Extra.run_ok (by decide +kernel)) (Extra.run_ok (by decide +kernel))
    revert this; decide +kernel
  · have := key (fun s hs => noOverflow_default (by simp at hs; subst hs; decide +kernel))
      [(['a', 'b'], 0, 2, 0, some [['y'], ['w']]), (['x'], 2, 3, 1, some [['U', 'N', 'K']])] [(['a'], 0, 1, 0, some [['y'], ['z']]), (['b', 'x'], 1, 3, 1, some [['U', 'N', 'K']])]
      (Extra.run_ok (by decide +kernel)) (Extra.run_ok (by decide +kernel))
    revert this; decide +kernel

/-- C91 fails in normal mode even for a word that hides no unknown words: a place that is only reached through the new word can propose an unknown word, inside of which no others are looked for. (With `a` at a
high cost, `a12` is one token instead of `a1`, `2`.) -/
theorem c91_normal_fails :
    ¬ ∀ (env : BuildEnv) (kind : DictionaryKind) (src src' : SourceDir) (c c' : Contents) (before : List Item) (w : Item), Ready env kind src c none → Ready env kind src' c' none →
      Without (c.lexicon kind none) (c'.lexicon kind none) before w → ∀ text ss, Sentences text ss → (∀ s ∈ ss, HidesNothing (c'.lexicon kind none) w.surface s) → (∀ s ∈ ss, NoOverflow .normal s) →
      ∀ shown shown', Tokenizes env kind src none .normal text shown → Tokenizes env kind src' none .normal text shown' → shown = shown' ∨ 0 < uses w shown := by
  intro h
  have := h Dir.env .unidic _ _ _ _ _ _ Extra.startReady Extra.wholeReady Extra.without' "a12".toList _ (Twin.sentence _ (by decide +kernel))
    (fun s hs => by simp only [List.mem_singleton] at hs; subst hs; exact Extra.hides) (fun s hs => noOverflow_normal (by simp at hs; subst hs; decide +kernel))
    [(['a', '1', '2'], 0, 3, 0, some [['y'], ['w']])] [(['a', '1'], 0, 2, 0, some [['y'], ['z']]), (['2'], 2, 3, 1, some [['U', 'N', 'K']])]
    (Extra.run_ok (by decide +kernel)) (Extra.run_ok (by decide +kernel))
  revert this; decide +kernel

/-! ### Non-vacuity -/

namespace Extra

/-- Words `a` and `b`, and also the compound `ab` at a high cost. -/
def parts : List (String × List Row) := [("a,0,0,-3,y,z\nb,0,1,3,y,w\n", [⟨['a'], [['0'], ['0'], ['-', '3'], ['y'], ['z']]⟩, ⟨['b'], [['0'], ['1'], ['3'], ['y'], ['w']]⟩])]
def compound : List (String × List Row) :=
  [("a,0,0,-3,y,z\nb,0,1,3,y,w\nab,0,0,32000,y,v\n", [⟨['a'], [['0'], ['0'], ['-', '3'], ['y'], ['z']]⟩, ⟨['b'], [['0'], ['1'], ['3'], ['y'], ['w']]⟩,
    ⟨['a', 'b'], [['0'], ['0'], ['3', '2', '0', '0', '0'], ['y'], ['v']]⟩])]

theorem partsReady : Ready Dir.env .unidic (Twin.src (parts.map (·.1))) (Twin.contents (parts.flatMap (·.2))) none :=
  Twin.ready (by decide +kernel) (by decide +kernel) (by decide +kernel) (by decide +kernel) (by decide +kernel) (by unfold Acceptable; decide +kernel) none (fun _ _ h => by cases h)
theorem compoundReady : Ready Dir.env .unidic (Twin.src (compound.map (·.1))) (Twin.contents (compound.flatMap (·.2))) none :=
  Twin.ready (by decide +kernel) (by decide +kernel) (by decide +kernel) (by decide +kernel) (by decide +kernel) (by unfold Acceptable; decide +kernel) none (fun _ _ h => by cases h)

theorem withoutCompound : Without ((Twin.contents (compound.flatMap (·.2))).lexicon .unidic none) ((Twin.contents (parts.flatMap (·.2))).lexicon .unidic none)
    ((Twin.contents (parts.flatMap (·.2))).lexicon .unidic none).words (SourceWord.systemItem ⟨['a', 'b'], 32000, 0, 0, [['y'], ['v']]⟩) :=
  c90_row (kind := .unidic) (c := Twin.contents (compound.flatMap (·.2))) (c' := Twin.contents (parts.flatMap (·.2))) (user := none) (before := parts.flatMap (·.2)) (after := [])
    (row := ⟨['a', 'b'], [['0'], ['0'], ['3', '2', '0', '0', '0'], ['y'], ['v']]⟩) (w := ⟨['a', 'b'], 32000, 0, 0, [['y'], ['v']]⟩) rfl (by simp [Twin.contents]) (by decide +kernel)

end Extra

/-- The conditions of `c91_compound_partial` hold: the compound `ab` of `a` and `b`. -/
example {shown : List (Str × Nat × Nat × Nat × Option (List Str))} (h : Tokenizes Dir.env .unidic (Twin.src (Extra.parts.map (·.1))) none .normal "aab".toList shown) :
    [(['a'], 0, 1, 0, some [['y'], ['z']]), (['a'], 1, 2, 1, some [['y'], ['z']]), (['b'], 2, 3, 2, some [['y'], ['w']])] = shown := by
  refine (c91_compound_partial Extra.compoundReady Extra.partsReady Extra.withoutCompound
    ⟨[SourceWord.systemItem ⟨['a'], -3, 0, 0, [['y'], ['z']]⟩, SourceWord.systemItem ⟨['b'], 3, 0, 1, [['y'], ['w']]⟩], by decide +kernel, by decide +kernel⟩
    (Twin.sentence _ (by decide +kernel)) (fun s hs => costsFit_of_short (noOverflow_normal (by simp at hs; subst hs; decide +kernel))) (Extra.run_ok (by decide +kernel)) h).resolve_right (by decide +kernel)

/-- The conditions of `c91_decompose_partial` hold for the sources of `c91_normal_fails`. -/
example {shown : List (Str × Nat × Nat × Nat × Option (List Str))} (h : Tokenizes Dir.env .unidic (Twin.src (Extra.whole.map (·.1))) none (.decompose Penalty.default) "a12".toList shown) :
    [(['a', '1'], 0, 2, 0, some [['y'], ['z']]), (['2'], 2, 3, 1, some [['U', 'N', 'K']])] = shown := by
  refine (c91_decompose_partial Extra.startReady Extra.wholeReady Extra.without' (Twin.sentence _ (by decide +kernel))
    (fun s hs => by simp only [List.mem_singleton] at hs; subst hs; exact Extra.hides) (fun s hs => costsFit_of_short (noOverflow_default (by simp at hs; subst hs; decide +kernel)))
    (Extra.run_ok (by decide +kernel)) h).resolve_right (by decide +kernel)

/-- `c91_general` for the sources of `c91_fails`: `bx` is not used and the tokens of `abx` change, so it changes which unknown words are looked for. -/
example : ∃ s ∈ ["abx".toList], ¬ SameUnknowns ((Twin.contents (Extra.more.flatMap (·.2))).lexicon .unidic none) ((Twin.contents (Extra.few.flatMap (·.2))).lexicon .unidic none) .normal s := by
  refine ((c91_general Extra.moreReady Extra.fewReady Extra.without (mode := .normal) (Twin.sentence "abx".toList (by decide +kernel))
    (fun s hs => costsFit_of_short (noOverflow_normal (by simp at hs; subst hs; decide +kernel)))
    (shown := [(['a', 'b'], 0, 2, 0, some [['y'], ['w']]), (['x'], 2, 3, 1, some [['U', 'N', 'K']])]) (shown' := [(['a'], 0, 1, 0, some [['y'], ['z']]), (['b', 'x'], 1, 3, 1, some [['U', 'N', 'K']])])
    (Extra.run_ok (by decide +kernel)) (Extra.run_ok (by decide +kernel))).resolve_left (by decide +kernel)).resolve_left (by decide +kernel)

end Verif.Props
