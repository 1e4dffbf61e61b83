import Verif.Proofs.Repriced
import Verif.Props.Determined
/-! C88: what happens when the cost of a word or of a connection is changed. -/
namespace Verif.Props
open Verif.Model Verif.Spec

/-! ### C88 Costs act in the expected direction -/

/-- C88: making a word cheaper never makes it disappear. If two dictionaries (with their user dictionaries) differ in the cost of one word only, which is lower in the second, then every text has at
least as many tokens for this word with the second as with the first. -/
theorem c88_cheaper {env env' : BuildEnv} {kind : DictionaryKind} {src src' : SourceDir} {c c' : Contents} {user user' : Option (DictionaryKind × List Row)} (hr : Ready env kind src c user)
    (hr' : Ready env' kind src' c' user') {w : Item} {x : Int16} (hw : Repriced (c.lexicon kind user) (c'.lexicon kind user') w x) (hx : x.toInt < w.cost.toInt)
    (hd : Distinguishable (c.lexicon kind user) w) {mode : Mode} {text : Str} {ss : List Str} (hss : Sentences text ss) (hno : ∀ s ∈ ss, (c.lexicon kind user).CostsFit mode s ∧ (c'.lexicon kind user').CostsFit mode s)
    {shown shown' : List (Str × Nat × Nat × Nat × Option (List Str))} (h : Tokenizes env kind src user mode text shown) (h' : Tokenizes env' kind src' user' mode text shown') :
    uses w shown ≤ uses w shown' := by
  obtain ⟨segs, h1, rfl⟩ := (c82_fitting env hr.yada hr.hashOrder kind src c hr.contents hr.good user hr.user mode text ss hss (fun s hs => (hno s hs).1) shown).mp h
  obtain ⟨segs', h1', rfl⟩ := (c82_fitting env' hr'.yada hr'.hashOrder kind src' c' hr'.contents hr'.good user' hr'.user mode text ss hss (fun s hs => (hno s hs).2) shown').mp h'
  rw [tokensFor_uses, tokensFor_uses]
  clear h h' hss
  induction h1 generalizing segs' with
  | nil => simp
  | @cons s ws ss segs hc _ ih =>
    cases h1' with
    | @cons _ ws' _ segs' hc' h1' =>
      have hrec := ih (fun x hx => hno x (by simp [hx])) segs' h1'
      simp only [List.flatten_cons, List.countP_append]
      refine Nat.add_le_add ?_ hrec
      rw [countP_count hd (segFrom_usable hc.segmentation)]
      refine Nat.le_trans (cheaper_count hw hx hc hc') ?_
      rw [List.count]
      refine List.countP_mono_left fun u _ hu => ?_
      rw [beq_iff_eq] at hu
      subst hu
      simp

/-- C88: making a word dearer that no token of a text shows changes nothing for this text. -/
theorem c88_unused {env env' : BuildEnv} {kind : DictionaryKind} {src src' : SourceDir} {c c' : Contents} {user user' : Option (DictionaryKind × List Row)} (hr : Ready env kind src c user)
    (hr' : Ready env' kind src' c' user') {w : Item} {x : Int16} (hw : Repriced (c.lexicon kind user) (c'.lexicon kind user') w x) (hx : w.cost.toInt < x.toInt)
    {mode : Mode} {text : Str} {ss : List Str} (hss : Sentences text ss) (hno : ∀ s ∈ ss, (c.lexicon kind user).CostsFit mode s ∧ (c'.lexicon kind user').CostsFit mode s)
    {shown : List (Str × Nat × Nat × Nat × Option (List Str))} (h : Tokenizes env kind src user mode text shown) (hn : uses w shown = 0) :
    Tokenizes env' kind src' user' mode text shown := by
  obtain ⟨segs, h1, rfl⟩ := (c82_fitting env hr.yada hr.hashOrder kind src c hr.contents hr.good user hr.user mode text ss hss (fun s hs => (hno s hs).1) shown).mp h
  refine (c82_fitting env' hr'.yada hr'.hashOrder kind src' c' hr'.contents hr'.good user' hr'.user mode text ss hss (fun s hs => (hno s hs).2) _).mpr ⟨segs, ?_, rfl⟩
  rw [tokensFor_uses, List.countP_eq_zero] at hn
  have hn' : ∀ ws ∈ segs, w ∉ ws := fun ws hws hm => hn w (List.mem_flatten.mpr ⟨ws, hws, hm⟩) (by simp)
  clear hn h hno hss
  induction h1 with
  | nil => exact .nil
  | cons hc _ ih => exact .cons (dearer_chosen hw hx hc (hn' _ (by simp))) (ih fun ws hws => hn' ws (by simp [hws]))

/-- C88: raising connection costs between context ids that do not meet in the segmentation of a text changes nothing for this text. -/
theorem c88_connections {env env' : BuildEnv} {kind : DictionaryKind} {src src' : SourceDir} {c c' : Contents} {user : Option (DictionaryKind × List Row)} (hr : Ready env kind src c user)
    (hr' : Ready env' kind src' c' user) (hrows : c'.rows = c.rows) (hdefs : c'.defs = c.defs) (hunk : c'.unk = c.unk)
    (hc : ∀ r l, (c.lexicon kind user).conn r l ≤ (c'.lexicon kind user).conn r l)
    {mode : Mode} {text : Str} {ss : List Str} (hss : Sentences text ss) (hno : ∀ s ∈ ss, (c.lexicon kind user).CostsFit mode s ∧ (c'.lexicon kind user).CostsFit mode s)
    {shown : List (Str × Nat × Nat × Nat × Option (List Str))} (h : Tokenizes env kind src user mode text shown)
    (hm : ∀ s ∈ ss, ∀ ws, (c.lexicon kind user).Chosen mode s ws → ∀ m ∈ meetings 0 ws, (c'.lexicon kind user).conn m.1 m.2 = (c.lexicon kind user).conn m.1 m.2) :
    Tokenizes env' kind src' user mode text shown := by
  obtain ⟨segs, h1, rfl⟩ := (c82_fitting env hr.yada hr.hashOrder kind src c hr.contents hr.good user hr.user mode text ss hss (fun s hs => (hno s hs).1) shown).mp h
  refine (c82_fitting env' hr'.yada hr'.hashOrder kind src' c' hr'.contents hr'.good user hr'.user mode text ss hss (fun s hs => (hno s hs).2) _).mpr ⟨segs, ?_, rfl⟩
  have e : (c'.lexicon kind user).words = (c.lexicon kind user).words := by simp only [Contents.lexicon, hrows]
  clear h hno hss
  induction h1 with
  | nil => exact .nil
  | cons hch _ ih => exact .cons (raised_chosen e hdefs hunk hc hch (hm _ (by simp) _ hch)) (ih fun s hs => hm s (by simp [hs]))

/-- Changing the cost in a row of a CSV file changes the cost of one word of the lexicon. -/
theorem c88_row {kind : DictionaryKind} {c c' : Contents} {user : Option (DictionaryKind × List Row)} {before after : List Row} {row row' : Row} {w : SourceWord} {x : Int16}
    (h : c.rows = before ++ row :: after) (h' : c' = { c with rows := before ++ row' :: after }) (hw : readRow (sourceFormat kind).unify row = some w)
    (hw' : readRow (sourceFormat kind).unify row' = some { w with cost := x }) : Repriced (c.lexicon kind user) (c'.lexicon kind user) w.systemItem x := by
  subst h'
  refine ⟨⟨(userWords user).map SourceWord.userItem ++ (sourceWords (sourceFormat kind).unify before).map SourceWord.systemItem,
    (sourceWords (sourceFormat kind).unify after).map SourceWord.systemItem, ?_, ?_⟩, rfl, rfl, rfl⟩
  · simp only [Contents.lexicon, h, sourceWords, List.filterMap_append, List.filterMap_cons, hw, List.map_append, List.map_cons, List.append_assoc]
  · simp only [Contents.lexicon, sourceWords, List.filterMap_append, List.filterMap_cons, hw', List.map_append, List.map_cons, List.append_assoc]
    rfl

/-- So does changing the cost in a record of the user dictionary. -/
theorem c88_user_row {kind ukind : DictionaryKind} {c : Contents} {before after : List Row} {row row' : Row} {w : SourceWord} {x : Int16}
    (hw : readUserRow ukind row = some w) (hw' : readUserRow ukind row' = some { w with cost := x }) :
    Repriced (c.lexicon kind (some (ukind, before ++ row :: after))) (c.lexicon kind (some (ukind, before ++ row' :: after))) w.userItem x := by
  refine ⟨⟨(before.filterMap (readUserRow ukind)).map SourceWord.userItem,
    (after.filterMap (readUserRow ukind)).map SourceWord.userItem ++ (sourceWords (sourceFormat kind).unify c.rows).map SourceWord.systemItem, ?_, ?_⟩, rfl, rfl, rfl⟩
  · simp only [Contents.lexicon, userWords, List.filterMap_append, List.filterMap_cons, hw, List.map_append, List.map_cons, List.append_assoc, List.cons_append]
  · simp only [Contents.lexicon, userWords, List.filterMap_append, List.filterMap_cons, hw', List.map_append, List.map_cons, List.append_assoc, List.cons_append]
    rfl

/-! ### Non-vacuity -/

namespace Price

/-- The word `ab` with another cost. -/
def csv (cost : String) : String := "a,0,0,-3,y,z\nab,1,1," ++ cost ++ ",y,w\n"
def src (cost : String) : SourceDir := { Lang.source with csvs := [some (utf8 Lang.csv1.toList), some (utf8 (csv cost).toList)] }
def row (cost : String) : Row := ⟨['a', 'b'], [['1'], ['1'], cost.toList, ['y'], ['w']]⟩
def contents (cost : String) : Contents := { Lang.contents with rows := Lang.contents.rows.take 2 ++ [row cost] }
def word (cost : Int16) : SourceWord := ⟨['a', 'b'], cost, 1, 1, [['y'], ['w']]⟩

theorem ready {cost : String} (h1 : Dir.env.csv false .utf8 (utf8 (csv cost).toList) = some (Lang.contents.rows.drop 1 |>.take 1 |>.append [row cost]))
    (h3 : (contents cost).rows.length < 2 ^ 32 ∧ ((contents cost).rows.map detailSize).sum < 2 ^ 32)
    (h4 : ∀ r ∈ (contents cost).rows, r.first ≠ [] ∧ ∀ f ∈ r.fields, '\x00' ∉ f) (h5 : (sourceWords false (contents cost).rows).length < 32 ∧ sourceWords false (contents cost).rows ≠ [])
    (h6 : ∀ w ∈ sourceWords false (contents cost).rows, w.leftId.toNat < 2 ∧ w.rightId.toNat < 2) (h7 : Acceptable false false (contents cost).rows) :
    Ready Dir.env .unidic (src cost) (contents cost) none where
  yada := Src.yadaOk
  hashOrder _ := .refl _
  contents := ⟨Lang.saysSo.charDef, Lang.saysSo.unk, Lang.saysSo.matrix,
    [(utf8 Lang.csv1.toList, Lang.contents.rows.take 1), (utf8 (csv cost).toList, Lang.contents.rows.drop 1 |>.take 1 |>.append [row cost])], rfl, by
      intro f hf
      simp only [List.mem_cons, List.not_mem_nil, or_false] at hf
      rcases hf with rfl | rfl
      · decide +kernel
      · exact h1, rfl⟩
  good := Local.good h7 (Local.fits h5.1 h3.1 h3.2 h4 h5.2) h6
  user _ _ h := by cases h

theorem dear : Ready Dir.env .unidic (src "50") (contents "50") none :=
  ready (by decide +kernel) (by decide +kernel) (by decide +kernel) (by decide +kernel) (by decide +kernel) (by unfold Acceptable; decide +kernel)

theorem cheap : Ready Dir.env .unidic (src "-9") (contents "-9") none :=
  ready (by decide +kernel) (by decide +kernel) (by decide +kernel) (by decide +kernel) (by decide +kernel) (by unfold Acceptable; decide +kernel)

theorem repriced : Repriced ((contents "50").lexicon .unidic none) ((contents "-9").lexicon .unidic none) (word 50).systemItem (-9) :=
  c88_row (w := word 50) (before := Lang.contents.rows.take 2) (after := []) (row := row "50") (row' := row "-9") rfl rfl (by decide +kernel) (by decide +kernel)

theorem raised : Repriced ((contents "-9").lexicon .unidic none) ((contents "50").lexicon .unidic none) (word (-9)).systemItem 50 :=
  c88_row (w := word (-9)) (before := Lang.contents.rows.take 2) (after := []) (row := row "-9") (row' := row "50") rfl rfl (by decide +kernel) (by decide +kernel)

/-- A matrix in which the connection from 1 to 1 costs more. -/
def matrixText : String := "2 2\n0 0 5\n0 1 -3\n1 0 2\n1 1 20\n"
def bumped : SourceDir := { Lang.source with matrix := some (utf8 matrixText.toList) }
def bumpedContents : Contents := { Lang.contents with costs := [⟨0, 0, 5⟩, ⟨0, 1, -3⟩, ⟨1, 0, 2⟩, ⟨1, 1, 20⟩] }

theorem plain : Ready Dir.env .unidic Lang.source Lang.contents none := ⟨Src.yadaOk, fun _ => .refl _, Lang.saysSo, Lang.good, fun _ _ h => by cases h⟩

theorem bumpedReady : Ready Dir.env .unidic bumped bumpedContents none where
  yada := Src.yadaOk
  hashOrder _ := .refl _
  contents := ⟨Lang.saysSo.charDef, Lang.saysSo.unk, (wellFormed_says (c := bumpedContents) (src := bumped) (kind := .unidic) (env := Dir.env)
    ⟨Lang.wellFormed.charDef, Lang.wellFormed.unk, ⟨_, rfl, by
      rw [Lang.decode]
      exact ⟨"2 2".toList, ["0 0 5".toList, "0 1 -3".toList, "1 0 2".toList, "1 1 20".toList], lines_iff.mp (by decide +kernel), numberLine_iff (vs := [2, 2]).mp (by decide +kernel),
        .cons (numberLine_iff (vs := [0, 0, 5]).mp (by decide +kernel)) (.cons (numberLine_iff (vs := [0, 1, -3]).mp (by decide +kernel))
        (.cons (numberLine_iff (vs := [1, 0, 2]).mp (by decide +kernel)) (.cons (numberLine_iff (vs := [1, 1, 20]).mp (by decide +kernel)) .nil)))⟩⟩, Lang.wellFormed.rows⟩ (by decide) (by decide)).matrix,
    Lang.saysSo.rows⟩
  good := ⟨Lang.good.ordered, Lang.good.default, Lang.good.unknown, Lang.good.unkCount, Lang.good.unkIds, Lang.good.zero, Lang.good.sizes, by decide +kernel, Lang.good.rows, Lang.good.fits,
    Lang.good.rowIds⟩
  user _ _ h := by cases h

theorem distinguishable : Distinguishable ((contents "50").lexicon .unidic none) (word 50).systemItem := by
  unfold Distinguishable
  decide +kernel

end Price

/-- With cost 50, the word `ab` is not used in `aba`; with cost -9 it is. -/
example : ∃ v v', Tokenizes Dir.env .unidic (Price.src "50") none .normal "aba".toList v ∧ Tokenizes Dir.env .unidic (Price.src "-9") none .normal "aba".toList v' ∧
    uses (Price.word 50).systemItem v = 0 ∧ uses (Price.word 50).systemItem v' = 1 :=
  ⟨[(['a'], 0, 1, 0, some [['y'], ['z']]), (['b'], 1, 2, 1, some [['x']]), (['a'], 2, 3, 2, some [['y'], ['z']])],
    [(['a', 'b'], 0, 2, 0, some [['y'], ['w']]), (['a'], 2, 3, 1, some [['y'], ['z']])], Local.run_ok (by decide +kernel), Local.run_ok (by decide +kernel), by decide +kernel, by decide +kernel⟩

/-- The conditions of `c88_cheaper` hold for these two dictionaries and this text, and so do those of `c88_unused` for a text without `ab`. -/
example : ∃ v v', Tokenizes Dir.env .unidic (Price.src "50") none .normal "aba".toList v ∧ Tokenizes Dir.env .unidic (Price.src "-9") none .normal "aba".toList v' ∧
    uses (Price.word 50).systemItem v ≤ uses (Price.word 50).systemItem v' := by
  have hsen : Sentences "aba".toList ["aba".toList] := by
    have := sentences_exist "aba".toList
    rwa [show splitInclusive isDelimiter "aba".toList = ["aba".toList] by decide +kernel] at this
  have h1 : Tokenizes Dir.env .unidic (Price.src "50") none .normal "aba".toList
      [(['a'], 0, 1, 0, some [['y'], ['z']]), (['b'], 1, 2, 1, some [['x']]), (['a'], 2, 3, 2, some [['y'], ['z']])] := Local.run_ok (by decide +kernel)
  have h2 : Tokenizes Dir.env .unidic (Price.src "-9") none .normal "aba".toList
      [(['a', 'b'], 0, 2, 0, some [['y'], ['w']]), (['a'], 2, 3, 1, some [['y'], ['z']])] := Local.run_ok (by decide +kernel)
  exact ⟨_, _, h1, h2, c88_cheaper Price.dear Price.cheap Price.repriced (by decide +kernel) Price.distinguishable hsen
    (fun s hs => fit_short (noOverflow_normal (by simp at hs; subst hs; decide +kernel))) h1 h2⟩

example : Tokenizes Dir.env .unidic (Price.src "50") none .normal "ba".toList [(['b'], 0, 1, 0, some [['x']]), (['a'], 1, 2, 1, some [['y'], ['z']])] := by
  have hsen : Sentences "ba".toList ["ba".toList] := by
    have := sentences_exist "ba".toList
    rwa [show splitInclusive isDelimiter "ba".toList = ["ba".toList] by decide +kernel] at this
  exact c88_unused Price.cheap Price.dear Price.raised (by decide +kernel) hsen (fun s hs => fit_short (noOverflow_normal (by simp at hs; subst hs; decide +kernel)))
    (Local.run_ok (by decide +kernel)) (by decide +kernel)

/-- The conditions of `c88_connections` hold: in `a` no connection from 1 to 1 is used. -/
example : Tokenizes Dir.env .unidic Price.bumped none .normal ['a'] [(['a'], 0, 1, 0, some [['y'], ['z']])] := by
  have hsen : Sentences ['a'] [['a']] := by
    have := sentences_exist ['a']
    rwa [show splitInclusive isDelimiter ['a'] = [['a']] by decide +kernel] at this
  have hno : ∀ s ∈ [['a']], NoOverflow .normal s := fun s hs => noOverflow_normal (by simp at hs; subst hs; decide +kernel)
  have hrun : Tokenizes Dir.env .unidic Lang.source none .normal ['a'] [(['a'], 0, 1, 0, some [['y'], ['z']])] := Local.run_ok (by decide +kernel)
  refine c88_connections Price.plain Price.bumpedReady rfl rfl rfl ?_ hsen (fun s hs => fit_short (hno s hs)) hrun ?_
  · intro r l
    simp only [Lexicon.conn, Contents.lexicon]
    generalize r.toNat = f
    generalize l.toNat = b
    have h0 : ∀ f < 2, ∀ b < 2, (lastCost Lang.contents.costs f b).toInt ≤ (lastCost Price.bumpedContents.costs f b).toInt := by decide +kernel
    by_cases hf : f < 2 ∧ b < 2
    · exact h0 f hf.1 b hf.2
    · have hne : ∀ k j : Nat, k < 2 → j < 2 → ¬ (k = f ∧ j = b) := fun k j hk hj he => hf ⟨he.1 ▸ hk, he.2 ▸ hj⟩
      simp [lastCost, Lang.contents, Price.bumpedContents, hne]
  · intro s hs ws hws m hm
    rw [List.mem_singleton] at hs
    subst hs
    obtain ⟨segs, h1, h2⟩ := (c82_sources Dir.env Src.yadaOk (fun _ => .refl _) .unidic Lang.source Lang.contents Lang.saysSo Lang.good none (fun _ _ h => by cases h) .normal ['a'] [['a']] hsen
      hno _).mp hrun
    cases h1 with
    | cons hc hn =>
      cases hn
      rw [← c82_unique hws hc] at h2
      rw [List.flatten_cons, List.flatten_nil, List.append_nil] at h2
      match ws, hws, hm, h2 with
      | [], _, _, h2 => cases h2
      | [it], hws, hm, h2 =>
        simp only [Lexicon.tokensFor, List.cons.injEq, Prod.mk.injEq, Option.some.injEq, and_true, true_and] at h2
        obtain ⟨-, -, hd⟩ := h2
        have hin : it ∈ (Lang.contents.lexicon .unidic none).words := by
          rcases segFrom_usable hws.segmentation it (by simp) with h | h
          · exact h
          · rw [h] at hd; exact absurd hd (by decide +kernel)
        have key : ∀ it ∈ (Lang.contents.lexicon .unidic none).words, [['y'], ['z']] = it.details →
            ∀ m ∈ meetings 0 [it], (Price.bumpedContents.lexicon .unidic none).conn m.1 m.2 = (Lang.contents.lexicon .unidic none).conn m.1 m.2 := by decide +kernel
        exact key it hin hd m hm
      | _ :: _ :: _, _, _, h2 => simp [Lexicon.tokensFor] at h2

/-- Without its condition `c88_unused` fails: the tokens of `aba` change. -/
example : ¬ Tokenizes Dir.env .unidic (Price.src "50") none .normal "aba".toList [(['a', 'b'], 0, 2, 0, some [['y'], ['w']]), (['a'], 2, 3, 1, some [['y'], ['z']])] := by
  intro h
  have h1 : Tokenizes Dir.env .unidic (Price.src "50") none .normal "aba".toList
      [(['a'], 0, 1, 0, some [['y'], ['z']]), (['b'], 1, 2, 1, some [['x']]), (['a'], 2, 3, 2, some [['y'], ['z']])] := Local.run_ok (by decide +kernel)
  exact absurd (c72_unique h h1) (by decide +kernel)

end Verif.Props
