import Verif.Proofs.Added
import Verif.Props.Reordered
/-! C94: long sentences. -/
namespace Verif.Props
open Verif.Model Verif.Spec

/-! ### C94 Sentences of any length are cut at minimal cost while the costs fit into 32 bits -/

/-- C94: if the costs of the words are at most `W`, the costs of the connections in use at most `C` (in absolute value), and the sentences are not too long for these costs, then the tokens are those of the
chosen, in particular cheapest, segmentations into words of the source files. -/
theorem c94_bounds (env : BuildEnv) (hy : YadaContract env.yada) (hh : ∀ index, (env.hashOrder index).Perm index) (kind : DictionaryKind) (src : SourceDir)
    (c : Contents) (hs : Says env kind src c) (hg : Good kind c) (user : Option (DictionaryKind × List Row)) (hu : ∀ k rows, user = some (k, rows) → GoodUser k c rows) (mode : Mode)
    (W C : Nat) (hw : ∀ w ∈ (c.lexicon kind user).words, w.cost.toInt.natAbs ≤ W) (hk : ∀ l ∈ c.unk, l.cost.toInt.natAbs ≤ W)
    (hc : ∀ r l, (c.lexicon kind user).RightUsed r → (c.lexicon kind user).LeftUsed l → ((c.lexicon kind user).conn r l).natAbs ≤ C)
    (text : Str) (ss : List Str) (hss : Sentences text ss) (hl : ∀ s ∈ ss, (W + C) * s.length + maxPenalty mode * (blen s / 3) + 32768 < 2 ^ 31)
    (shown : List (Str × Nat × Nat × Nat × Option (List Str))) :
    Tokenizes env kind src user mode text shown ↔
      ∃ segs, List.Forall₂ ((c.lexicon kind user).Chosen mode) ss segs ∧ shown = Lexicon.tokensFor 0 0 segs.flatten := by
  refine c82_fitting env hy hh kind src c hs hg user hu mode text ss hss (fun s h => costsFit_of_bounds (W := W) (C := C) ?_ ?_ (hl s h)) shown
  · rintro it (hi | ⟨l, hi, s, rfl⟩)
    · exact hw it hi
    · exact hk l hi
  · intro r l hr hl
    refine hc r l ?_ ?_
    · rcases hr with rfl | ⟨it, hi | ⟨l, hi, s, rfl⟩, rfl⟩
      · exact .inl rfl
      · exact .inr (.inl ⟨it, hi, rfl⟩)
      · exact .inr (.inr ⟨l, hi, rfl⟩)
    · obtain ⟨it, hi | ⟨l, hi, s, rfl⟩, rfl⟩ := hl
      · exact .inr (.inl ⟨it, hi, rfl⟩)
      · exact .inr (.inr ⟨l, hi, rfl⟩)

/-- Among the segmentations kept for each last word the answer has the least wrapped cost. -/
private theorem tokens_last {env : BuildEnv} {kind : DictionaryKind} {src : SourceDir} {c : Contents} {user : Option (DictionaryKind × List Row)} (hr : Ready env kind src c user) (mode : Mode)
    {text : Str} {ss : List Str} (hss : Sentences text ss) :
    ∃ items : List (List Item), Tokenizes env kind src user mode text (Lexicon.tokensFor 0 0 items.flatten) ∧
      List.Forall₂ (fun s ws => (c.lexicon kind user).Segmentation mode s ws ∧ (c.lexicon kind user).LastRule mode s ws) ss items := by
  obtain ⟨parts, m, u, h1, h2, h3, h4⟩ := compile_good hr.yada hr.hashOrder hr.contents hr.good hr.user
  have h := h4 mode
  have hus := user_inside fun k rows h => GoodUser.apart (hr.user k rows h)
  obtain ⟨toks, ht⟩ := c10_no_panic (TokOn.consistent h (Good.apart hr.good) hr.good.rowIds hus) text
  obtain ⟨segs, hf, rfl⟩ := tokenize_complete (TokOn.complete h (Good.apart hr.good)) ht
  rw [sentences_split hss] at hf
  obtain ⟨items, h5, h6, h7⟩ := segs_items (TokOn.rep h) (TokOn.repCost h (Good.apart hr.good) hr.good.rowIds hus) hf
  refine ⟨items, ⟨parts, m, u, _, h1, h2, h3, ht, visible_words h5 0 0⟩, ?_⟩
  clear hf hss ht h5
  induction h6 with
  | nil => exact .nil
  | cons a _ ih =>
    cases h7 with
    | cons b bs => exact .cons ⟨a.1, b⟩ (ih bs)

/-! ### A sentence of 32768 characters -/

namespace Long

def A : Item := ⟨['a'], 0, 0, -32768, [['x']]⟩
def B : Item := ⟨['b'], 0, 0, -32768, [['y']]⟩
def AB : Item := ⟨['a', 'b'], 0, 0, 0, [['z']]⟩

def charDefText : String := "DEFAULT 0 1 0\n"
def unkText : String := "DEFAULT,0,0,100,a,b,c,d,e,f\n"
def matrixText : String := "1 1\n0 0 -32768\n"
def csv : String := "a,0,0,-32768,x\nb,0,0,-32768,y\nab,0,0,0,z\n"
def rows : List Row := [⟨['a'], [['0'], ['0'], "-32768".toList, ['x']]⟩, ⟨['b'], [['0'], ['0'], "-32768".toList, ['y']]⟩, ⟨['a', 'b'], [['0'], ['0'], ['0'], ['z']]⟩]

def source : SourceDir := ⟨some (utf8 charDefText.toList), some (utf8 unkText.toList), some (utf8 matrixText.toList), [some (utf8 csv.toList)]⟩
def contents : Contents := ⟨[.category "DEFAULT".toList ⟨false, true, 0⟩], [⟨"DEFAULT".toList, 0, 0, 100⟩], 1, 1, [⟨0, 0, -32768⟩], rows⟩

theorem ready : Ready Dir.env .unidic source contents none := by
  have hw : WellFormed Dir.env .unidic source contents :=
    { charDef := ⟨_, rfl, by rw [Lang.decode]; exact readDef_iff.mp (by decide +kernel)⟩
      unk := ⟨_, rfl, by rw [Lang.decode]; exact readUnk_iff.mp (by decide +kernel)⟩
      matrix := ⟨_, rfl, by
        rw [Lang.decode]
        exact ⟨"1 1".toList, ["0 0 -32768".toList], lines_iff.mp (by decide +kernel), numberLine_iff (vs := [1, 1]).mp (by decide +kernel),
          .cons (numberLine_iff (vs := [0, 0, -32768]).mp (by decide +kernel)) .nil⟩⟩
      rows := ⟨[(utf8 csv.toList, rows)], rfl, by decide +kernel, by simp [contents]⟩ }
  refine ⟨Src.yadaOk, fun _ => .refl _, wellFormed_says hw (by decide) (by decide), ?_, fun _ _ h => by cases h⟩
  exact
    { ordered := .category (by decide) (.nil _)
      default := by decide +kernel
      unknown := by decide +kernel
      unkCount := by decide +kernel
      unkIds := by unfold Contents.Inside; decide +kernel
      zero := by unfold Contents.Inside; decide +kernel
      sizes := by decide +kernel
      cells := by decide +kernel
      rows := show Acceptable _ _ rows by unfold Acceptable; decide +kernel
      fits := show Fits _ rows from Local.fits (by decide +kernel) (by decide +kernel) (by decide +kernel) (by decide +kernel) (by decide +kernel)
      rowIds := by unfold Contents.Inside; decide +kernel }

def lexicon : Lexicon := contents.lexicon .unidic none

theorem words : lexicon.words = [A, B, AB] := by decide +kernel

/-- `n` times `a`, then `b`. -/
def text (n : Nat) : Str := List.replicate n 'a' ++ ['b']

theorem text_succ (n : Nat) : text (n + 1) = 'a' :: text n := by simp [text, List.replicate_succ]

theorem text_ne (n : Nat) : text n ≠ [] := by simp [text]

theorem mem_text {n : Nat} {c : Char} (h : c ∈ text n) : c = 'a' ∨ c = 'b' := by
  simp only [text, List.mem_append, List.mem_replicate, List.mem_singleton] at h
  tauto

/-- Words of the list can be used anywhere. -/
theorem segFrom_known {L : Lexicon} {mode : Mode} {text : Str} : ∀ {ws : List Item} {pre : Str}, (∀ w ∈ ws, w ∈ L.words ∧ w.surface ≠ []) → text = pre ++ (ws.map (·.surface)).flatten →
    L.SegFrom mode text pre ws
  | [], pre, _, ht => show pre = text by simpa using ht.symm
  | w :: ws, pre, hw, ht => by
    obtain ⟨reach, latest, hs, -⟩ := lex_scan_exists L mode text (blen pre)
    refine ⟨⟨_, reach, latest, ht, hs, .inl ⟨(hw w (by simp)).1, (hw w (by simp)).2, ?_⟩⟩, segFrom_known (fun v hv => hw v (by simp [hv])) (by rw [ht]; simp)⟩
    simp

theorem known_at {pre rest : Str} {n : Nat} (h : text n = pre ++ rest) (hne : rest ≠ []) : ∃ w, lexicon.KnownAt rest w := by
  obtain ⟨c, tail, rfl⟩ := List.exists_cons_of_ne_nil hne
  have hc : c ∈ text n := by rw [h]; simp
  simp only [text, List.mem_append, List.mem_replicate, List.mem_singleton] at hc
  rcases hc with ⟨-, rfl⟩ | rfl
  · exact ⟨A, by rw [words]; simp, by decide, by simp [A]⟩
  · exact ⟨B, by rw [words]; simp, by decide, by simp [B]⟩

theorem categories (k : Nat) : categoriesOf lexicon.defs k = ["DEFAULT".toList] := by
  have : (lexicon.defs.flatMap (DefLine.categoriesOf k)) = [] := rfl
  unfold categoriesOf
  rw [this]
  decide +kernel

theorem definition {data : CategoryData} (h : definitionsOf lexicon.defs "DEFAULT".toList = [data]) : data.invoke = false := by
  have : definitionsOf lexicon.defs "DEFAULT".toList = [⟨false, true, 0⟩] := by decide +kernel
  rw [this] at h
  simp at h
  rw [← h]

/-- Only words of the list are used. -/
theorem segFrom_words {mode : Mode} {n : Nat} : ∀ {ws : List Item} {pre : Str}, lexicon.SegFrom mode (text n) pre ws → (∀ w ∈ ws, w = A ∨ w = B ∨ w = AB) ∧ text n = pre ++ (ws.map (·.surface)).flatten
  | [], pre, h => ⟨by simp, by simpa using Eq.symm h⟩
  | w :: ws, pre, ⟨⟨rest, reach, latest, ht, _, hw⟩, h⟩ => by
    obtain ⟨h1, h2⟩ := segFrom_words h
    refine ⟨fun v hv => ?_, by rw [h2]; simp⟩
    rcases List.mem_cons.mp hv with rfl | hv
    · rcases hw with hw | ⟨-, name, rank, s, l, ⟨c, tail, data, hr, hc, hd, hi, -⟩, -⟩
      · have := hw.1
        rw [words] at this
        simpa using this
      · exfalso
        rw [categories] at hc
        obtain rfl : name = "DEFAULT".toList := by
          cases rank with
          | zero => simpa using hc.symm
          | succ r => simp at hc
        rcases hi with hi | hi
        · rw [definition hd] at hi
          cases hi
        · exact hi (known_at ht (by rw [hr]; simp))
    · exact h1 v hv

theorem surfaces_nil {ws : List Item} (h : ∀ w ∈ ws, w = A ∨ w = B ∨ w = AB) (he : (ws.map (·.surface)).flatten = []) : ws = [] := by
  cases ws with
  | nil => rfl
  | cons w ws =>
    rcases h w (by simp) with rfl | rfl | rfl <;> simp [A, B, AB] at he

theorem cuts : ∀ {n : Nat} {ws : List Item}, (∀ w ∈ ws, w = A ∨ w = B ∨ w = AB) → text n = (ws.map (·.surface)).flatten →
    ws = List.replicate n A ++ [B] ∨ ∃ m, n = m + 1 ∧ ws = List.replicate m A ++ [AB]
  | n, [], _, he => by simp [text] at he
  | 0, w :: ws, h, he => by
    rcases h w (by simp) with rfl | rfl | rfl
    · simp [text, A] at he
    · have : ws = [] := surfaces_nil (fun v hv => h v (by simp [hv])) (by simpa [text, B] using he.symm)
      exact .inl (by simp [this])
    · simp [text, AB] at he
  | n + 1, w :: ws, h, he => by
    rw [text_succ] at he
    rcases h w (by simp) with rfl | rfl | rfl
    · have he' : text n = (ws.map (·.surface)).flatten := by simpa [A] using he
      rcases cuts (fun v hv => h v (by simp [hv])) he' with rfl | ⟨m, rfl, rfl⟩
      · exact .inl (by simp [List.replicate_succ])
      · exact .inr ⟨m + 1, rfl, by simp [List.replicate_succ]⟩
    · simp [B] at he
    · have he' : text n = 'b' :: (ws.map (·.surface)).flatten := by simpa [AB] using he
      cases n with
      | zero =>
        have : ws = [] := surfaces_nil (fun v hv => h v (by simp [hv])) (by simpa [text] using he'.symm)
        exact .inr ⟨0, rfl, by simp [this]⟩
      | succ n => simp [text_succ] at he'

theorem segmentations {mode : Mode} {m : Nat} {ws : List Item} :
    lexicon.Segmentation mode (text (m + 1)) ws ↔ ws = List.replicate (m + 1) A ++ [B] ∨ ws = List.replicate m A ++ [AB] := by
  constructor
  · intro h
    obtain ⟨h1, h2⟩ := segFrom_words h
    rcases cuts h1 h2 with h | ⟨m', he, h⟩
    · exact .inl h
    · obtain rfl : m = m' := by omega
      exact .inr h
  · intro h
    refine segFrom_known ?_ ?_
    · have : ∀ w ∈ ws, w = A ∨ w = B ∨ w = AB := by
        rcases h with rfl | rfl <;> · intro w hw; simp at hw; tauto
      intro w hw
      rw [words]
      rcases this w hw with rfl | rfl | rfl <;> decide
    · have key : ∀ k (vs : List Item), ((List.replicate k A ++ vs).map (·.surface)).flatten = List.replicate k 'a' ++ (vs.map (·.surface)).flatten := by
        intro k vs
        induction k with
        | zero => simp
        | succ k ih => simp [List.replicate_succ, A]
      rcases h with rfl | rfl
      · rw [key]; simp [text, B]
      · rw [key]; simp [text, AB, List.replicate_succ']

theorem conn : lexicon.conn 0 0 = -32768 := by decide +kernel

theorem cost_eq (k : Nat) (v : Item) (h1 : v.leftId = 0) (h2 : v.rightId = 0) : lexicon.cost .normal (List.replicate k A ++ [v]) = -65536 * k - 65536 + v.cost.toInt := by
  unfold Lexicon.cost
  induction k with
  | zero =>
    simp only [List.replicate_zero, List.nil_append, Lexicon.costFrom, h1, h2, conn, penalty]
    omega
  | succ k ih =>
    rw [List.replicate_succ, List.cons_append, Lexicon.costFrom, show A.rightId = 0 from rfl, ih, show A.leftId = 0 from rfl, conn, show A.cost.toInt = -32768 by decide +kernel]
    simp only [penalty]
    push_cast
    omega

end Long

/-- C94: the condition on the costs is needed. With the words `a` and `b` (cost −32768 each), `ab` (cost 0) and the connection cost −32768, the cheapest segmentation of the sentence of 32767 times `a` and one `b`
is the one into single letters; its cost −2147516416 does not fit into 32 bits, and the tokens are those of the other segmentation, which ends with `ab`. -/
theorem c94_fails : Ready Dir.env .unidic Long.source Long.contents none ∧ Sentences (Long.text 32767) [Long.text 32767] ∧
    Tokenizes Dir.env .unidic Long.source none .normal (Long.text 32767) (Lexicon.tokensFor 0 0 (List.replicate 32766 Long.A ++ [Long.AB])) ∧
    (Long.contents.lexicon .unidic none).Segmentation .normal (Long.text 32767) (List.replicate 32767 Long.A ++ [Long.B]) ∧
    (Long.contents.lexicon .unidic none).cost .normal (List.replicate 32767 Long.A ++ [Long.B]) = -2147516416 ∧
    (Long.contents.lexicon .unidic none).cost .normal (List.replicate 32766 Long.A ++ [Long.AB]) = -2147418112 := by
  have hs : Sentences (Long.text 32767) [Long.text 32767] := by
    refine .last (Long.text_ne _) fun c hc => ?_
    rcases Long.mem_text hc with rfl | rfl <;> decide
  have c1 := Long.cost_eq 32767 Long.B rfl rfl
  have c2 := Long.cost_eq 32766 Long.AB rfl rfl
  rw [show Long.B.cost.toInt = -32768 by decide +kernel] at c1
  rw [show Long.AB.cost.toInt = 0 by decide +kernel] at c2
  norm_num at c1 c2
  refine ⟨Long.ready, hs, ?_, Long.segmentations.mpr (.inl rfl), c1, c2⟩
  obtain ⟨items, h1, h2⟩ := tokens_last Long.ready .normal hs
  cases h2 with
  | @cons _ ws _ _ h h2 =>
    cases h2
    obtain ⟨hseg, hlast⟩ := h
    rcases Long.segmentations.mp hseg with rfl | rfl
    · exfalso
      obtain ⟨us, h3, h4⟩ := hlast (List.replicate 32766 Long.A) Long.AB (Long.segmentations.mpr (.inr rfl))
      rcases Long.segmentations.mp h3 with h5 | h5
      · have := (List.append_inj' h5 rfl).2
        exact absurd this (by decide)
      · rw [h5] at h4
        have h4' : Int32.ofInt (Long.lexicon.cost .normal (List.replicate 32767 Long.A ++ [Long.B])) ≤ Int32.ofInt (Long.lexicon.cost .normal (List.replicate 32766 Long.A ++ [Long.AB])) := h4
        rw [c1, c2] at h4'
        exact absurd h4' (by decide +kernel)
    · rw [List.flatten_cons, List.flatten_nil, List.append_nil] at h1
      exact h1

/-! ### Non-vacuity -/

/-- The costs of the example dictionary are at most 100 and 9, so a sentence of ten million characters is cut at minimal cost. -/
example (s : Str) (h : s.length ≤ 10000000) (hne : s ≠ []) (hs : ∀ c ∈ s, c ∉ delimiters) (shown : List (Str × Nat × Nat × Nat × Option (List Str))) :
    Tokenizes Dir.env .unidic Lang.source none .normal s shown ↔
      ∃ segs, List.Forall₂ ((Lang.contents.lexicon .unidic none).Chosen .normal) [s] segs ∧ shown = Lexicon.tokensFor 0 0 segs.flatten := by
  refine c94_bounds Dir.env Src.yadaOk (fun _ => .refl _) .unidic Lang.source Lang.contents Lang.saysSo Lang.good none (fun _ _ h => by cases h) .normal 100 9 (by decide +kernel) (by decide +kernel) ?_
    s [s] (.last hne hs) ?_ shown
  · have hr : ∀ r, (Lang.contents.lexicon .unidic none).RightUsed r → r = 0 ∨ r = 1 := by
      rintro r (rfl | ⟨w, hw, rfl⟩ | ⟨l, hl, rfl⟩)
      · exact .inl rfl
      · revert w; decide +kernel
      · revert l; decide +kernel
    have hl : ∀ r, (Lang.contents.lexicon .unidic none).LeftUsed r → r = 0 ∨ r = 1 := by
      rintro r (rfl | ⟨w, hw, rfl⟩ | ⟨l, hl, rfl⟩)
      · exact .inl rfl
      · revert w; decide +kernel
      · revert l; decide +kernel
    intro r l h1 h2
    rcases hr r h1 with rfl | rfl <;> rcases hl l h2 with rfl | rfl <;> decide +kernel
  · intro x hx
    obtain rfl := List.mem_singleton.mp hx
    simp only [maxPenalty]
    omega

end Verif.Props
