import Verif.Proofs.Determined
import Verif.Props.Locality
/-! C82: the source files determine the tokens. -/
namespace Verif.Props
open Verif.Model Verif.Spec

/-! ### C82 The source files determine the tokens completely -/

/-- C82: of the segmentations of a sentence into words of a lexicon at most one is chosen: cheapest, and at every tie the longer word before a common rest, or the one that is written first. -/
theorem c82_unique {L : Lexicon} {mode : Mode} {s : Str} {ws ws' : List Item} (h : L.Chosen mode s ws) (h' : L.Chosen mode s ws') : ws = ws' := chosen_unique h h'

private theorem chosen_all {L : Lexicon} {mode : Mode} {ss : List Str} {segs : List (List Item)}
    (h : List.Forall₂ (fun s ws => L.Segmentation mode s ws ∧ (L.CostsFit mode s → L.Chosen mode s ws)) ss segs) (hno : ∀ s ∈ ss, L.CostsFit mode s) :
    List.Forall₂ (L.Chosen mode) ss segs := by
  induction h with
  | nil => exact .nil
  | cons h _ ih => exact .cons (h.2 (hno _ (by simp))) (ih fun s hs => hno s (by simp [hs]))

private theorem chosen_same {L : Lexicon} {mode : Mode} {ss : List Str} {segs segs' : List (List Item)} (h : List.Forall₂ (L.Chosen mode) ss segs)
    (h' : List.Forall₂ (L.Chosen mode) ss segs') : segs = segs' := by
  induction h generalizing segs' with
  | nil => cases h'; rfl
  | cons h _ ih =>
    cases h' with
    | cons g gs => rw [c82_unique h g, ih gs]

/-- C82: a tokenizer that answers by a lexicon (as all of C64 and C65 do) shows exactly the tokens of the chosen segmentations. -/
theorem c82_answers {L : Lexicon} {t : Tokenizer} (h : L.AnsweredBy t) (text : Str) (ss : List Str) (hss : Sentences text ss) (hno : ∀ s ∈ ss, L.CostsFit t.mode s)
    (shown : List (Str × Nat × Nat × Nat × Option (List Str))) :
    (∃ toks, t.tokenize text = .ok toks ∧ Lexicon.visible t toks = .ok shown) ↔
      ∃ segs, List.Forall₂ (L.Chosen t.mode) ss segs ∧ shown = Lexicon.tokensFor 0 0 segs.flatten := by
  obtain ⟨toks, segs, h1, h2, h3⟩ := h text ss hss
  have h4 := chosen_all h3 hno
  constructor
  · rintro ⟨toks', g1, g2⟩
    rw [h1] at g1
    cases g1
    rw [h2] at g2
    exact ⟨segs, h4, (Except.ok.inj g2).symm⟩
  · rintro ⟨segs', g1, rfl⟩
    rw [← chosen_same h4 g1]
    exact ⟨toks, h1, h2⟩

/-- C82: if the costs of its sentences fit into the range of costs, compiling good sources and tokenizing a text shows exactly the tokens of the chosen segmentations of its sentences into words of the source files. -/
theorem c82_fitting (env : BuildEnv) (hy : YadaContract env.yada) (hh : ∀ index, (env.hashOrder index).Perm index) (kind : DictionaryKind) (src : SourceDir)
    (c : Contents) (hs : Says env kind src c) (hg : Good kind c) (user : Option (DictionaryKind × List Row)) (hu : ∀ k rows, user = some (k, rows) → GoodUser k c rows) (mode : Mode)
    (text : Str) (ss : List Str) (hss : Sentences text ss) (hno : ∀ s ∈ ss, (c.lexicon kind user).CostsFit mode s) (shown : List (Str × Nat × Nat × Nat × Option (List Str))) :
    Tokenizes env kind src user mode text shown ↔
      ∃ segs, List.Forall₂ ((c.lexicon kind user).Chosen mode) ss segs ∧ shown = Lexicon.tokensFor 0 0 segs.flatten := by
  obtain ⟨parts, m, u, h1, h2, h3, h4⟩ := c64_source_semantics env hy hh kind src c hs hg user hu
  rw [← c82_answers (h4 mode) text ss hss hno shown]
  constructor
  · rintro ⟨parts', m', u', toks, g1, g2, g3, g4, g5⟩
    rw [h1] at g1
    cases g1
    rw [h2] at g2
    cases g2
    rw [h3] at g3
    cases g3
    exact ⟨toks, g4, g5⟩
  · rintro ⟨toks, g4, g5⟩
    exact ⟨parts, m, u, toks, h1, h2, h3, g4, g5⟩

/-- C82: compiling good sources and tokenizing a text of short sentences shows exactly the tokens of the chosen segmentations of its sentences into words of the source files. -/
theorem c82_sources (env : BuildEnv) (hy : YadaContract env.yada) (hh : ∀ index, (env.hashOrder index).Perm index) (kind : DictionaryKind) (src : SourceDir)
    (c : Contents) (hs : Says env kind src c) (hg : Good kind c) (user : Option (DictionaryKind × List Row)) (hu : ∀ k rows, user = some (k, rows) → GoodUser k c rows) (mode : Mode)
    (text : Str) (ss : List Str) (hss : Sentences text ss) (hno : ∀ s ∈ ss, NoOverflow mode s) (shown : List (Str × Nat × Nat × Nat × Option (List Str))) :
    Tokenizes env kind src user mode text shown ↔
      ∃ segs, List.Forall₂ ((c.lexicon kind user).Chosen mode) ss segs ∧ shown = Lexicon.tokensFor 0 0 segs.flatten :=
  c82_fitting env hy hh kind src c hs hg user hu mode text ss hss (fun s h => costsFit_of_short (hno s h)) shown

/-- C82: so two tokenizers that answer by the same lexicon in the same mode cannot be told apart by their tokens, whether they were compiled, loaded or built in. -/
theorem c82_same {L : Lexicon} {t t' : Tokenizer} (h : L.AnsweredBy t) (h' : L.AnsweredBy t') (hm : t'.mode = t.mode) (text : Str) (ss : List Str) (hss : Sentences text ss)
    (hno : ∀ s ∈ ss, L.CostsFit t.mode s) (shown : List (Str × Nat × Nat × Nat × Option (List Str))) :
    (∃ toks, t.tokenize text = .ok toks ∧ Lexicon.visible t toks = .ok shown) ↔ ∃ toks, t'.tokenize text = .ok toks ∧ Lexicon.visible t' toks = .ok shown := by
  rw [c82_answers h text ss hss hno, c82_answers h' text ss hss (by rw [hm]; exact hno), hm]

/-! ### Non-vacuity -/

namespace Det

def tiedRows : List Row := [⟨['a'], [['0'], ['0'], ['0'], ['x']]⟩, ⟨['a'], [['0'], ['0'], ['0'], ['y']]⟩]
def tied : SourceDir := Local.tied "a,0,0,0,x\n" "a,0,0,0,y\n"
def contents : Contents := { Lang.contents with rows := tiedRows }

theorem saysSo : Says Dir.env .unidic tied contents :=
  ⟨Lang.saysSo.charDef, Lang.saysSo.unk, Lang.saysSo.matrix, [(utf8 "a,0,0,0,x\n".toList, tiedRows.take 1), (utf8 "a,0,0,0,y\n".toList, tiedRows.drop 1)], rfl, by decide +kernel, rfl⟩

theorem good : Good .unidic contents :=
  Local.good (by unfold Acceptable; decide +kernel) (Local.fits (by decide +kernel) (by decide +kernel) (by decide +kernel) (by decide +kernel) (by decide +kernel)) (by decide +kernel)

end Det

/-- A tie: the same word with equal numbers in two files. The segmentation that uses the second file is as cheap, but not the chosen one. -/
example : (Det.contents.lexicon .unidic none).Chosen .normal ['a'] [⟨['a'], 0, 0, 0, [['x']]⟩] ∧
    (Det.contents.lexicon .unidic none).Segmentation .normal ['a'] [⟨['a'], 0, 0, 0, [['y']]⟩] ∧
    (Det.contents.lexicon .unidic none).cost .normal [⟨['a'], 0, 0, 0, [['y']]⟩] = (Det.contents.lexicon .unidic none).cost .normal [⟨['a'], 0, 0, 0, [['x']]⟩] ∧
    ¬ (Det.contents.lexicon .unidic none).Chosen .normal ['a'] [⟨['a'], 0, 0, 0, [['y']]⟩] := by
  have hsen : Sentences ['a'] [['a']] := by
    have := sentences_exist ['a']
    rwa [show splitInclusive isDelimiter ['a'] = [['a']] by decide +kernel] at this
  have hrun : Tokenizes Dir.env .unidic Det.tied none .normal ['a'] [(['a'], 0, 1, 0, some [['x']])] := Local.run_ok (by decide +kernel)
  obtain ⟨segs, h1, h2⟩ := (c82_sources Dir.env Src.yadaOk (fun _ => .refl _) .unidic Det.tied Det.contents Det.saysSo Det.good none (fun _ _ h => by cases h) .normal ['a'] [['a']] hsen
    (fun s hs => noOverflow_normal (by simp at hs; subst hs; simp)) _).mp hrun
  have hseg : segs = [[⟨['a'], 0, 0, 0, [['x']]⟩]] := by
    cases h1 with
    | cons hc hn =>
      cases hn
      rename_i ws
      rw [List.flatten_cons, List.flatten_nil, List.append_nil] at h2
      match ws, hc, h2 with
      | [], _, h2 => cases h2
      | [it], hc, h2 =>
        simp only [Lexicon.tokensFor, List.cons.injEq, Prod.mk.injEq, Option.some.injEq, and_true, true_and] at h2
        obtain ⟨-, -, hd⟩ := h2
        obtain ⟨⟨rest, reach, latest, -, -, hw⟩, -⟩ := hc.segmentation
        rcases hw with hw | ⟨-, name, rank, s, l, -, -, -, rfl⟩
        · have : ∀ it ∈ (Det.contents.lexicon .unidic none).words, [['x']] = it.details → it = ⟨['a'], 0, 0, 0, [['x']]⟩ := by decide +kernel
          rw [this it hw.1 hd]
        · exact absurd hd (by simp [UnkLine.item])
      | _ :: _ :: _, _, h2 => simp [Lexicon.tokensFor] at h2
  subst hseg
  have hch : (Det.contents.lexicon .unidic none).Chosen .normal ['a'] [⟨['a'], 0, 0, 0, [['x']]⟩] := by
    cases h1 with
    | cons hc _ => exact hc
  refine ⟨hch, ⟨⟨['a'], _, _, rfl, .start, .inl ⟨by decide +kernel, by decide, by decide⟩⟩, rfl⟩, rfl, fun h => ?_⟩
  exact absurd (c82_unique hch h) (by decide +kernel)

end Verif.Props
