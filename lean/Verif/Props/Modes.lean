import Verif.Proofs.Modes
import Verif.Proofs.Coverage
import Verif.Props.Tokenize
/-! C76, C77: what the penalties of decompose mode can change, and how it relates to normal mode. -/
namespace Verif.Props
open Verif.Model Verif.Spec

theorem consistent_mode {t : Tokenizer} (h : Consistent t) (mode : Mode) : Consistent (inMode t mode) := h
theorem complete_mode {t : Tokenizer} (h : Complete t) (mode : Mode) : Complete (inMode t mode) := h

/-! ### C76 -/

/-- C76: penalties matter only for words that get them. If decompose mode is given other penalties that make no word cheaper, and the tokens of a text have the same
penalties as before, then the text is tokenized as before. -/
theorem c76_penalties {t : Tokenizer} (hcon : Consistent t) {p q : Penalty} (hpq : Dearer (.decompose p) (.decompose q)) {text : Str} {ss : List Str} (hss : Sentences text ss)
    (hno : ∀ s ∈ ss, CostsFit (inMode t (.decompose p)).env t.dictionary.costMatrix s ∧ CostsFit (inMode t (.decompose q)).env t.dictionary.costMatrix s) {toks : List Token} (h : (inMode t (.decompose p)).tokenize text = .ok toks)
    (hpen : ∀ tok ∈ toks, penalty (.decompose q) tok.text = penalty (.decompose p) tok.text) : (inMode t (.decompose q)).tokenize text = .ok toks := by
  obtain ⟨toks', h'⟩ := tokenize_total (consistent_mode hcon (.decompose q)) text
  rw [← sentences_split hss] at hno
  rw [h']
  congr 1
  refine tokenize_modes (t := inMode t (.decompose p)) (t' := inMode t (.decompose q)) rfl hpq ?_ hno h h' hpen
  intro s _ es hes
  exact gen_mode (env := (inMode t (.decompose p)).env) (mode' := .decompose q) (fun k reach latest _ _ _ => rfl) hes

/-- Higher penalties per character and the same thresholds make no word cheaper. -/
theorem dearer_of_le {p q : Penalty} (h1 : p.kanjiThreshold = q.kanjiThreshold) (h2 : p.otherThreshold = q.otherThreshold) (h3 : p.kanjiPenalty.toInt ≤ q.kanjiPenalty.toInt)
    (h4 : p.otherPenalty.toInt ≤ q.otherPenalty.toInt) : Dearer (.decompose p) (.decompose q) := by
  intro s
  simp only [penalty, h1, h2]
  split
  · exact Int.le_refl _
  · split
    · exact Int.mul_le_mul_of_nonneg_left h3 (Int.natCast_nonneg _)
    · split
      · exact Int.mul_le_mul_of_nonneg_left h4 (Int.natCast_nonneg _)
      · exact Int.le_refl _

/-- C76, in numbers: raising the penalties per character changes nothing for a text whose tokens are all short enough to get none. -/
theorem c76_short {t : Tokenizer} (hcon : Consistent t) {p q : Penalty} (h1 : p.kanjiThreshold = q.kanjiThreshold) (h2 : p.otherThreshold = q.otherThreshold)
    (h3 : p.kanjiPenalty.toInt ≤ q.kanjiPenalty.toInt) (h4 : p.otherPenalty.toInt ≤ q.otherPenalty.toInt) {text : Str} {ss : List Str} (hss : Sentences text ss)
    (hno : ∀ s ∈ ss, CostsFit (inMode t (.decompose p)).env t.dictionary.costMatrix s ∧ CostsFit (inMode t (.decompose q)).env t.dictionary.costMatrix s) {toks : List Token} (h : (inMode t (.decompose p)).tokenize text = .ok toks)
    (hshort : ∀ tok ∈ toks, charCount tok.text ≤ p.kanjiThreshold ∨ (charCount tok.text ≤ p.otherThreshold ∧ ∃ c ∈ tok.text, isKanjiChar c = false)) :
    (inMode t (.decompose q)).tokenize text = .ok toks := by
  refine c76_penalties hcon (dearer_of_le h1 h2 h3 h4) hss hno h fun tok ht => ?_
  have key : ∀ r : Penalty, r.kanjiThreshold = p.kanjiThreshold → r.otherThreshold = p.otherThreshold → penalty (.decompose r) tok.text = 0 := by
    intro r hr1 hr2
    simp only [penalty, hr1, hr2]
    rcases hshort tok ht with hs | ⟨hs, c, hc, hk⟩
    · rw [if_pos hs]
    · split
      · rfl
      · rw [if_neg (by rw [List.all_eq_true]; intro hall; rw [hall c hc] at hk; cases hk), if_neg (by omega)]
  rw [key q h1.symm h2.symm, key p rfl rfl]

example : (∀ tok ∈ Sample.toks, charCount tok.text ≤ Penalty.default.kanjiThreshold) ∧ (inMode Sample.tok (.decompose Penalty.default)).tokenize Sample.text = .ok Sample.toks ∧
    Consistent Sample.tok := ⟨by decide, by decide +kernel, Sample.consistent _⟩

/-! ### C77 -/

/-- C77: decompose mode has every segmentation of normal mode to choose from. -/
theorem c77_superset {t : Tokenizer} {p : Penalty} {s : Str} {ws : List Word} (h : Segmentation (inMode t .normal).env s ws) : Segmentation (inMode t (.decompose p)).env s ws :=
  segFrom_search (env := (inMode t .normal).env) h

/-- C77, costs: sentence by sentence, word and connection costs plus penalties are not higher in decompose mode than for the tokens of normal mode; and where the tokens of decompose mode
were available in normal mode as well, they have no higher penalties and no lower costs than those of normal mode. -/
theorem c77_cost {t : Tokenizer} (hc : Complete t) {p : Penalty} {text : Str} {toks dtoks : List Token} (h : (inMode t .normal).tokenize text = .ok toks)
    (h' : (inMode t (.decompose p)).tokenize text = .ok dtoks) {ss : List Str} (hss : Sentences text ss)
    (hno : ∀ s ∈ ss, CostsFit (inMode t .normal).env t.dictionary.costMatrix s ∧ CostsFit (inMode t (.decompose p)).env t.dictionary.costMatrix s) :
    ∃ pairs : List (List Word × List Word), toks = tokensFor 0 0 (pairs.flatMap (·.1)) ∧ dtoks = tokensFor 0 0 (pairs.flatMap (·.2)) ∧
      List.Forall₂ (fun s (x : List Word × List Word) =>
        Segmentation (inMode t .normal).env s x.1 ∧ Segmentation (inMode t (.decompose p)).env s x.2 ∧
        cost t.dictionary.costMatrix .normal x.2 + totalPenalty (.decompose p) x.2 ≤ cost t.dictionary.costMatrix .normal x.1 + totalPenalty (.decompose p) x.1 ∧
        (Segmentation (inMode t .normal).env s x.2 →
          cost t.dictionary.costMatrix .normal x.1 ≤ cost t.dictionary.costMatrix .normal x.2 ∧ totalPenalty (.decompose p) x.2 ≤ totalPenalty (.decompose p) x.1)) ss pairs := by
  obtain ⟨segs, hf, ht⟩ := tokenize_complete (complete_mode hc .normal) h
  obtain ⟨dsegs, hf', ht'⟩ := tokenize_complete (complete_mode hc (.decompose p)) h'
  rw [sentences_split hss] at hf hf'
  suffices ∃ pairs : List (List Word × List Word), pairs.map (·.1) = segs ∧ pairs.map (·.2) = dsegs ∧ List.Forall₂ _ ss pairs by
    obtain ⟨pairs, e1, e2, hp⟩ := this
    refine ⟨pairs, ?_, ?_, hp⟩
    · rw [ht, ← e1]; rfl
    · rw [ht', ← e2]; rfl
  clear ht ht' h h' hss
  induction hf generalizing dsegs with
  | nil => cases hf'; exact ⟨[], rfl, rfl, .nil⟩
  | @cons s ws ss segs hr _ ih =>
    cases hf' with
    | @cons _ ds _ dsegs hr' hf' =>
      obtain ⟨pairs, e1, e2, hp⟩ := ih (fun x hx => hno x (by simp [hx])) dsegs hf'
      refine ⟨(ws, ds) :: pairs, by rw [List.map_cons, e1], by rw [List.map_cons, e2], .cons ⟨hr.1, hr'.1, ?_, ?_⟩ hp⟩
      · have := hr'.2.1 (hno s (by simp)).2.inRange ws (c77_superset hr.1)
        have e1 := costFrom_penalty t.dictionary.costMatrix (.decompose p) .default ws
        have e2 := costFrom_penalty t.dictionary.costMatrix (.decompose p) .default ds
        simp only [Spec.cost] at *
        exact (e2 ▸ e1 ▸ this : _)
      · intro hds
        have h1 := hr.2.1 (hno s (by simp)).1.inRange ds hds
        have h2 := hr'.2.1 (hno s (by simp)).2.inRange ws (c77_superset hr.1)
        have e1 := costFrom_penalty t.dictionary.costMatrix (.decompose p) .default ws
        have e2 := costFrom_penalty t.dictionary.costMatrix (.decompose p) .default ds
        have h1' : costFrom t.dictionary.costMatrix .normal .default ws ≤ costFrom t.dictionary.costMatrix .normal .default ds := h1
        have h2' : costFrom t.dictionary.costMatrix (.decompose p) .default ds ≤ costFrom t.dictionary.costMatrix (.decompose p) .default ws := h2
        refine ⟨h1', ?_⟩
        show totalPenalty (.decompose p) ds ≤ totalPenalty (.decompose p) ws
        omega

/-- C77, no difference for short words: if the penalties are not negative, no token of normal mode gets one, and no word boundary lies inside the unknown word found last, then decompose
mode returns the same tokens. (Without the last condition the claim fails: `c77_short_fails`.) -/
theorem c77_short_partial {t : Tokenizer} (hcon : Consistent t) {p : Penalty} (hp1 : 0 ≤ p.kanjiPenalty.toInt) (hp2 : 0 ≤ p.otherPenalty.toInt) {text : Str} {ss : List Str}
    (hss : Sentences text ss) (hno : ∀ s ∈ ss, CostsFit (inMode t .normal).env t.dictionary.costMatrix s ∧ CostsFit (inMode t (.decompose p)).env t.dictionary.costMatrix s) (hin : ∀ s ∈ ss, NeverInside t s) {toks : List Token}
    (h : (inMode t .normal).tokenize text = .ok toks) (hpen : ∀ tok ∈ toks, penalty (.decompose p) tok.text = 0) : (inMode t (.decompose p)).tokenize text = .ok toks := by
  obtain ⟨toks', h'⟩ := tokenize_total (consistent_mode hcon (.decompose p)) text
  rw [← sentences_split hss] at hno hin
  rw [h']
  congr 1
  refine tokenize_modes (t := inMode t .normal) (t' := inMode t (.decompose p)) rfl ?_ ?_ hno h h' hpen
  · intro s
    simp only [penalty, inMode]
    split
    · exact Int.le_refl _
    · split
      · exact Int.mul_nonneg (Int.natCast_nonneg _) hp1
      · split
        · exact Int.mul_nonneg (Int.natCast_nonneg _) hp2
        · exact Int.le_refl _
  · intro s hs es hes
    refine gen_mode (env := (inMode t .normal).env) (mode' := .decompose p) (fun k reach latest hk hsc hr => ?_) hes
    have h1 : unknownAllowed (.decompose p) latest k = true := rfl
    rw [h1, eq_comm, unknownAllowed_iff]
    exact .inr fun e he => hin s hs k reach latest hk hsc hr e he

namespace Modes

/-- One system word `a`. -/
def sysDict : PrefixDict := ⟨⟨[([97], 1)]⟩, WordEntry.serialize ⟨⟨0, true⟩, 3, 0, 1⟩, true⟩

/-- One category for all characters, grouping and invoked; an unknown word after `a` is cheap. -/
def tok : Tokenizer := ⟨⟨sysDict, ⟨[0, 0, 0, 0, 0, 0, 0x38, 0xff], 2⟩, ⟨[⟨true, true, 0⟩], [['D']], ⟨[0], [[0]]⟩⟩, ⟨[[0]], [⟨WordId.default, 100, 1, 0⟩]⟩, [], []⟩, none, .normal⟩

end Modes

/-- C77 fails without the condition on unknown words: `aaa` is cut into `a`, `a`, `a` in normal mode and into `a`, `aa` in decompose mode although no word is long enough for a penalty. -/
theorem c77_short_fails : ∃ (t : Tokenizer) (text : Str) (toks dtoks : List Token), (inMode t .normal).tokenize text = .ok toks ∧
    (inMode t (.decompose Penalty.default)).tokenize text = .ok dtoks ∧ (∀ tok ∈ toks ++ dtoks, charCount tok.text ≤ 1) ∧ toks.map (·.text) = [['a'], ['a'], ['a']] ∧
    dtoks.map (·.text) = [['a'], ['a', 'a']] := by
  refine ⟨Modes.tok, ['a', 'a', 'a'], [⟨['a'], 0, 1, 0, 1, ⟨0, true⟩, none⟩, ⟨['a'], 1, 2, 1, 1, ⟨0, true⟩, none⟩, ⟨['a'], 2, 3, 2, 1, ⟨0, true⟩, none⟩],
    [⟨['a'], 0, 1, 0, 1, ⟨0, true⟩, none⟩, ⟨['a', 'a'], 1, 3, 1, 1, ⟨0xffffffff, true⟩, none⟩], by decide +kernel, by decide +kernel, by decide, rfl, rfl⟩

/-- The conditions of `c77_short_partial` hold for a text with dictionary words, a user word and an unknown word. -/
example : Sentences ['a', 'b', '。', 'a', 'b', 'c'] [['a', 'b', '。'], ['a', 'b', 'c']] ∧ (∀ s ∈ [['a', 'b', '。'], ['a', 'b', 'c']], NeverInside Sample.tok s) ∧
    ∃ toks, (inMode Sample.tok .normal).tokenize ['a', 'b', '。', 'a', 'b', 'c'] = .ok toks ∧ toks.length = 4 ∧
      ∀ tok ∈ toks, penalty (.decompose Penalty.default) tok.text = 0 := by
  refine ⟨.cons (s := ['a', 'b']) (by decide) (by decide) (.last (by simp) (by decide)), ?_, ?_⟩
  · intro s hs
    simp only [List.mem_cons, List.not_mem_nil, or_false] at hs
    rcases hs with rfl | rfl
    · exact neverInside_of_check (by decide +kernel)
    · exact neverInside_of_check (by decide +kernel)
  · exact ⟨[⟨['a', 'b'], 0, 2, 0, 1, ⟨1, true⟩, none⟩, ⟨['。'], 2, 5, 1, 1, ⟨0xffffffff, true⟩, none⟩, ⟨['a'], 5, 6, 2, 1, ⟨0, true⟩, none⟩,
      ⟨['b', 'c'], 6, 8, 3, 1, ⟨0, false⟩, none⟩], by decide +kernel, rfl, by decide⟩

/-- The conditions of `c77_cost` hold. -/
example : Complete Sample.tok ∧ (∃ toks, (inMode Sample.tok .normal).tokenize Sample.text = .ok toks) ∧ (∃ toks, (inMode Sample.tok (.decompose Penalty.default)).tokenize Sample.text = .ok toks) ∧
    ∀ s ∈ [['a', 'b', '。'], ['a', 'b', 'c', '猫']], CostsFit (inMode Sample.tok .normal).env Sample.tok.dictionary.costMatrix s ∧
      CostsFit (inMode Sample.tok (.decompose Penalty.default)).env Sample.tok.dictionary.costMatrix s := by
  refine ⟨Sample.complete _, ⟨_, Sample.tokenized⟩, tokenize_total (Sample.consistent _) _, ?_⟩
  intro s hs
  simp only [List.mem_cons, List.not_mem_nil, or_false] at hs
  rcases hs with rfl | rfl
  · exact ⟨fit_of_short (noOverflow_normal (by decide)), fit_of_short (noOverflow_default (by decide))⟩
  · exact ⟨fit_of_short (noOverflow_normal (by decide)), fit_of_short (noOverflow_default (by decide))⟩

end Verif.Props
