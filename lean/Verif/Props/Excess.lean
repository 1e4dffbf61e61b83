import Verif.Spec.Excess
import Verif.Props.Modes
import Mathlib.Tactic.Ring
import Mathlib.Tactic.Linarith
/-! C89: higher penalties give no longer words. -/
namespace Verif.Props
open Verif.Model Verif.Spec

/-! ### C89 Raising a penalty does not lead to more penalized length -/

/-- The penalty of a word is its excess times the penalty per character. -/
theorem c89_penalty {p q : Penalty} (h1 : q.kanjiThreshold = p.kanjiThreshold) (h2 : q.otherThreshold = p.otherThreshold) (s : Str) :
    penalty (.decompose q) s = (kanjiExcess p s : Int) * q.kanjiPenalty.toInt + (otherExcess p s : Int) * q.otherPenalty.toInt := by
  simp only [penalty, kanjiExcess, otherExcess, h1, h2]
  by_cases ha : s.all isKanjiChar = true
  · by_cases hk : charCount s ≤ p.kanjiThreshold
    · simp [ha, hk]
    · simp [ha, hk]
  · by_cases hk : charCount s ≤ p.kanjiThreshold
    · simp [ha, hk]
    · by_cases ho : p.otherThreshold < charCount s
      · simp [ha, hk, ho]
      · have : charCount s - p.otherThreshold = 0 := by omega
        simp [ha, hk, ho, this]

private theorem total_penalty {p q : Penalty} (h1 : q.kanjiThreshold = p.kanjiThreshold) (h2 : q.otherThreshold = p.otherThreshold) (ws : List Word) :
    totalPenalty (.decompose q) ws = (((ws.map fun w => kanjiExcess p w.surface).sum : Nat) : Int) * q.kanjiPenalty.toInt + (((ws.map fun w => otherExcess p w.surface).sum : Nat) : Int) * q.otherPenalty.toInt := by
  induction ws with
  | nil => simp [totalPenalty]
  | cons w ws ih =>
    simp only [totalPenalty, List.map_cons, List.sum_cons] at ih ⊢
    rw [ih, c89_penalty h1 h2]
    push_cast
    ring

private theorem total_tokens (f : Str → Nat) (ws : List Word) : ∀ byte pos, ((tokensFor byte pos ws).map fun t => f t.text).sum = (ws.map fun w => f w.surface).sum := by
  induction ws with
  | nil => intro _ _; rfl
  | cons w ws ih => intro byte pos; simp only [tokensFor, List.map_cons, List.sum_cons, ih]

/-- C89: if the penalties per character are changed, the penalized lengths of the tokens of a text change the other way: the changes of the two penalties, each multiplied with the change of the total
excess length of the tokens it applies to, do not add up to more than 0. -/
theorem c89_tradeoff {t : Tokenizer} (hc : Complete t) {p q : Penalty} (h1 : q.kanjiThreshold = p.kanjiThreshold) (h2 : q.otherThreshold = p.otherThreshold) {text : Str} {ss : List Str}
    (hss : Sentences text ss) (hno : ∀ s ∈ ss, CostsFit (inMode t (.decompose p)).env t.dictionary.costMatrix s ∧ CostsFit (inMode t (.decompose q)).env t.dictionary.costMatrix s) {toks toks' : List Token} (h : (inMode t (.decompose p)).tokenize text = .ok toks)
    (h' : (inMode t (.decompose q)).tokenize text = .ok toks') :
    (q.kanjiPenalty.toInt - p.kanjiPenalty.toInt) * ((kanjiTotal p toks' : Int) - kanjiTotal p toks) +
      (q.otherPenalty.toInt - p.otherPenalty.toInt) * ((otherTotal p toks' : Int) - otherTotal p toks) ≤ 0 := by
  obtain ⟨segs, hf, rfl⟩ := tokenize_complete (complete_mode hc (.decompose p)) h
  obtain ⟨segs', hf', rfl⟩ := tokenize_complete (complete_mode hc (.decompose q)) h'
  rw [sentences_split hss] at hf hf'
  unfold kanjiTotal otherTotal
  rw [total_tokens (kanjiExcess p), total_tokens (kanjiExcess p), total_tokens (otherExcess p), total_tokens (otherExcess p)]
  clear h h' hss
  induction hf generalizing segs' with
  | nil => cases hf'; simp
  | @cons s ws ss segs hr _ ih =>
    cases hf' with
    | @cons _ ws' _ segs' hr' hf' =>
      have hrec := ih (fun x hx => hno x (by simp [hx])) segs' hf'
      have g1 := hr.2.1 (hno s (by simp)).1.inRange ws' (segFrom_search (env := (inMode t (.decompose q)).env) (p := p) hr'.1)
      have g2 := hr'.2.1 (hno s (by simp)).2.inRange ws (segFrom_search (env := (inMode t (.decompose p)).env) (p := q) hr.1)
      have e1 := costFrom_penalty t.dictionary.costMatrix (.decompose p) .default ws
      have e2 := costFrom_penalty t.dictionary.costMatrix (.decompose p) .default ws'
      have e3 := costFrom_penalty t.dictionary.costMatrix (.decompose q) .default ws
      have e4 := costFrom_penalty t.dictionary.costMatrix (.decompose q) .default ws'
      have g1' : costFrom t.dictionary.costMatrix (.decompose p) .default ws ≤ costFrom t.dictionary.costMatrix (.decompose p) .default ws' := g1
      have g2' : costFrom t.dictionary.costMatrix (.decompose q) .default ws' ≤ costFrom t.dictionary.costMatrix (.decompose q) .default ws := g2
      rw [total_penalty rfl rfl] at e1 e2
      rw [total_penalty h1 h2] at e3 e4
      simp only [List.flatten_cons, List.map_append, List.sum_append]
      push_cast
      nlinarith

/-- C89: raising only the penalty for kanji words does not increase the total excess length of kanji tokens. -/
theorem c89_kanji {t : Tokenizer} (hc : Complete t) {p q : Penalty} (h1 : q.kanjiThreshold = p.kanjiThreshold) (h2 : q.otherThreshold = p.otherThreshold)
    (h3 : p.kanjiPenalty.toInt < q.kanjiPenalty.toInt) (h4 : q.otherPenalty = p.otherPenalty) {text : Str} {ss : List Str} (hss : Sentences text ss)
    (hno : ∀ s ∈ ss, CostsFit (inMode t (.decompose p)).env t.dictionary.costMatrix s ∧ CostsFit (inMode t (.decompose q)).env t.dictionary.costMatrix s) {toks toks' : List Token} (h : (inMode t (.decompose p)).tokenize text = .ok toks)
    (h' : (inMode t (.decompose q)).tokenize text = .ok toks') : kanjiTotal p toks' ≤ kanjiTotal p toks := by
  have := c89_tradeoff hc h1 h2 hss hno h h'
  rw [h4] at this
  by_contra hlt
  have h5 : (0 : Int) < (kanjiTotal p toks' : Int) - kanjiTotal p toks := by omega
  have h6 := Int.mul_pos (show (0 : Int) < q.kanjiPenalty.toInt - p.kanjiPenalty.toInt by omega) h5
  simp only [sub_self, zero_mul, add_zero] at this
  omega

/-- C89: raising only the penalty for other words does not increase the total excess length of other tokens. -/
theorem c89_other {t : Tokenizer} (hc : Complete t) {p q : Penalty} (h1 : q.kanjiThreshold = p.kanjiThreshold) (h2 : q.otherThreshold = p.otherThreshold)
    (h3 : q.kanjiPenalty = p.kanjiPenalty) (h4 : p.otherPenalty.toInt < q.otherPenalty.toInt) {text : Str} {ss : List Str} (hss : Sentences text ss)
    (hno : ∀ s ∈ ss, CostsFit (inMode t (.decompose p)).env t.dictionary.costMatrix s ∧ CostsFit (inMode t (.decompose q)).env t.dictionary.costMatrix s) {toks toks' : List Token} (h : (inMode t (.decompose p)).tokenize text = .ok toks)
    (h' : (inMode t (.decompose q)).tokenize text = .ok toks') : otherTotal p toks' ≤ otherTotal p toks := by
  have := c89_tradeoff hc h1 h2 hss hno h h'
  rw [h3] at this
  by_contra hlt
  have h5 : (0 : Int) < (otherTotal p toks' : Int) - otherTotal p toks := by omega
  have h6 := Int.mul_pos (show (0 : Int) < q.otherPenalty.toInt - p.otherPenalty.toInt by omega) h5
  simp only [sub_self, zero_mul, zero_add] at this
  omega

/-- C89: raising both penalties by the same amount does not increase the total excess length of the tokens. -/
theorem c89_both {t : Tokenizer} (hc : Complete t) {p q : Penalty} (h1 : q.kanjiThreshold = p.kanjiThreshold) (h2 : q.otherThreshold = p.otherThreshold) {d : Int} (hd : 0 < d)
    (h3 : q.kanjiPenalty.toInt = p.kanjiPenalty.toInt + d) (h4 : q.otherPenalty.toInt = p.otherPenalty.toInt + d) {text : Str} {ss : List Str} (hss : Sentences text ss)
    (hno : ∀ s ∈ ss, CostsFit (inMode t (.decompose p)).env t.dictionary.costMatrix s ∧ CostsFit (inMode t (.decompose q)).env t.dictionary.costMatrix s) {toks toks' : List Token} (h : (inMode t (.decompose p)).tokenize text = .ok toks)
    (h' : (inMode t (.decompose q)).tokenize text = .ok toks') : kanjiTotal p toks' + otherTotal p toks' ≤ kanjiTotal p toks + otherTotal p toks := by
  have := c89_tradeoff hc h1 h2 hss hno h h'
  rw [h3, h4] at this
  by_contra hlt
  have h5 : (0 : Int) < (kanjiTotal p toks' : Int) - kanjiTotal p toks + ((otherTotal p toks' : Int) - otherTotal p toks) := by omega
  have h6 := Int.mul_pos hd h5
  rw [Int.mul_add] at h6
  have e1 : p.kanjiPenalty.toInt + d - p.kanjiPenalty.toInt = d := by ring
  have e2 : p.otherPenalty.toInt + d - p.otherPenalty.toInt = d := by ring
  rw [e1, e2] at this
  omega

/-! ### Non-vacuity -/

namespace Excess

/-- Two system words: one kanji, which is dear, and three kanji, which is cheap. -/
def sysDict : PrefixDict :=
  ⟨⟨[([0xE7, 0x8C, 0xAB], 1), ([0xE7, 0x8C, 0xAB, 0xE7, 0x8C, 0xAB, 0xE7, 0x8C, 0xAB], 33)]⟩, [⟨⟨0, true⟩, 100, 0, 0⟩, ⟨⟨1, true⟩, 1, 0, 0⟩].flatMap WordEntry.serialize, true⟩

def tok : Tokenizer := ⟨⟨sysDict, ⟨[0, 0], 1⟩, Sample.charDefs, Sample.unk, [], []⟩, none, .normal⟩

theorem complete : Complete tok := by
  intro c
  refine ⟨[0], Sample.lookup c, by simp, ?_⟩
  simp only [List.mem_singleton, forall_eq]
  exact ⟨⟨_, rfl⟩, [0], rfl, 0, by simp, _, rfl⟩

def low : Penalty := ⟨2, 100, 7, 1700⟩
def high : Penalty := ⟨2, 1000, 7, 1700⟩
def text : Str := ['猫', '猫', '猫']
def whole : List Token := [⟨text, 0, 9, 0, 1, ⟨1, true⟩, none⟩]
def cut : List Token := [⟨['猫'], 0, 3, 0, 1, ⟨0, true⟩, none⟩, ⟨['猫'], 3, 6, 1, 1, ⟨0, true⟩, none⟩, ⟨['猫'], 6, 9, 2, 1, ⟨0, true⟩, none⟩]

end Excess

/-- The conditions of `c89_kanji` hold, and with the higher penalty the excess length is lower. -/
example : (inMode Excess.tok (.decompose Excess.low)).tokenize Excess.text = .ok Excess.whole ∧ (inMode Excess.tok (.decompose Excess.high)).tokenize Excess.text = .ok Excess.cut ∧
    kanjiTotal Excess.low Excess.whole = 1 ∧ kanjiTotal Excess.low Excess.cut = 0 ∧ Complete Excess.tok ∧ Sentences Excess.text [Excess.text] ∧
    Excess.low.kanjiPenalty.toInt < Excess.high.kanjiPenalty.toInt ∧ CostsFit (inMode Excess.tok (.decompose Excess.low)).env Excess.tok.dictionary.costMatrix Excess.text ∧
    CostsFit (inMode Excess.tok (.decompose Excess.high)).env Excess.tok.dictionary.costMatrix Excess.text :=
  ⟨by decide +kernel, by decide +kernel, by decide +kernel, by decide +kernel, Excess.complete, .last (by decide) (by decide), by decide,
    fit_of_short (show NoOverflow (.decompose Excess.low) Excess.text by simp only [NoOverflow]; decide +kernel), fit_of_short (show NoOverflow (.decompose Excess.high) Excess.text by simp only [NoOverflow]; decide +kernel)⟩

end Verif.Props
