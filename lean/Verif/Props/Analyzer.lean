import Verif.Props.CharFilter
import Verif.Spec.Details
/-! Properties of the analyzer: C48. -/
namespace Verif.Props
open Verif.Model Verif.Spec

/-- The analyzed form of a token: the same text, byte range, position and word id, with the details of its word. -/
structure AnalyzedAs (dict : Dictionary) (user : Option UserDictionary) (t : Token) (t' : FToken) : Prop where
  text : t'.text = t.text
  byteStart : t'.byteStart = t.byteStart
  byteEnd : t'.byteEnd = t.byteEnd
  position : t'.position = t.position
  positionLength : t'.positionLength = t.positionLength
  wordId : t'.wordId = t.wordId
  details : detailsOf dict user t.wordId = .ok (some t'.details)

private theorem emitTokens_details {sentence : Str} {st st' : TokState} {offsets : List (Nat × WordId)} (h : emitTokens sentence st offsets = .ok st')
    (h0 : ∀ t ∈ st.tokens, t.details = none) : ∀ t ∈ st'.tokens, t.details = none := by
  induction offsets generalizing st with
  | nil => cases h; exact h0
  | cons x xs ih =>
    obtain ⟨b, w⟩ := x
    rw [emitTokens, bind_eq_ok] at h
    obtain ⟨surface, _, h⟩ := h
    refine ih h ?_
    intro t ht
    rw [List.mem_append, List.mem_singleton] at ht
    rcases ht with ht | rfl
    · exact h0 t ht
    · rfl

theorem tokenize_details {tok : Tokenizer} {text : Str} {toks : List Token} (h : tok.tokenize text = .ok toks) : ∀ t ∈ toks, t.details = none := by
  unfold Tokenizer.tokenize at h
  rw [bind_eq_ok] at h
  obtain ⟨st, h1, h2⟩ := h
  cases h2
  refine foldlM_inv (P := fun _ st => ∀ t ∈ st.tokens, t.details = none) ?_ _ _ _ ?_ h1
  · intro x rest b b' hP hs
    unfold Tokenizer.sentenceStep at hs
    rw [bind_eq_ok] at hs
    obtain ⟨l1, _, hs⟩ := hs
    rw [bind_eq_ok] at hs
    obtain ⟨l2, _, hs⟩ := hs
    rw [bind_eq_ok] at hs
    obtain ⟨offs, _, hs⟩ := hs
    exact emitTokens_details hs hP
  · intro t ht; cases ht

private theorem getDetails_fresh (dict : Dictionary) (user : Option UserDictionary) (t : Token) (h : t.details = none) :
    t.getDetails dict user = (detailsOf dict user t.wordId).bind fun d => .ok (d, { t with details := d }) := by
  unfold Token.getDetails detailsOf
  rw [h]
  by_cases hu : t.wordId.id.toNat = 2 ^ 32 - 1
  · have hu' : t.wordId.isUnknown = true := by
      unfold WordId.isUnknown
      rw [beq_iff_eq]
      exact UInt32.toNat_inj.mp hu
    rw [if_pos hu]
    simp only [Option.isSome_none, hu', if_true]
    rfl
  · have hu' : ¬ t.wordId.isUnknown = true := by
      unfold WordId.isUnknown
      rw [beq_iff_eq]
      intro he
      exact hu (by rw [he]; rfl)
    rw [if_neg hu]
    simp only [Option.isSome_none, hu']
    unfold Token.lookupDetails WordId.isSystem
    cases hs : t.wordId.sys with
    | true => rfl
    | false => cases user <;> rfl

private theorem analyzed_iff {dict : Dictionary} {user : Option UserDictionary} {t : Token} (h : t.details = none) {t' : FToken} :
    t.analyzed dict user = .ok t' ↔ AnalyzedAs dict user t t' := by
  unfold Token.analyzed
  rw [getDetails_fresh dict user t h]
  cases hd : detailsOf dict user t.wordId with
  | error e =>
    constructor
    · intro h; cases h
    · intro h; have := h.details; rw [hd] at this; cases this
  | ok o =>
    cases o with
    | none =>
      constructor
      · intro h; cases h
      · intro h; have := h.details; rw [hd] at this; cases this
    | some d =>
      constructor
      · intro h; cases h; exact ⟨rfl, rfl, rfl, rfl, rfl, rfl, hd⟩
      · rintro ⟨h1, h2, h3, h4, h5, h6, h7⟩
        rw [hd] at h7
        cases h7
        show Except.ok _ = _
        congr 1
        obtain ⟨a, b, c, d, e, f, g⟩ := t'
        simp_all

/-- C48: without character and token filters `analyze` returns a list exactly if `tokenize` does and every token's word has details; it is the list of the
tokenizer's tokens, one for one, with the details of their words. -/
theorem c48_plain (tok : Tokenizer) (text : Str) (toks' : List FToken) :
    (Analyzer.mk [] tok []).analyze text = .ok toks' ↔
      ∃ toks, tok.tokenize text = .ok toks ∧ List.Forall₂ (AnalyzedAs tok.dictionary tok.userDictionary) toks toks' := by
  have hplain : (Analyzer.mk [] tok []).analyze text = (do
      let toks ← tok.tokenize text
      toks.mapM (Token.analyzed tok.dictionary tok.userDictionary)) := by
    unfold Analyzer.analyze
    simp only [List.foldlM_nil, pure_eq_ok, bind_ok]
    unfold Analyzer.tokens
    cases tok.tokenize text with
    | error e => rfl
    | ok toks =>
      simp only [bind_ok, List.foldlM_nil]
      cases List.mapM (Token.analyzed tok.dictionary tok.userDictionary) toks with
      | error e => rfl
      | ok ts =>
        simp only [bind_ok, pure_eq_ok]
        rw [mapM_ok_iff, List.forall₂_same]
        intros; rfl
  rw [hplain, bind_eq_ok]
  constructor
  · rintro ⟨toks, h1, h2⟩
    refine ⟨toks, h1, ?_⟩
    rw [mapM_ok_iff] at h2
    have hd := tokenize_details h1
    clear h1 hplain
    induction h2 with
    | nil => exact .nil
    | cons ha _ ih => exact .cons ((analyzed_iff (hd _ (by simp))).mp ha) (ih fun t ht => hd t (by simp [ht]))
  · rintro ⟨toks, h1, h2⟩
    refine ⟨toks, h1, ?_⟩
    rw [mapM_ok_iff]
    have hd := tokenize_details h1
    clear h1 hplain
    induction h2 with
    | nil => exact .nil
    | cons ha _ ih => exact .cons ((analyzed_iff (hd _ (by simp))).mpr ha) (ih fun t ht => hd t (by simp [ht]))

/-- Non-vacuity: three tokens, one of them unknown. -/
example : (Analyzer.mk [] Cf.tok []).analyze ['a', 'b', '。', '猫'] =
    .ok [⟨['a', 'b'], 0, 2, 0, 1, ⟨1, true⟩, [['x']]⟩, ⟨['。'], 2, 5, 1, 1, ⟨0xffffffff, true⟩, ["UNK".toList]⟩,
      ⟨['猫'], 5, 8, 2, 1, ⟨3, true⟩, [['x']]⟩] := by decide +kernel

end Verif.Props
