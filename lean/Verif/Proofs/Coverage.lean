import Verif.Proofs.Tokenizer
/-! With a complete dictionary every sentence can be segmented. -/
namespace Verif.Spec
open Verif.Model

variable {t : Tokenizer} {text : Str}

theorem unknown_of_proposes (hc : Complete t) {rest : Str} {cat ord : Nat} {s : Str}
    (h : Proposes t.env rest cat ord s) : ∃ w, UnknownWordAt t.env rest w ∧ w.surface = s := by
  obtain ⟨c, tail, cats, data, hr, hcats, hcat, hd, hor, hs⟩ := id h
  obtain ⟨cats', hcats', _, hall⟩ := hc c
  have : cats = cats' := by
    have h2 : t.env.charDefs.lookupCategories c = .ok cats' := hcats'
    rw [h2] at hcats
    cases hcats; rfl
  subst this
  obtain ⟨_, ids, hids, id, hid, w, hw⟩ := hall cat (List.mem_of_getElem? hcat)
  exact ⟨⟨s, w⟩, ⟨cat, ord, ids, id, h, hids, hid, hw⟩, rfl⟩

theorem exists_wordAt (hc : Complete t) {rest : Str} (hr : rest ≠ []) :
    (∃ w, DictWordAt t.env rest w) ∨ ∃ w, UnknownWordAt t.env rest w := by
  by_cases hd : ∃ w, DictWordAt t.env rest w
  · exact .inl hd
  · right
    cases rest with
    | nil => exact absurd rfl hr
    | cons c tail =>
      obtain ⟨cats, hcats, hne, hall⟩ := hc c
      cases cats with
      | nil => exact absurd rfl hne
      | cons cat cats =>
        obtain ⟨⟨data, hdata⟩, _⟩ := hall cat (by simp)
        have hp : Proposes t.env (c :: tail) cat 0 (unknownText t.env.charDefs cat 0 data.group (c :: tail)) :=
          ⟨c, tail, _, data, rfl, hcats, rfl, hdata, .inr hd, rfl⟩
        obtain ⟨w, hw, _⟩ := unknown_of_proposes hc hp
        exact ⟨w, hw⟩

theorem scan_covers (hc : Complete t) {k : Nat} {reach : Nat → Prop} {latest : Option Nat}
    (h : Scan t.env text k reach latest) : k ≤ blen text →
    (∀ e, latest = some e → reach e ∧ e ≤ blen text) ∧ ∃ p, k ≤ p ∧ p ≤ blen text ∧ reach p := by
  induction h with
  | start => intro _; exact ⟨by simp, 0, by simp, by simp, rfl⟩
  | @skip k reach latest _ hn ih =>
    intro hk
    obtain ⟨h1, p, hp, hpl, hr⟩ := ih (by omega)
    refine ⟨h1, p, ?_, hpl, hr⟩
    have : p ≠ k := by rintro rfl; exact hn hr
    omega
  | @closed k reach latest pre rest _ hrk ht hb hcl ih =>
    intro hk
    obtain ⟨h1, _⟩ := ih (by omega)
    have hex : ∃ e, latest = some e ∧ k < e := by
      unfold unknownOpen at hcl
      simp only [not_or, not_forall] at hcl
      obtain ⟨_, e, he, hle⟩ := hcl
      exact ⟨e, he, by omega⟩
    obtain ⟨e, he, hlt⟩ := hex
    exact ⟨fun e' he' => ⟨.inl (h1 e' he').1, (h1 e' he').2⟩, e, by omega, (h1 e he).2, .inl (h1 e he).1⟩
  | @opened k reach latest pre rest proposal _ hrk ht hb ho hp ih =>
    intro hk
    obtain ⟨h1, _⟩ := ih (by omega)
    have hlen : ∀ s : Str, s <+: rest → k + blen s ≤ blen text := by
      rintro s ⟨post, rfl⟩
      rw [ht]; simp; omega
    have hrest : rest ≠ [] := by
      rintro rfl
      rw [ht] at hk; simp at hk; omega
    constructor
    · intro e he
      cases proposal with
      | none =>
        have := h1 e (by simpa using he)
        exact ⟨.inl this.1, this.2⟩
      | some e' =>
        simp at he
        subst he
        rcases hp with ⟨cat, ord, s, hprop, heq, _⟩ | ⟨h0, _⟩
        · cases heq
          obtain ⟨w, hw, rfl⟩ := unknown_of_proposes hc hprop
          exact ⟨.inr ⟨w, .inr ⟨ho, hw⟩, rfl⟩, hlen _ hw.ne.2⟩
        · cases h0
    · rcases exists_wordAt hc hrest with ⟨w, hw⟩ | ⟨w, hw⟩
      · have := blen_pos hw.ne.1
        exact ⟨k + blen w.surface, by omega, hlen _ hw.ne.2, .inr ⟨w, .inl hw, rfl⟩⟩
      · have := blen_pos hw.ne.1
        exact ⟨k + blen w.surface, by omega, hlen _ hw.ne.2, .inr ⟨w, .inr ⟨ho, hw⟩, rfl⟩⟩

theorem segTo_of_reach {env : LatticeEnv} {k : Nat} {reach : Nat → Prop} {latest : Option Nat}
    (h : Scan env text k reach latest) : ∀ p, reach p → ∃ pre ws, SegTo env text pre ws ∧ blen pre = p := by
  induction h with
  | start => rintro p rfl; exact ⟨[], [], .nil, rfl⟩
  | skip _ _ ih => exact ih
  | @closed k reach latest pre rest hs hrk ht hb hcl ih =>
    rintro p (hp | ⟨w, hw, rfl⟩)
    · exact ih p hp
    · obtain ⟨pre', ws, hseg, hb'⟩ := ih k hrk
      have hpp : pre' = pre := by
        obtain ⟨post, hpost⟩ := hseg.prefix
        exact (prefix_unique (hpost.trans ht) (hb'.trans hb.symm)).1
      subst hpp
      exact ⟨_, _, .snoc hseg ⟨rest, reach, latest, ht, by rw [hb]; exact hs, by rw [hb]; exact hw⟩, by simp [hb]⟩
  | @opened k reach latest pre rest proposal hs hrk ht hb ho hp ih =>
    rintro p (hp | ⟨w, hw, rfl⟩)
    · exact ih p hp
    · obtain ⟨pre', ws, hseg, hb'⟩ := ih k hrk
      have hpp : pre' = pre := by
        obtain ⟨post, hpost⟩ := hseg.prefix
        exact (prefix_unique (hpost.trans ht) (hb'.trans hb.symm)).1
      subst hpp
      exact ⟨_, _, .snoc hseg ⟨rest, reach, latest, ht, by rw [hb]; exact hs, by rw [hb]; exact hw⟩, by simp [hb]⟩

theorem segmentation_exists (hc : Complete t) {reach : Nat → Prop} {latest : Option Nat}
    (h : Scan t.env text (blen text) reach latest) : ∃ ws, Segmentation t.env text ws := by
  obtain ⟨_, p, h1, h2, hr⟩ := scan_covers hc h (Nat.le_refl _)
  have : p = blen text := by omega
  subst this
  obtain ⟨pre, ws, hs, hb⟩ := segTo_of_reach h _ hr
  obtain ⟨post, hpost⟩ := hs.prefix
  have := (prefix_unique (hpost.trans (List.append_nil _).symm) hb).1
  subst this
  exact ⟨ws, segmentation_iff.mpr hs⟩

end Verif.Spec

namespace Verif.Model
open Verif.Spec

theorem exists_scan {env : LatticeEnv} {text : Str} {es : List Edge} (h : gen env text = .ok es) :
    ∃ reach latest, Scan env text (blen text) reach latest := by
  obtain ⟨ue, hI⟩ := gen_inv h
  obtain ⟨reach, hs, _⟩ := hI.scan
  exact ⟨reach, ue, hs⟩

/-- `tokenize` for a complete dictionary: every sentence is segmented optimally. -/
theorem tokenize_complete {t : Tokenizer} (hc : Complete t) {text : Str} {toks : List Token}
    (h : t.tokenize text = .ok toks) :
    ∃ segs : List (List Word),
      List.Forall₂ (SegResult t.env t.dictionary.costMatrix) (splitInclusive isDelimiter text) segs ∧
      toks = tokensFor 0 0 segs.flatten := by
  unfold Tokenizer.tokenize at h
  rw [bind_eq_ok] at h
  obtain ⟨st, hst, h⟩ := h
  simp at h
  subst h
  have key : ∀ (ss : List Str), (∀ s ∈ ss, s ≠ []) → ∀ st0 : TokState, LatInv st0.lattice →
      ss.foldlM t.sentenceStep st0 = .ok st →
      ∃ segs : List (List Word), List.Forall₂ (SegResult t.env t.dictionary.costMatrix) ss segs ∧
      st.tokens = st0.tokens ++ tokensFor st0.bytePosition st0.position segs.flatten := by
    intro ss
    induction ss with
    | nil =>
      intro _ st0 _ h
      simp at h
      subst h
      exact ⟨[], .nil, by simp [tokensFor]⟩
    | cons s ss ih =>
      intro hne st0 hl h
      rw [List.foldlM_cons, bind_eq_ok] at h
      obtain ⟨st1, h1, h2⟩ := h
      obtain ⟨hl1, ws, hres, ht, hp, hb⟩ := sentenceStep_spec hl (hne s (by simp)) h1
      obtain ⟨segs, hf, htok⟩ := ih (fun x hx => hne x (by simp [hx])) st1 hl1 h2
      rw [sentenceStep_eq t hl (hne s (by simp)), bind_eq_ok] at h1
      obtain ⟨r, hr, _⟩ := h1
      unfold sentenceOffsets at hr
      rw [bind_eq_ok] at hr
      obtain ⟨es, hg, _⟩ := hr
      obtain ⟨reach, latest, hscan⟩ := exists_scan hg
      rcases hres with hres | ⟨hno, _⟩
      · refine ⟨ws :: segs, .cons hres hf, ?_⟩
        rw [htok, ht, hp, hb, List.flatten_cons, tokensFor_append, List.append_assoc]
      · exact absurd (segmentation_exists hc hscan) hno
  obtain ⟨segs, hf, ht⟩ := key _ (splitInclusive_ne _ _) _ latInv_default hst
  exact ⟨segs, hf, by simpa using ht⟩

end Verif.Model
