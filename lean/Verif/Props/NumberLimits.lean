import Verif.Proofs.NumberLimits
import Verif.Props.TokenFilter
/-! When the number filter returns: C44. -/
namespace Verif.Props
open Verif.Model Verif.Spec

/-- C44, exactly: a text is converted if and only if every unit in it has at least as many places as there are bytes up to and with the next unit; otherwise the conversion panics. -/
theorem c44_exact (s : Str) : ((∃ out, toArabicNumerals s = .ok out) ↔ UnitsFit s) ∧ (toArabicNumerals s = .error .panic ↔ ¬ UnitsFit s) := by
  rw [← goodText_iff]
  obtain ⟨h1, h2⟩ := toArabic_exact s
  refine ⟨⟨fun ⟨out, h⟩ => ?_, h1⟩, ⟨fun h hg => ?_, h2⟩⟩
  · by_contra hn
    rw [h2 hn] at h; cases h
  · obtain ⟨out, ho⟩ := h1 hg
    rw [h] at ho; cases ho

/-- The number filter on tokens, for formatted tags: it returns if and only if every token has details and every token that is converted (one with a configured tag, or any if no
tags are configured) has a text whose units fit; otherwise it panics. -/
theorem c44_filter_exact (tags : Option (List Str)) (tokens : List FToken) :
    ((∃ out, japaneseNumber tags tokens = .ok out) ↔ ∀ t ∈ tokens, t.details ≠ [] ∧
      ((∀ ts, tags = some ts → [','].intercalate (partOfSpeech t) ∈ ts) → UnitsFit t.text)) ∧
    ((∃ out, japaneseNumber tags tokens = .ok out) ∨ japaneseNumber tags tokens = .error .panic) := by
  have one : ∀ t : FToken, ((∃ s, numberText tags t = .ok s) ↔ t.details ≠ [] ∧
      ((∀ ts, tags = some ts → [','].intercalate (partOfSpeech t) ∈ ts) → UnitsFit t.text)) ∧ ((∃ s, numberText tags t = .ok s) ∨ numberText tags t = .error .panic) := by
    intro t
    obtain ⟨hx, hy⟩ := c44_exact t.text
    have hdich : (∃ out, toArabicNumerals t.text = .ok out) ∨ toArabicNumerals t.text = .error .panic := by
      by_cases h : UnitsFit t.text
      · exact .inl (hx.mpr h)
      · exact .inr (hy.mpr h)
    unfold numberText
    by_cases hd : t.details = []
    · rw [tag_panic hd]
      refine ⟨⟨?_, fun h => absurd hd h.1⟩, .inr rfl⟩
      rintro ⟨s, h⟩
      cases h
    · rw [tag_ok hd, bind_ok, joinComma_eq]
      cases tags with
      | none =>
        dsimp only
        refine ⟨?_, hdich⟩
        rw [hx]
        exact ⟨fun h => ⟨hd, fun _ => h⟩, fun h => h.2 (by simp)⟩
      | some ts =>
        dsimp only
        by_cases hm : [','].intercalate (partOfSpeech t) ∈ ts
        · rw [if_pos (by simpa using hm)]
          refine ⟨?_, hdich⟩
          rw [hx]
          exact ⟨fun h => ⟨hd, fun _ => h⟩, fun h => h.2 (fun ts' e => by cases e; exact hm)⟩
        · rw [if_neg (by simpa using hm)]
          exact ⟨⟨fun _ => ⟨hd, fun h => absurd (h ts rfl) hm⟩, fun _ => ⟨_, rfl⟩⟩, .inl ⟨_, rfl⟩⟩
  unfold japaneseNumber
  constructor
  · constructor
    · rintro ⟨out, ho⟩ t ht
      rw [rewriteText_ok] at ho
      refine (one t).1.mp ?_
      clear one
      induction ho with
      | nil => cases ht
      | cons h _ ih =>
        rcases List.mem_cons.mp ht with rfl | ht
        · obtain ⟨s, hs, _⟩ := h; exact ⟨s, hs⟩
        · exact ih ht
    · intro h
      exact rewriteText_total fun t ht => (one t).1.mpr (h t ht)
  · induction tokens with
    | nil => exact .inl ⟨[], rfl⟩
    | cons t ts ih =>
      unfold rewriteText at ih ⊢
      rw [List.mapM_cons]
      rcases (one t).2 with ⟨s, hs⟩ | hs
      · rw [hs, bind_ok, pure_eq_ok, bind_ok]
        rcases ih with ⟨out, ho⟩ | ho
        · rw [ho]; exact .inl ⟨_, rfl⟩
        · rw [ho]; exact .inr rfl
      · rw [hs]; exact .inr rfl

/-- Non-vacuity: texts that are converted, with other characters before, between and after numerals, and texts that are not. -/
example : UnitsFit "千二百三万四十".toList ∧ UnitsFit "三千円".toList ∧ UnitsFit "約千五百".toList ∧ ¬ UnitsFit "二十日".toList ∧ ¬ UnitsFit "千万百万".toList := by
  refine ⟨(c44_exact _).1.mp ⟨"12030040".toList, by decide +kernel⟩, (c44_exact _).1.mp ⟨"3円".toList, by decide +kernel⟩,
    (c44_exact _).1.mp ⟨"約500".toList, by decide +kernel⟩, (c44_exact _).2.mp (by decide +kernel), (c44_exact _).2.mp (by decide +kernel)⟩

/-- The condition read from the text: in 二十日 the unit 十 has one place, and 日 takes three bytes. -/
example : ¬ UnitsFit "二十日".toList := by
  intro h
  have := h "二".toList '十' "日".toList [] (by decide) (by decide) (by decide) (by simp)
  revert this
  unfold UnitFits
  decide +kernel

end Verif.Props
