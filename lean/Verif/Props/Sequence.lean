import Verif.Proofs.Sequence
import Verif.Props.Returns
/-! The order of analyzed tokens when offsets may be wrong: C96. -/
namespace Verif.Props
open Verif.Model Verif.Spec

/-- C96, the order alone: it does not need offsets that are right. Replacements may refer to groups and iteration marks may become longer characters, so that ranges can be wrong and even end after the
text, and still the tokens come in order and do not overlap, provided that no pattern matches the empty text. -/
theorem c96_sequence (env : FilterEnv) (hy : YadaContract env.yada) (hr : RegexContract env.regex) (charFilters : List CharFilterSetting) (tokenFilters : List TokenFilterSetting)
    (hk : ∀ s ∈ charFilters, KeepsOrder env s) (a : Analyzer) (hc : List.Forall₂ (fun s f => s.new env = .ok f) charFilters a.characterFilters)
    (ht : List.Forall₂ (fun s f => s.new env = .ok f) tokenFilters a.tokenFilters) (text : Str) (out : List FToken) (h : a.analyze text = .ok out) : InSequence out := by
  have hall : ∀ f ∈ a.characterFilters, ∀ text, Orderly f text := by
    intro f hf text
    generalize a.characterFilters = fs at hc hf
    induction hc with
    | nil => simp at hf
    | @cons s g ss gs h1 _ ih =>
      rcases List.mem_cons.mp hf with rfl | hf
      · exact orderly_of hy hr h1 (hk s (by simp)) text
      · exact ih (fun s hs => hk s (by simp [hs])) hf
  have hfs : ∀ f ∈ a.tokenFilters, ∃ env s, TokenFilterSetting.new env s = .ok f := by
    intro f hf
    generalize a.tokenFilters = fs at ht hf
    induction ht with
    | nil => simp at hf
    | @cons s g ss gs h1 _ ih =>
      rcases List.mem_cons.mp hf with rfl | hf
      · exact ⟨env, s, h1⟩
      · exact ih hf
  unfold Analyzer.analyze at h
  simp only [bind_eq_ok] at h
  obtain ⟨st, h1, toks, h2, h3⟩ := h
  by_cases he : st.text = []
  · rw [he] at h2
    cases tokens_nil hfs h2
    cases h3
    exact ⟨by simp, by simp, by simp⟩
  · obtain ⟨new, hn, g, hg1, hg2⟩ := (fold_orderly hall _ _ _ h1).2 he
    rw [List.append_nil] at hn
    have hl : Lined (blen st.text) toks := by
      unfold Analyzer.tokens at h2
      simp only [bind_eq_ok] at h2
      obtain ⟨tmp, k1, fts, k2, k3⟩ := h2
      exact filters_lined _ hfs fts toks k3 (analyzed_lined k1 k2)
    have ho : out = toks.map fun t => FToken.withRange t (g t.byteStart) (g t.byteEnd) := by
      rw [mapM_ok_iff] at h3
      clear h2 hl
      induction h3 with
      | nil => rfl
      | cons k1 _ ih =>
        rw [hn, hg2] at k1
        cases k1
        rw [List.map_cons, ← ih]
    subst ho
    have hi := inOrder_iff.mpr hl
    refine ⟨fun t' ht' => ?_, fun t' ht' => ?_, fun i j x y hij hx hy => ?_⟩
    · obtain ⟨t, hm, rfl⟩ := List.mem_map.mp ht'
      exact hg1 _ _ (hi.range t hm).1
    · obtain ⟨t, hm, rfl⟩ := List.mem_map.mp ht'
      exact hi.positions t hm
    · rw [List.getElem?_map, Option.map_eq_some_iff] at hx hy
      obtain ⟨x, hx, rfl⟩ := hx
      obtain ⟨y, hy, rfl⟩ := hy
      obtain ⟨o1, o2⟩ := hi.order i j x y hij hx hy
      exact ⟨hg1 _ _ o1, o2⟩

namespace Sq
/-- The first character of a text is written twice, through a reference to a group. -/
def twice : CharFilterSetting := .regex ['^', '.'] ['$', '0', '$', '0']
def doubling : Analyzer := ⟨[RegexFilter.filter ⟨fun text => match text with | [] => [] | c :: _ => [⟨0, c.utf8Size, fun _ => [c]⟩], ['$', '0', '$', '0']⟩, (IterationMark.mk true true).filter], Cf.tok,
  [Model.lowercase Ret.env.toLowercase]⟩

theorem keeps : ∀ s ∈ [twice, .iterationMark true true], KeepsOrder Ret.env s := by
  intro s hs
  rcases List.mem_cons.mp hs with rfl | hs
  · intro find hf text m hm
    cases hf
    cases text with
    | nil => simp at hm
    | cons c s =>
      simp only [List.mem_singleton] at hm
      subst hm
      exact Char.utf8Size_pos c
  · rw [List.mem_singleton] at hs
    subst hs
    trivial

/-- A pattern that matches the empty text in front of every text. -/
def front : FilterEnv := { Ac.filterEnv with regex := fun _ => some fun _ => [⟨0, 0, fun _ => []⟩] }
def dashed : Analyzer := ⟨[RegexFilter.filter ⟨fun _ => [⟨0, 0, fun _ => []⟩], ['-']⟩], Cf.tok, []⟩

theorem front_regex : RegexContract front.regex := by
  rintro pattern find h text
  cases h
  exact ⟨_, .hit 0 ⟨0, 0, fun _ => []⟩ [] [] [] text _ rfl rfl (.done _ _)⟩
end Sq

/-- Non-vacuity of `c96_sequence`, and what it leaves open: the ranges of `猫々猫` are wrong, and the last token ends after the text, but the tokens are in order. -/
theorem c96_capture_fails : ∃ out, Sq.doubling.analyze "猫々猫".toList = .ok out ∧ 0 < out.length ∧ (∃ t ∈ out, blen "猫々猫".toList < t.byteEnd) ∧ InSequence out := by
  have h : (Sq.doubling.analyze "猫々猫".toList).toOption.map (fun out => (decide (0 < out.length), out.any fun t => decide (blen "猫々猫".toList < t.byteEnd))) = some (true, true) := by
    decide +kernel
  cases ho : Sq.doubling.analyze "猫々猫".toList with
  | error e => rw [ho] at h; cases h
  | ok out =>
    rw [ho] at h
    simp only [Except.toOption, Option.map_some, Option.some.injEq, Prod.mk.injEq, List.any_eq_true, decide_eq_true_eq] at h
    exact ⟨out, rfl, h.1, h.2, c96_sequence Ret.env Src.yadaOk Ret.regex [Sq.twice, .iterationMark true true] [.lowercase] Sq.keeps Sq.doubling (.cons rfl (.cons rfl .nil)) (.cons rfl .nil) _ out ho⟩

/-- The condition on patterns is needed: with a pattern that matches the empty text the order is lost, the first token starts after the second. -/
theorem c96_empty_match_fails : RegexContract Sq.front.regex ∧ CharFilterSetting.new Sq.front (.regex ['^'] ['-']) = .ok (RegexFilter.filter ⟨fun _ => [⟨0, 0, fun _ => []⟩], ['-']⟩) ∧
    ∃ out, Sq.dashed.analyze ['a'] = .ok out ∧ ¬ InSequence out := by
  refine ⟨Sq.front_regex, rfl, ?_⟩
  have h : (Sq.dashed.analyze ['a']).toOption.map (fun out => out.any fun t => decide (t.byteEnd < t.byteStart)) = some true := by decide +kernel
  cases ho : Sq.dashed.analyze ['a'] with
  | error e => rw [ho] at h; cases h
  | ok out =>
    rw [ho] at h
    simp only [Except.toOption, Option.map_some, Option.some.injEq, List.any_eq_true, decide_eq_true_eq] at h
    obtain ⟨t, ht, hlt⟩ := h
    refine ⟨out, rfl, fun hs => ?_⟩
    have := hs.range t ht
    omega

end Verif.Props
