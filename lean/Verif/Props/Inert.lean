import Verif.Proofs.Inert
import Verif.Props.AnalyzerConfig
/-! C98: character filters that find nothing to do have no effect. -/
namespace Verif.Props
open Verif.Model Verif.Spec

private theorem passes_of {fs : List CharFilter} {st st' : Filtering} (h : fs.foldlM Filtering.step st = .ok st') : Passes fs st.text st'.text := by
  induction fs generalizing st with
  | nil =>
    simp only [List.foldlM_nil, pure_eq_ok, Except.ok.injEq] at h
    subst h
    exact .nil _
  | cons f fs ih =>
    rw [List.foldlM_cons, bind_eq_ok] at h
    obtain ⟨st1, h1, h2⟩ := h
    unfold Filtering.step at h1
    rw [bind_eq_ok] at h1
    obtain ⟨⟨t, tab⟩, h1, h3⟩ := h1
    simp only [pure_eq_ok, Except.ok.injEq] at h3
    subst h3
    exact .cons h1 (ih h2)

/-- C98: a character filter that finds nothing to do in the text it gets can be taken out of an analyzer: the analysis gives the same tokens with the same offsets, or the same error, whatever the other
filters are. -/
theorem c98_dropped (env : FilterEnv) (hy : YadaContract env.yada) (s : CharFilterSetting) (hm : ∀ m, s = .mapping m → MappingOk m) (f : CharFilter) (hf : s.new env = .ok f)
    (before after : List CharFilter) (tokenizer : Tokenizer) (tokenFilters : List TokenFilter) (text : Str) (h : ∀ mid, Passes before text mid → NothingToDo env s mid) :
    Analyzer.analyze ⟨before ++ f :: after, tokenizer, tokenFilters⟩ text = Analyzer.analyze ⟨before ++ after, tokenizer, tokenFilters⟩ text := by
  unfold Analyzer.analyze
  dsimp only
  rw [List.foldlM_append, List.foldlM_append]
  cases hb : List.foldlM Filtering.step (Filtering.mk text []) before with
  | error e => simp only [bind_error]
  | ok st =>
    simp only [bind_ok]
    rw [List.foldlM_cons, step_inert (setting_inert hy hf hm (h _ (passes_of hb))), bind_ok]
    rfl

/-- C98: if none of the character filters finds anything to do, the analysis is the one without character filters. -/
theorem c98_all (env : FilterEnv) (hy : YadaContract env.yada) (settings : List CharFilterSetting) (hm : ∀ m, .mapping m ∈ settings → MappingOk m) (filters : List CharFilter)
    (hf : List.Forall₂ (fun s f => s.new env = .ok f) settings filters) (tokenizer : Tokenizer) (tokenFilters : List TokenFilter) (text : Str) (h : ∀ s ∈ settings, NothingToDo env s text) :
    Analyzer.analyze ⟨filters, tokenizer, tokenFilters⟩ text = Analyzer.analyze ⟨[], tokenizer, tokenFilters⟩ text := by
  induction hf with
  | nil => rfl
  | @cons s f ss fs h1 _ ih =>
    rw [← ih (fun m hm' => hm m (by simp [hm'])) fun s hs => h s (by simp [hs])]
    refine c98_dropped env hy s (fun m e => hm m (by simp [e])) f h1 [] fs tokenizer tokenFilters text fun mid hp => ?_
    cases hp
    exact h s (by simp)

namespace Inert
def kept : StrMap := [("ab".toList, "a".toList), ("c".toList, "bc".toList)]
theorem keptOk : MappingOk kept := by
  refine ⟨by decide, by decide, ?_, by decide⟩
  have : ∀ p ∈ kept, p.1 ≠ [] ∧ '\x00' ∉ p.1 := by decide
  exact fun k v h => this (k, v) h
end Inert

/-- C98: that the text comes out as it went in is not enough: replacements can cancel in the text and still move the offsets. -/
theorem c98_same_text_fails : ∃ (m : StrMap) (f : CharFilter) (table : OffsetTable), MappingOk m ∧ CharFilterSetting.new Ac.filterEnv (.mapping m) = .ok f ∧
    f "abc".toList = .ok ("abc".toList, table) ∧ table.correct 1 3 = .ok 2 := by
  refine ⟨Inert.kept, Mapping.filter ⟨Inert.kept, ⟨Mapping.keyset Inert.kept⟩⟩, ⟨[1, 2], [1, 0]⟩, Inert.keptOk, ?_, ?_, by decide +kernel⟩
  · simp only [CharFilterSetting.new, Mapping.new_ok (yada := Ac.filterEnv.yada) Src.yadaOk Inert.keptOk, bind_ok, pure_eq_ok]
  · show Mapping.apply _ _ = _
    decide +kernel

/-- Non-vacuity: all kinds of filters, on a text in which they find nothing, behind a filter that does something. -/
example : YadaContract Ac.filterEnv.yada ∧ MappingOk Inert.kept ∧ NothingToDo Ac.filterEnv (.mapping Inert.kept) "a猫、ゝ".toList ∧ NothingToDo Ac.filterEnv (.unicodeNormalize .nfkc) "a猫、ゝ".toList ∧
    NothingToDo Ac.filterEnv (.iterationMark true false) "a猫、ゝ".toList ∧ NothingToDo { Ac.filterEnv with regex := fun _ => some fun _ => [] } (.regex "x".toList "y".toList) "a猫、ゝ".toList ∧
    Passes [IterationMark.filter ⟨true, true⟩] "人々".toList "人人".toList ∧ NothingToDo Ac.filterEnv (.iterationMark true true) "人人".toList := by
  refine ⟨Src.yadaOk, Inert.keptOk, ?_, ⟨by decide, fun _ _ => rfl⟩, ⟨by decide, fun _ => rfl⟩, ?_, .cons (table := .empty) (by show IterationMark.apply _ _ = _; decide +kernel) (.nil _), by decide, by decide⟩
  · have : ∀ p ∈ Inert.kept, ¬ p.1 <:+: "a猫、ゝ".toList := by decide
    exact fun k v h => this (k, v) h
  · intro find h
    cases h
    rfl

end Verif.Props
