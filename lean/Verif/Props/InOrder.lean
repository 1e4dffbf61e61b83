import Verif.Proofs.InOrder
import Verif.Props.EndToEnd
/-! Analyzed tokens as a sequence: C96. -/
namespace Verif.Props
open Verif.Model Verif.Spec

/-! ### C96 Analyzed tokens are in the order of the text -/

/-- C96: whatever an analyzer returns is in order, for every dictionary (also an inconsistent one), every list of token filters, and character filters that keep offsets right. -/
theorem c96_in_order_partial (a : Analyzer) (text : Str) (stages : List (List Piece)) (final : Str) (hc : FilterChain a.characterFilters text stages final)
    (hf : ∀ f ∈ a.tokenFilters, ∃ env s, TokenFilterSetting.new env s = .ok f) (out : List FToken) (h : a.analyze text = .ok out) : InOrder (blen text) out := by
  cases ht : a.tokens final with
  | error e =>
    obtain ⟨new, h1, h2⟩ := Filtering.fold_spec hc []
    unfold Analyzer.analyze at h
    rw [h1, bind_ok] at h
    dsimp only at h
    rw [ht] at h
    cases h
  | ok toks =>
    have hl : Lined (blen final) toks := by
      unfold Analyzer.tokens at ht
      simp only [bind_eq_ok] at ht
      obtain ⟨tmp, h1, fts, h2, h3⟩ := ht
      exact filters_lined _ hf fts toks h3 (analyzed_lined h1 h2)
    rw [FilterChain.analyze hc ht] at h
    cases h
    rw [inOrder_iff]
    have hb := fun x y (hxy : x ≤ y) => FilterChain.bounds (a := x) (b := y) hc hxy
    refine ⟨fun t' ht' => ?_, ?_⟩
    · obtain ⟨t, hm, rfl⟩ := List.mem_map.mp ht'
      obtain ⟨f1, f2, f3⟩ := hl.1 t hm
      exact ⟨(hb _ _ f1).1, (hb _ _ f1).2 f2, f3⟩
    · rw [List.pairwise_map]
      exact hl.2.imp fun {x y} hxy => ⟨(hb _ _ hxy.1).1, hxy.2⟩

/-- C96 for configured filters: the tokens are in order for every text that the character filters accept. -/
theorem c96_settings_partial (env : FilterEnv) (hy : YadaContract env.yada) (charFilters : List CharFilterSetting) (tokenFilters : List TokenFilterSetting)
    (hm : ∀ m, .mapping m ∈ charFilters → MappingOk m) (hr : ∀ p r, .regex p r ∈ charFilters → env.regex p ≠ none) (a : Analyzer)
    (hc : List.Forall₂ (fun s f => s.new env = .ok f) charFilters a.characterFilters) (ht : List.Forall₂ (fun s f => s.new env = .ok f) tokenFilters a.tokenFilters)
    (text : Str) (hok : CharOk env charFilters text) (out : List FToken) (h : a.analyze text = .ok out) : InOrder (blen text) out := by
  obtain ⟨stages, final, -, h2⟩ := charFilters_run hy hc hm hr text hok
  refine c96_in_order_partial a text stages final h2 (fun f hf => ?_) out h
  generalize a.tokenFilters = fs at ht hf
  induction ht with
  | nil => simp at hf
  | @cons s g ss gs h1 _ ih =>
    rcases List.mem_cons.mp hf with rfl | hf
    · exact ⟨env, s, h1⟩
    · exact ih hf

/-- C96 in full for analyzers without character filters: no condition on the dictionary, the text or the token filters. -/
theorem c96_plain (tok : Tokenizer) (tokenFilters : List TokenFilter) (hf : ∀ f ∈ tokenFilters, ∃ env s, TokenFilterSetting.new env s = .ok f) (text : Str) (out : List FToken)
    (h : (Analyzer.mk [] tok tokenFilters).analyze text = .ok out) : InOrder (blen text) out :=
  c96_in_order_partial _ text [] text (.nil _) hf out h

/-- C96 without conditions: every analyzer with filters from a configuration. -/
def AlwaysInOrder : Prop :=
  ∀ (a : Analyzer), (∀ f ∈ a.characterFilters, ∃ env s, CharFilterSetting.new env s = .ok f) → (∀ f ∈ a.tokenFilters, ∃ env s, TokenFilterSetting.new env s = .ok f) →
    ∀ text out, a.analyze text = .ok out → InOrder (blen text) out

namespace Ord
/-- The iteration mark filter in front of the sample dictionary. -/
def marks : Analyzer := ⟨[(IterationMark.mk true true).filter], Cf.tok, []⟩
end Ord

/-- C96 is violated with the iteration mark filter: `𠮷々` (seven bytes) becomes `𠮷𠮷`, and the last token ends at byte 8. -/
theorem c96_fails : (∃ out, Ord.marks.analyze "𠮷々".toList = .ok out ∧ ∃ t ∈ out, blen "𠮷々".toList < t.byteEnd) ∧ ¬ AlwaysInOrder := by
  have h : ∃ out, Ord.marks.analyze "𠮷々".toList = .ok out ∧ ∃ t ∈ out, blen "𠮷々".toList < t.byteEnd := by
    refine ⟨_, rfl, ?_⟩
    decide +kernel
  refine ⟨h, fun hall => ?_⟩
  obtain ⟨out, h1, t, ht, h2⟩ := h
  have := (hall Ord.marks (fun f hf => ?_) (by simp [Ord.marks]) _ _ h1).range t ht
  · omega
  · simp only [Ord.marks, List.mem_singleton] at hf
    exact ⟨Ac.filterEnv, .iterationMark true true, by rw [hf]; rfl⟩

namespace Ord
/-- A mapping in front of the sample dictionary; then words with the tag `x` are merged. -/
def settings : List CharFilterSetting × List TokenFilterSetting := ([.mapping Cf.grow], [.lowercase, .japaneseCompoundWord .ipadic [['x']] none])
def merging : Analyzer := ⟨[Cf.growFilter.filter], Cf.tok, [Model.lowercase Ac.filterEnv.toLowercase, (CompoundWord.mk Tf.all .ipadic ["x,*,*,*".toList] none).apply]⟩
end Ord

/-- Non-vacuity: three tokens in the replacement of `猫` become one compound of three positions, followed by an unknown word. -/
example : ∃ out, Ord.merging.analyze "猫。犬".toList = .ok out ∧ out.length = 3 ∧ (out.map (·.positionLength)).head? = some 3 ∧ InOrder 9 out := by
  have h : (Ord.merging.analyze "猫。犬".toList).toOption.map (fun out => (out.length, (out.map (·.positionLength)).head?)) = some (3, some 3) := by decide +kernel
  cases ho : Ord.merging.analyze "猫。犬".toList with
  | error e => rw [ho] at h; cases h
  | ok out =>
    rw [ho] at h
    simp only [Except.toOption, Option.map_some, Option.some.injEq, Prod.mk.injEq] at h
    refine ⟨out, rfl, h.1, h.2, ?_⟩
    exact c96_settings_partial Ac.filterEnv Src.yadaOk Ord.settings.1 Ord.settings.2 (by simp [Ord.settings, Cf.growOk]) (by simp [Ord.settings]) Ord.merging
      (.cons (by show (Mapping.new Src.yada Cf.grow >>= _) = _; rw [Mapping.new_ok Src.yadaOk Cf.growOk]; rfl) .nil) (.cons rfl (.cons rfl .nil)) _ ⟨trivial, fun _ _ _ => trivial⟩ out ho

end Verif.Props
