import Verif.Spec.Filtering
import Verif.Proofs.Words
import Verif.Props.InOrder
import Verif.Proofs.Afterwards
import Verif.Props.Returns
/-! Character filters influence the tokens only through the filtered text: C106. -/
namespace Verif.Props
open Verif.Model Verif.Spec

/-! ### C106 Character filters influence the tokens only through the filtered text -/

private theorem fold_filters {fs : List CharFilter} : ∀ {text : Str} {tables : List (OffsetTable × Nat)} {st : Filtering}, fs.foldlM Filtering.step ⟨text, tables⟩ = .ok st → FiltersTo fs text st.text := by
  induction fs with
  | nil => intro text tables st h; cases h; exact .nil _
  | cons f fs ih =>
    intro text tables st h
    rw [List.foldlM_cons, bind_eq_ok] at h
    obtain ⟨mid, h1, h2⟩ := h
    unfold Filtering.step at h1
    rw [bind_eq_ok] at h1
    obtain ⟨⟨new, t⟩, hf, h1⟩ := h1
    cases h1
    exact .cons f fs _ _ _ t hf (ih h2)

private theorem filters_fold {fs : List CharFilter} {text final : Str} (h : FiltersTo fs text final) : ∀ tables, ∃ new, fs.foldlM Filtering.step ⟨text, tables⟩ = .ok ⟨final, new⟩ := by
  induction h with
  | nil text => exact fun tables => ⟨tables, rfl⟩
  | cons f fs text new final t first _ ih =>
    intro tables
    obtain ⟨nw, h⟩ := ih (if t.offsets.isEmpty then tables else (t, blen new) :: tables)
    refine ⟨nw, ?_⟩
    rw [List.foldlM_cons]
    unfold Filtering.step
    dsimp only
    rw [first, bind_ok, pure_eq_ok, bind_ok]
    exact h

private theorem analyze_bare {tok : Tokenizer} {tfs : List TokenFilter} {final : Str} {toks : List FToken} (h : (Analyzer.mk [] tok tfs).tokens final = .ok toks) :
    (Analyzer.mk [] tok tfs).analyze final = .ok toks := by
  unfold Analyzer.analyze
  rw [List.foldlM_nil, pure_eq_ok, bind_ok, h, bind_ok, mapM_ok_iff, List.forall₂_same]
  intros
  rfl

/-- C106: character filters and a text determine how offsets are led back. Whatever the tokenizer and the token filters, the tokens are those of the filtered text with offsets led back in this way. Nothing
is assumed of the filters. -/
theorem c106_filtered (fs : List CharFilter) (text final : Str) (hf : FiltersTo fs text final) :
    ∃ back : Nat → Nat, ∀ (tok : Tokenizer) (tfs : List TokenFilter) (out : List FToken), (Analyzer.mk fs tok tfs).analyze text = .ok out →
      ∃ plain, (Analyzer.mk [] tok tfs).analyze final = .ok plain ∧ out = plain.map (relocated back) := by
  obtain ⟨tables, hst⟩ := filters_fold hf []
  obtain ⟨c, hc⟩ := corrected_of tables
  refine ⟨fun o => (c o).toOption.getD 0, fun tok tfs out h => ?_⟩
  unfold Analyzer.analyze at h
  rw [hst, bind_ok, bind_eq_ok] at h
  obtain ⟨toks, h2, h3⟩ := h
  refine ⟨toks, analyze_bare h2, ?_⟩
  rw [mapM_ok_iff] at h3
  clear h2
  induction h3 with
  | nil => rfl
  | @cons t t' ts ts' e _ ih =>
    obtain ⟨e1, e2, e3⟩ := hc _ _ e
    rw [List.map_cons, ← ih]
    congr 1
    rw [e3]
    unfold relocated
    dsimp only
    rw [e1, e2]
    rfl

/-- C106: an analysis returns only if the character filters give a text, and if a filter fails, its error is the result, whatever the tokenizer and the token filters. -/
theorem c106_errors (fs : List CharFilter) (text : Str) : (∃ final, FiltersTo fs text final) ∨ ∃ e, ∀ (tok : Tokenizer) (tfs : List TokenFilter), (Analyzer.mk fs tok tfs).analyze text = .error e := by
  cases h : fs.foldlM Filtering.step ⟨text, []⟩ with
  | ok st => exact .inl ⟨_, fold_filters h⟩
  | error e =>
    refine .inr ⟨e, fun tok tfs => ?_⟩
    unfold Analyzer.analyze
    rw [h]
    rfl

/-- C106: filters that give the same text give the same tokens up to byte offsets. -/
theorem c106_same (fs fs' : List CharFilter) (text text' final : Str) (hf : FiltersTo fs text final) (hf' : FiltersTo fs' text' final) (tok : Tokenizer) (tfs : List TokenFilter) (out out' : List FToken)
    (h : (Analyzer.mk fs tok tfs).analyze text = .ok out) (h' : (Analyzer.mk fs' tok tfs).analyze text' = .ok out') :
    List.Forall₂ (fun t t' => t' = { t with byteStart := t'.byteStart, byteEnd := t'.byteEnd }) out out' := by
  obtain ⟨b, hb⟩ := c106_filtered fs text final hf
  obtain ⟨b', hb'⟩ := c106_filtered fs' text' final hf'
  obtain ⟨p, h1, rfl⟩ := hb tok tfs out h
  obtain ⟨p', h2, rfl⟩ := hb' tok tfs out' h'
  rw [h1] at h2
  cases h2
  rw [List.forall₂_map_left_iff, List.forall₂_map_right_iff, List.forall₂_same]
  exact fun t _ => rfl

/-- Non-vacuity: the iteration mark filter, whose offsets are wrong, gives `𠮷𠮷。a` of `𠮷々。a`; the analysis has the tokens of that text. -/
example : FiltersTo Ord.marks.characterFilters "𠮷々。a".toList "𠮷𠮷。a".toList ∧ ∃ out plain, Ord.marks.analyze "𠮷々。a".toList = .ok out ∧
    (Analyzer.mk [] Cf.tok []).analyze "𠮷𠮷。a".toList = .ok plain ∧ out.map (·.text) = plain.map (·.text) ∧ out.length = 2 := by
  have hf : FiltersTo Ord.marks.characterFilters "𠮷々。a".toList "𠮷𠮷。a".toList := by
    refine .cons _ _ _ "𠮷𠮷。a".toList _ .empty ?_ (.nil _)
    decide +kernel
  refine ⟨hf, ?_⟩
  obtain ⟨b, hb⟩ := c106_filtered _ _ _ hf
  have h : (Ord.marks.analyze "𠮷々。a".toList).toOption.map List.length = some 2 := by decide +kernel
  cases ho : Ord.marks.analyze "𠮷々。a".toList with
  | error e => rw [ho] at h; cases h
  | ok out =>
    rw [ho] at h
    obtain ⟨plain, h1, h2⟩ := hb Cf.tok [] out ho
    refine ⟨out, plain, rfl, h1, ?_, Option.some.inj h⟩
    rw [h2, List.map_map]
    rfl

/-- C106 for configured character filters: they always give a text, and the analysis is that of this text, with the same errors and panics, but for the byte offsets. -/
theorem c106_configured (env : FilterEnv) (hy : YadaContract env.yada) (hr : RegexContract env.regex) (settings : List CharFilterSetting) (hm : ∀ m, .mapping m ∈ settings → MappingOk m)
    (fs : List CharFilter) (hc : List.Forall₂ (fun s f => s.new env = .ok f) settings fs) (text : Str) :
    ∃ final back, FiltersTo fs text final ∧ ∀ (tok : Tokenizer) (tfs : List TokenFilter), (Analyzer.mk fs tok tfs).analyze text = (do
      let tokens ← (Analyzer.mk [] tok tfs).analyze final
      return tokens.map (relocated back)) := by
  obtain ⟨st, h1, hbal⟩ := charFilters_return hy hr hc hm ⟨text, []⟩ (by simp)
  refine ⟨st.text, fun o => (backBy st.tables o).toOption.getD 0, fold_filters h1, fun tok tfs => ?_⟩
  cases h2 : (Analyzer.mk fs tok tfs).tokens st.text with
  | error e =>
    have h2' : (Analyzer.mk [] tok tfs).tokens st.text = .error e := h2
    unfold Analyzer.analyze
    rw [h1, bind_ok, h2]
    dsimp only
    rw [List.foldlM_nil, pure_eq_ok, bind_ok, h2']
    rfl
  | ok toks =>
    rw [analyze_bare h2, bind_ok]
    unfold Analyzer.analyze
    rw [h1, bind_ok, h2, bind_ok, pure_eq_ok, mapM_ok_iff, List.forall₂_map_right_iff, List.forall₂_same]
    intro t _
    obtain ⟨t', e, -⟩ := corrections_return hbal t
    rw [e]
    obtain ⟨e1, e2, e3⟩ := (correctBy_iff _ _ _).mp e
    rw [e3]
    unfold relocated
    dsimp only
    rw [e1, e2]
    rfl

/-- Non-vacuity: a regular expression filter that doubles the first character, followed by a mapping filter. -/
example : ∃ cs, List.Forall₂ (fun s f => s.new Ret.env = .ok f) Ret.charFilters cs ∧ cs.length = 2 ∧ ∀ text, ∃ final back, FiltersTo cs text final ∧ ∀ tok tfs,
    (Analyzer.mk cs tok tfs).analyze text = (do
      let tokens ← (Analyzer.mk [] tok tfs).analyze final
      return tokens.map (relocated back)) := by
  obtain ⟨cs, hc, -⟩ := settings_make (P := fun (_ : CharFilterSetting) _ => True) (new := CharFilterSetting.new Ret.env) (as := Ret.charFilters) (bs := Ret.charFilters)
    (.cons trivial (.cons trivial .nil)) (by
      simp only [Ret.charFilters, List.mem_cons, List.not_mem_nil, or_false, forall_eq_or_imp, forall_eq]
      exact ⟨⟨_, rfl⟩, _, rfl⟩)
  exact ⟨cs, hc, hc.length_eq.symm, c106_configured Ret.env Src.yadaOk Ret.regex Ret.charFilters Ret.mappings cs hc⟩

end Verif.Props
