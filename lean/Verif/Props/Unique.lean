import Verif.Proofs.SameAnalysis
import Verif.Props.Reproducible
import Verif.Props.Determined
/-! C87: sources, settings and text determine the result of an analysis. -/
namespace Verif.Props
open Verif.Model Verif.Spec

/-! ### C87 The result of an analysis is determined by the source files, the settings and the text -/

/-- C87: what C70 says about the analysis of a text (each character filter cuts and replaces as its setting says, each sentence is segmented into the chosen words of the lexicon, each token filter does what its
setting says, byte ranges are led back) leaves no freedom: all results that satisfy it have the same texts, byte ranges, positions and details. -/
theorem c87_unique {S : Settings} (hv : S.Valid) {text : Str} (ha : S.Accepts text) (hs : S.Fits text) {out out' : List FToken} (h : S.Analyzes text out) (h' : S.Analyzes text out') :
    out.map FToken.shown = out'.map FToken.shown := by
  have e := analyzes_unique hv ha hs h h'
  have key : FToken.shown = FToken.shown ∘ FToken.bare := rfl
  rw [key, ← List.map_map, ← List.map_map, e]

/-- C87: so an analyzer returns exactly what the specification says, and an analyzer with the same settings, over a dictionary for the same lexicon, returns the same. -/
theorem c87_analyze (S : Settings) (hv : S.Valid) (hy : YadaContract S.env.yada) (hb : KatakanaBlock S.env.block) (a : Analyzer)
    (hc : List.Forall₂ (fun s f => s.new S.env = .ok f) S.charFilters a.characterFilters) (ht : List.Forall₂ (fun s f => s.new S.env = .ok f) S.tokenFilters a.tokenFilters)
    (hm : a.tokenizer.mode = S.mode) (hl : S.lexicon.AnsweredBy a.tokenizer) (text : Str) (h : S.Accepts text) (hs : S.Fits text) :
    (∃ out, S.Analyzes text out) ∧ ∀ out, S.Analyzes text out → ∃ out', a.analyze text = .ok out' ∧ out'.map FToken.shown = out.map FToken.shown := by
  obtain ⟨out', h1, h2⟩ := c70_analyze S hv hy hb a hc ht hm hl text h
  exact ⟨⟨out', h2⟩, fun out ho => ⟨out', h1, c87_unique hv h hs h2 ho⟩⟩

private theorem printed_same {pretty : Json → Str} {ts ts' : List FToken} (h : ts.map FToken.shown = ts'.map FToken.shown) {format : Format} (hf : format ≠ .json) {o o' : Str}
    (ho : Printed pretty ts o format) (ho' : Printed pretty ts' o' format) : o = o' := by
  have htext : ts.map (·.text) = ts'.map (·.text) := by
    have := congrArg (List.map Prod.fst) h
    rwa [List.map_map, List.map_map] at this
  have hmecab : mecabText ts = mecabText ts' := by
    have key : ∀ ts : List FToken, mecabText ts = ((ts.map FToken.shown).map fun x => x.1 ++ "\t".toList ++ [','].intercalate x.2.2.2.2.2 ++ "\n".toList).flatten ++ "EOS\n".toList := by
      intro ts
      unfold mecabText
      rw [List.map_map]
      rfl
    rw [key, key, h]
  cases format with
  | json => exact absurd rfl hf
  | mecab => exact (show o = _ from ho).trans (hmecab.trans (show o' = _ from ho').symm)
  | wakati =>
    have hnil : ts = [] ↔ ts' = [] := by
      constructor <;> rintro rfl <;> simpa using h
    have hw : wakatiText ts = wakatiText ts' := by
      unfold wakatiText
      rw [htext]
    rcases ho with ⟨h1, rfl⟩ | ⟨h1, rfl⟩ <;> rcases ho' with ⟨g1, rfl⟩ | ⟨g1, rfl⟩
    · rfl
    · exact absurd (hnil.mp h1) g1
    · exact absurd (hnil.mpr g1) h1
    · exact hw

/-- C87: what C71 says about the output of the command in the formats mecab and wakati determines every character. (In the format json, the word ids are printed too.) -/
theorem c87_output {S : Settings} (hv : S.Valid) (pretty : Json → Str) (format : Format) (hf : format ≠ .json) {texts : List Str} (ha : ∀ t ∈ texts, S.Accepts t) (hs : ∀ t ∈ texts, S.Fits t)
    {outs outs' : List Str} (h : List.Forall₂ (fun t o => ∃ tokens, S.Analyzes t tokens ∧ Printed pretty tokens o format) texts outs)
    (h' : List.Forall₂ (fun t o => ∃ tokens, S.Analyzes t tokens ∧ Printed pretty tokens o format) texts outs') : outs = outs' := by
  induction h generalizing outs' with
  | nil => cases h'; rfl
  | @cons t o ts os h _ ih =>
    cases h' with
    | cons g gs =>
      obtain ⟨toks, h1, h2⟩ := h
      obtain ⟨toks', g1, g2⟩ := g
      rw [printed_same (c87_unique hv (ha t (by simp)) (hs t (by simp)) h1 g1) hf h2 g2, ih (fun x hx => ha x (by simp [hx])) (fun x hx => hs x (by simp [hx])) gs]

/-! ### Non-vacuity -/

/-- The sample settings leave `abc` of `ab猫`, and the only possible output of the command for this line in the format wakati is that of its chosen segmentation. -/
example : (E2e.settings none).Valid ∧ (E2e.settings none).Accepts "ab猫".toList ∧ (E2e.settings none).Fits "ab猫".toList ∧ ∃ out, (E2e.settings none).Analyzes "ab猫".toList out := by
  have hshort : (E2e.settings none).Fits "ab猫".toList := by
    intro stages final ss hc hss s hs
    have h : CharChain (E2e.settings none).env (E2e.settings none).charFilters "ab猫".toList [[⟨['a'], ['a']⟩, ⟨['b'], ['b']⟩, ⟨['猫'], ['c']⟩]] ['a', 'b', 'c'] := by
      refine .cons (ps := [⟨['a'], ['a']⟩, ⟨['b'], ['b']⟩, ⟨['猫'], ['c']⟩]) rfl ?_ (.nil _)
      refine .keep 'a' ['b', '猫'] _ (by simp) (.keep 'b' ['猫'] _ (by simp) (.replace ['猫'] ['c'] [] [] (by simp) (by simp) .done))
    obtain ⟨-, rfl⟩ := charChain_unique (E2e.valid none).charMappings h hc
    rw [← sentences_split hss] at hs
    have : splitInclusive isDelimiter ['a', 'b', 'c'] = [['a', 'b', 'c']] := by decide +kernel
    rw [this] at hs
    simp only [List.mem_cons, List.not_mem_nil, or_false] at hs
    subst hs
    exact costsFit_of_short (noOverflow_normal (by simp))
  refine ⟨E2e.valid none, E2e.accepts none _, hshort, ?_⟩
  obtain ⟨f, hf, -⟩ := exists_faithful
  obtain ⟨-, d, u, -, -, h3⟩ := c65_built_and_loaded (E2e.build f) Src.yadaOk (fun _ => .refl _) Dir.pieces rfl hf .unidic Lang.source Lang.contents (E2e.buildSays f) Lang.good Lang.storable
    none (by simp) Dir.out Dir.noFaults (fun _ => rfl) E2e.before (E2e.env f).load (E2e.format f) (E2e.built f)
  obtain ⟨cfs, h4⟩ := settings_make (P := fun (_ _ : CharFilterSetting) => True) (new := fun s : CharFilterSetting => s.new (E2e.settings none).env)
    (as := (E2e.settings none).charFilters) (bs := (E2e.settings none).charFilters) (.cons trivial .nil) fun s hs => by
      obtain ⟨f, hf, _⟩ := c66_char_effect_partial (E2e.settings none).env Src.yadaOk s (fun m e => (E2e.valid none).charMappings m (e ▸ hs)) (fun p r e => (E2e.valid none).patterns p r (e ▸ hs))
      exact ⟨f, hf⟩
  obtain ⟨tfs, h5⟩ := settings_make (P := fun (_ _ : TokenFilterSetting) => True) (new := fun s : TokenFilterSetting => s.new (E2e.settings none).env)
    (as := (E2e.settings none).tokenFilters) (bs := (E2e.settings none).tokenFilters) (.cons trivial (.cons trivial .nil)) fun s hs => by
      obtain ⟨f, hf, _⟩ := c66_token_effect_partial (E2e.settings none).env Src.yadaOk E2e.block s ((E2e.valid none).tags s hs) (fun m e => (E2e.valid none).tokenMappings m (e ▸ hs))
      exact ⟨f, hf⟩
  exact (c87_analyze (E2e.settings none) (E2e.valid none) Src.yadaOk E2e.block ⟨cfs, ⟨d, u, .normal⟩, tfs⟩ h4.1 h5.1 rfl (h3 .normal) "ab猫".toList (E2e.accepts none _) hshort).1

end Verif.Props
