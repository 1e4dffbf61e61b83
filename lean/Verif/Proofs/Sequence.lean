import Verif.Props.InOrder
import Verif.Spec.Sequence
import Verif.Spec.Returns
/-! Offset tables that keep the order of offsets. -/
namespace Verif.Model
open Verif.Spec Verif.Props

def Orderly (f : CharFilter) (text : Str) : Prop :=
  ∀ new t, f text = .ok (new, t) → (text = [] → new = []) ∧ (new ≠ [] → ∃ g : Nat → Nat, (∀ a b, a ≤ b → g a ≤ g b) ∧ ∀ o, t.correct o (blen new) = .ok (g o))

theorem orderly_filtered {f : CharFilter} {text : Str} {ps : List Piece} (h : Filtered f text ps) : Orderly f text := by
  intro new t hf
  obtain ⟨t', h1, h2⟩ := h.result
  rw [h1] at hf
  cases hf
  refine ⟨fun he => ?_, fun _ => ⟨_, fun a b hab => sourceOffset_mono h.nonempty hab, h2⟩⟩
  have hc := h.cut
  rw [he] at hc
  cases ps with
  | nil => rfl
  | cons p ps =>
    have := h.nonempty p (by simp)
    simp only [source, List.flatMap_cons, List.append_eq_nil_iff] at hc
    exact absurd hc.1 this

theorem matches_src {dst : RegexMatch → Str} {o : Nat} {ms : List RegexMatch} {s : Str} {ps : List Piece} (h : Matches dst o ms s ps) (hm : ∀ m ∈ ms, m.start < m.stop) :
    ∀ p ∈ ps, p.src ≠ [] := by
  have hcop : ∀ (s : Str), ∀ p ∈ copied s, p.src ≠ [] := by
    intro s p hp
    simp only [copied, List.mem_map] at hp
    obtain ⟨c, -, rfl⟩ := hp
    simp
  induction h with
  | done => exact hcop _
  | hit o m ms gap mt r ps h1 h2 _ ih =>
    intro p hp
    rcases List.mem_append.mp hp with hp | hp
    · exact hcop _ p hp
    · rcases List.mem_cons.mp hp with rfl | hp
      · have := hm m (by simp)
        intro he
        dsimp only at he
        rw [he, blen_nil] at h2
        omega
      · exact ih (fun m' h' => hm m' (by simp [h'])) p hp

theorem orderly_of {env : FilterEnv} (hy : YadaContract env.yada) (hr : RegexContract env.regex) {s : CharFilterSetting} {f : CharFilter} (hf : s.new env = .ok f)
    (hk : KeepsOrder env s) (text : Str) : Orderly f text := by
  cases s with
  | iterationMark a b =>
    cases hf
    intro new t h
    cases h
    refine ⟨?_, fun _ => ⟨id, fun a b h => h, fun o => rfl⟩⟩
    rintro rfl
    rfl
  | mapping m =>
    unfold CharFilterSetting.new at hf
    rw [bind_eq_ok] at hf
    obtain ⟨g, hg, hf⟩ := hf
    cases hf
    rw [Mapping.new_ok hy hk] at hg
    cases hg
    obtain ⟨ps, -, h⟩ := Mapping.filtered hk text
    exact orderly_filtered h
  | unicodeNormalize kind =>
    cases hf
    exact orderly_filtered (UnicodeNormalize.filtered ⟨env.graphemes, env.normalForm kind⟩ text (hk text).1 (hk text).2)
  | regex pattern replacement =>
    simp only [CharFilterSetting.new] at hf
    split at hf
    · rename_i find hfind
      cases hf
      obtain ⟨ps, hps⟩ := hr pattern find hfind text
      have hlt := hk find hfind text
      obtain ⟨qs, hqs⟩ := Matches.other hps (dst' := fun m => expandRefs m.group replacement.length replacement)
      obtain ⟨ws, hws⟩ := Matches.other hps (dst' := fun _ => replacement)
      have hd : ∀ m ∈ find text, Expands m.group replacement (expandRefs m.group replacement.length replacement) := fun m _ => expandRefs_expands m.group _ replacement (Nat.le_refl _)
      intro new t h
      change RegexFilter.apply ⟨find, replacement⟩ text = _ at h
      have h0 := c34_text ⟨find, replacement⟩ text qs _ hd hqs
      have hnew : new = target qs := by
        obtain ⟨t', h0⟩ := h0
        rw [h0] at h
        cases h
        rfl
      refine ⟨fun he => ?_, fun hne => ?_⟩
      · have hsrc := matches_src hqs hlt
        have hc := Matches.source_eq hqs
        rw [he] at hc
        rw [hnew]
        cases qs with
        | nil => rfl
        | cons p qs =>
          have := hsrc p (by simp)
          simp only [source, List.flatMap_cons, List.append_eq_nil_iff] at hc
          exact absurd hc.1 this
      · obtain ⟨t', h1, h2⟩ := c34_table ⟨find, replacement⟩ text qs ws _ hd hqs hws (matches_src hws hlt) (hnew ▸ hne)
        rw [h1] at h
        cases h
        exact ⟨_, fun a b hab => sourceOffset_mono (matches_src hws hlt) hab, h2⟩
    · cases hf

theorem fold_orderly {fs : List CharFilter} (hall : ∀ f ∈ fs, ∀ text, Orderly f text) : ∀ (text : Str) (tables : List (OffsetTable × Nat)) (st : Filtering),
    fs.foldlM Filtering.step ⟨text, tables⟩ = .ok st → (text = [] → st.text = []) ∧ (st.text ≠ [] → ∃ new, st.tables = new ++ tables ∧ ∃ g : Nat → Nat, (∀ a b, a ≤ b → g a ≤ g b) ∧
      ∀ t : FToken, new.foldlM FToken.correctBy t = .ok (FToken.withRange t (g t.byteStart) (g t.byteEnd))) := by
  induction fs with
  | nil =>
    intro text tables st h
    cases h
    exact ⟨id, fun _ => ⟨[], rfl, id, fun _ _ h => h, fun _ => rfl⟩⟩
  | cons f fs ih =>
    intro text tables st h
    rw [List.foldlM_cons, bind_eq_ok] at h
    obtain ⟨mid, h1, h2⟩ := h
    unfold Filtering.step at h1
    rw [bind_eq_ok] at h1
    obtain ⟨⟨new, t0⟩, hf, h1⟩ := h1
    cases h1
    obtain ⟨k1, k2⟩ := hall f (by simp) text new t0 hf
    obtain ⟨i1, i2⟩ := ih (fun g hg => hall g (by simp [hg])) _ _ _ h2
    refine ⟨fun he => i1 (k1 he), fun hne => ?_⟩
    obtain ⟨g, hg1, hg2⟩ := k2 fun he => hne (i1 he)
    obtain ⟨nw, hn, g', hg1', hg2'⟩ := i2 hne
    by_cases he : t0.offsets.isEmpty
    · rw [if_pos he] at hn
      exact ⟨nw, hn, g', hg1', hg2'⟩
    · rw [if_neg he] at hn
      refine ⟨nw ++ [(t0, blen new)], by rw [hn]; simp, fun o => g (g' o), fun a b hab => hg1 _ _ (hg1' _ _ hab), fun t => ?_⟩
      rw [List.foldlM_append, hg2', bind_ok]
      simp only [List.foldlM_cons, List.foldlM_nil]
      unfold FToken.correctBy
      simp only [FToken.withRange, hg2, bind_ok, pure_eq_ok]

theorem setting_nil {env : FilterEnv} {s : TokenFilterSetting} {f : TokenFilter} (hf : s.new env = .ok f) {out : List FToken} (h : f [] = .ok out) : out = [] := by
  cases s with
  | japaneseCompoundWord kind tags newTag =>
    unfold TokenFilterSetting.new at hf
    rw [bind_eq_ok] at hf
    obtain ⟨g, -, hf⟩ := hf
    cases hf
    cases h
    rfl
  | japaneseKeepTags tags =>
    unfold TokenFilterSetting.new at hf
    rw [bind_eq_ok] at hf
    obtain ⟨g, -, hf⟩ := hf
    cases hf
    cases h
    rfl
  | japaneseStopTags tags =>
    unfold TokenFilterSetting.new at hf
    rw [bind_eq_ok] at hf
    obtain ⟨g, -, hf⟩ := hf
    cases hf
    cases h
    rfl
  | japaneseNumber tags =>
    unfold TokenFilterSetting.new at hf
    rw [bind_eq_ok] at hf
    obtain ⟨g, -, hf⟩ := hf
    cases hf
    cases h
    rfl
  | mapping m =>
    unfold TokenFilterSetting.new at hf
    rw [bind_eq_ok] at hf
    obtain ⟨g, -, hf⟩ := hf
    cases hf
    cases h
    rfl
  | _ => cases hf; cases h; rfl

theorem filters_nil : ∀ (fs : List TokenFilter), (∀ f ∈ fs, ∃ env s, TokenFilterSetting.new env s = .ok f) → ∀ (out : List FToken),
    fs.foldlM (fun ts f => f ts) [] = .ok out → out = [] := by
  intro fs
  induction fs with
  | nil => intro _ out h; cases h; rfl
  | cons f fs ih =>
    intro hs out h
    rw [List.foldlM_cons, bind_eq_ok] at h
    obtain ⟨mid, h1, h2⟩ := h
    obtain ⟨env, s, hf⟩ := hs f (by simp)
    cases setting_nil hf h1
    exact ih (fun g hg => hs g (by simp [hg])) out h2

theorem tokens_nil {a : Analyzer} (hf : ∀ f ∈ a.tokenFilters, ∃ env s, TokenFilterSetting.new env s = .ok f) {out : List FToken} (h : a.tokens [] = .ok out) : out = [] := by
  unfold Analyzer.tokens at h
  simp only [bind_eq_ok] at h
  obtain ⟨tmp, h1, fts, h2, h3⟩ := h
  obtain ⟨segs, hs, rfl⟩ := tokenize_spec h1
  cases hs
  cases h2
  exact filters_nil _ hf out h3

end Verif.Model
