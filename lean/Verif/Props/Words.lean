import Verif.Proofs.Words
import Verif.Props.InOrder
import Verif.Props.Parts
import Verif.Proofs.Returns
/-! Which words analyzed tokens stand for: C105. -/
namespace Verif.Props
open Verif.Model Verif.Spec

/-! ### C105 Every analyzed token stands for words of the text -/

/-- C105: let `words` be what the analysis gives without token filters. With token filters, each token stands for some of these words, and no word is used twice or out of order. All words are used if no
filter selects tokens, and the texts are the texts of the words if no filter rewrites texts. There is no condition on the dictionary and on the character filters. -/
theorem c105_words (env : FilterEnv) (tokenFilters : List TokenFilterSetting) (a : Analyzer) (ht : List.Forall₂ (fun s f => s.new env = .ok f) tokenFilters a.tokenFilters) (text : Str)
    (words out : List FToken) (hw : (Analyzer.mk a.characterFilters a.tokenizer []).analyze text = .ok words) (h : a.analyze text = .ok out) :
    ∃ groups : List (List FToken), groups.flatten.Sublist words ∧ List.Forall₂ StandsFor groups out ∧ ((∀ s ∈ tokenFilters, ¬ Drops s) → groups.flatten = words) ∧
      ((∀ s ∈ tokenFilters, ¬ Rewrites s) → List.Forall₂ (fun g t => t.text = (g.map (·.text)).flatten) groups out) := by
  unfold Analyzer.analyze at hw h
  simp only [bind_eq_ok] at hw h
  obtain ⟨st, h1, toks, h2, h3⟩ := h
  obtain ⟨st', h1', base, h2', h3'⟩ := hw
  rw [h1] at h1'
  cases h1'
  unfold Analyzer.tokens at h2 h2'
  simp only [bind_eq_ok] at h2 h2'
  obtain ⟨tmp, k1, fts, k2, k3⟩ := h2
  obtain ⟨tmp', k1', fts', k2', k3'⟩ := h2'
  rw [k1] at k1'
  cases k1'
  rw [k2] at k2'
  cases k2'
  cases k3'
  obtain ⟨c, hc⟩ := corrected_of st.tables
  rw [mapM_ok_iff] at h3 h3'
  have hone : ∀ w ∈ words, w.positionLength = 1 := by
    have := analyzed_length k1 k2
    clear k1 k2 k3 h3
    induction h3' with
    | nil => simp
    | @cons x y xs ys e1 _ ih =>
      intro w hw
      rcases List.mem_cons.mp hw with rfl | hw
      · rw [(hc _ _ e1).2.2]
        exact this x (by simp)
      · exact ih (fun f hf => this f (by simp [hf])) w hw
  obtain ⟨gs, g1, g2, g3⟩ := GroupedBy.corrected (h3'.imp fun _ _ e => hc _ _ e) (h3.imp fun _ _ e => hc _ _ e) (filters_grouped ht _ _ k3)
  refine ⟨gs, g1, ?_, fun hn => g2 fun ⟨s, hs, hd⟩ => hn s hs hd, fun hn => g3.imp fun _ _ e => e.text fun ⟨s, hs, hd⟩ => hn s hs hd⟩
  have hmem : ∀ g ∈ gs, ∀ w ∈ g, w.positionLength = 1 := fun g hg w hw => hone w (g1.subset (List.mem_flatten.mpr ⟨g, hg, hw⟩))
  clear g1 g2 h3
  induction g3 with
  | nil => exact .nil
  | @cons g t gs ts e1 _ ih =>
    refine .cons ⟨e1.ends, ?_, e1.single⟩ (ih fun g hg => hmem g (by simp [hg]))
    rw [e1.count]
    have := hmem g (by simp)
    clear hmem ih e1
    induction g with
    | nil => rfl
    | cons w g ih => rw [List.map_cons, List.sum_cons, ih fun w hw => this w (by simp [hw]), this w (by simp), List.length_cons, Nat.add_comm]

/-- C105 for configured filters: whenever the analysis returns, so does the analysis without token filters, and the tokens stand for its words. -/
theorem c105_settings (env : FilterEnv) (hy : YadaContract env.yada) (hr : RegexContract env.regex) (charFilters : List CharFilterSetting) (tokenFilters : List TokenFilterSetting)
    (hm : ∀ m, .mapping m ∈ charFilters → MappingOk m) (a : Analyzer) (hc : List.Forall₂ (fun s f => s.new env = .ok f) charFilters a.characterFilters)
    (ht : List.Forall₂ (fun s f => s.new env = .ok f) tokenFilters a.tokenFilters) (text : Str) (out : List FToken) (h : a.analyze text = .ok out) :
    ∃ words, (Analyzer.mk a.characterFilters a.tokenizer []).analyze text = .ok words ∧ ∃ groups : List (List FToken), groups.flatten.Sublist words ∧ List.Forall₂ StandsFor groups out ∧
      ((∀ s ∈ tokenFilters, ¬ Drops s) → groups.flatten = words) ∧
      ((∀ s ∈ tokenFilters, ¬ Rewrites s) → List.Forall₂ (fun g t => t.text = (g.map (·.text)).flatten) groups out) := by
  have : ∃ words, (Analyzer.mk a.characterFilters a.tokenizer []).analyze text = .ok words := by
    obtain ⟨st, hst, hbal⟩ := charFilters_return hy hr hc hm ⟨text, []⟩ (by simp)
    unfold Analyzer.analyze at h
    rw [hst, bind_ok, bind_eq_ok] at h
    obtain ⟨toks, h2, -⟩ := h
    unfold Analyzer.tokens at h2
    simp only [bind_eq_ok] at h2
    obtain ⟨tmp, k1, fts, k2, -⟩ := h2
    obtain ⟨words, hw, -⟩ := corrected_return hbal fts
    refine ⟨words, ?_⟩
    unfold Analyzer.analyze Analyzer.tokens
    rw [hst, bind_ok, k1, bind_ok, k2, bind_ok]
    exact hw
  obtain ⟨words, hw⟩ := this
  exact ⟨words, hw, c105_words env tokenFilters a ht text words out hw h⟩

/-- C96, the positions alone: they are in order without any condition, also where character filters spoil the offsets. -/
theorem c96_positions (a : Analyzer) (hf : ∀ f ∈ a.tokenFilters, ∃ env s, TokenFilterSetting.new env s = .ok f) (text : Str) (out : List FToken) (h : a.analyze text = .ok out) :
    (∀ t ∈ out, 0 < t.positionLength) ∧
      ∀ (i j : Nat) (x y : FToken), i < j → out[i]? = some x → out[j]? = some y → x.position + x.positionLength ≤ y.position := by
  unfold Analyzer.analyze at h
  simp only [bind_eq_ok] at h
  obtain ⟨st, h1, toks, h2, h3⟩ := h
  unfold Analyzer.tokens at h2
  simp only [bind_eq_ok] at h2
  obtain ⟨tmp, k1, fts, k2, k3⟩ := h2
  have hi := inOrder_iff.mpr (filters_lined _ hf fts toks k3 (analyzed_lined k1 k2))
  obtain ⟨c, hc⟩ := corrected_of st.tables
  rw [mapM_ok_iff, List.forall₂_iff_get] at h3
  obtain ⟨hlen, h3⟩ := h3
  have same : ∀ (i : Nat) (x : FToken), out[i]? = some x → ∃ x', toks[i]? = some x' ∧ x.position = x'.position ∧ x.positionLength = x'.positionLength := by
    intro i x hx
    obtain ⟨hlt, rfl⟩ := List.getElem?_eq_some_iff.mp hx
    have := (hc _ _ (h3 i (by omega) hlt)).2.2
    simp only [List.get_eq_getElem] at this
    refine ⟨toks[i], List.getElem?_eq_getElem (by omega), ?_, ?_⟩ <;> rw [this]
  refine ⟨fun t ht => ?_, fun i j x y hij hx hy => ?_⟩
  · obtain ⟨i, hti⟩ := List.getElem?_of_mem ht
    obtain ⟨x', e1, -, e3⟩ := same i t hti
    rw [e3]
    exact hi.positions x' (List.mem_of_getElem? e1)
  · obtain ⟨x', e1, e2, e3⟩ := same i x hx
    obtain ⟨y', d1, d2, -⟩ := same j y hy
    rw [e2, e3, d2]
    exact (hi.order i j x' y' hij e1 d1).2

/-- Non-vacuity of `c96_positions`: the iteration mark filter spoils offsets, and two tokens are returned. -/
example : ∃ out, Ord.marks.analyze "𠮷々。a".toList = .ok out ∧ out.map (·.position) = [0, 1] ∧ ∀ t ∈ out, 0 < t.positionLength := by
  have h : (Ord.marks.analyze "𠮷々。a".toList).toOption.map (fun out => out.map (·.position)) = some [0, 1] := by decide +kernel
  cases ho : Ord.marks.analyze "𠮷々。a".toList with
  | error e => rw [ho] at h; cases h
  | ok out =>
    rw [ho] at h
    exact ⟨out, rfl, Option.some.inj h, (c96_positions Ord.marks (by simp [Ord.marks]) _ out ho).1⟩

/-- Non-vacuity: three words in the replacement of `猫` become one token, which stands for them; the other tokens stand for one word each. -/
example : ∃ words out groups, (Analyzer.mk Ord.merging.characterFilters Ord.merging.tokenizer []).analyze "猫。犬".toList = .ok words ∧ Ord.merging.analyze "猫。犬".toList = .ok out ∧
    words.length = 5 ∧ out.length = 3 ∧ groups.flatten = words ∧ List.Forall₂ StandsFor groups out := by
  have h : ((Analyzer.mk Ord.merging.characterFilters Ord.merging.tokenizer []).analyze "猫。犬".toList).toOption.map List.length = some 5 := by decide +kernel
  have h' : (Ord.merging.analyze "猫。犬".toList).toOption.map List.length = some 3 := by decide +kernel
  cases hw : (Analyzer.mk Ord.merging.characterFilters Ord.merging.tokenizer []).analyze "猫。犬".toList with
  | error e => rw [hw] at h; cases h
  | ok words =>
    cases ho : Ord.merging.analyze "猫。犬".toList with
    | error e => rw [ho] at h'; cases h'
    | ok out =>
      rw [hw] at h
      rw [ho] at h'
      obtain ⟨gs, -, g2, g3, -⟩ := c105_words Ac.filterEnv Ord.settings.2 Ord.merging (.cons rfl (.cons rfl .nil)) _ words out hw ho
      exact ⟨words, out, gs, rfl, rfl, Option.some.inj h, Option.some.inj h', g3 (by simp [Ord.settings, Drops]), g2⟩

/-- C105 without character filters, and with token filters that only put words together: nothing of the text is lost, and the text of every token is the part of the text that its byte range names. -/
theorem c105_slices (env : FilterEnv) (tokenFilters : List TokenFilterSetting) (fs : List TokenFilter) (ht : List.Forall₂ (fun s f => s.new env = .ok f) tokenFilters fs)
    (hd : ∀ s ∈ tokenFilters, ¬ Drops s) (hr : ∀ s ∈ tokenFilters, ¬ Rewrites s) (tok : Tokenizer) (hc : Complete tok) (text : Str) (out : List FToken)
    (h : (Analyzer.mk [] tok fs).analyze text = .ok out) : (out.map (·.text)).flatten = text ∧ ∀ t ∈ out, sliceBytes text t.byteStart t.byteEnd = some t.text := by
  have hplain : ∃ toks words, tok.tokenize text = .ok toks ∧ toks.mapM (Token.analyzed tok.dictionary tok.userDictionary) = .ok words := by
    unfold Analyzer.analyze Analyzer.tokens at h
    simp only [bind_eq_ok] at h
    obtain ⟨st, h1, toks, ⟨tmp, k1, fts, k2, -⟩, -⟩ := h
    cases h1
    exact ⟨tmp, fts, k1, k2⟩
  obtain ⟨toks, words, k1, k2⟩ := hplain
  have hw : (Analyzer.mk [] tok []).analyze text = .ok words := by
    unfold Analyzer.analyze Analyzer.tokens
    simp only [List.foldlM_nil, pure_eq_ok, bind_ok]
    rw [k1, bind_ok, k2, bind_ok, bind_ok, mapM_ok_iff, List.forall₂_same]
    intros
    rfl
  obtain ⟨gs, -, g2, g3, g4⟩ := c105_words env tokenFilters (Analyzer.mk [] tok fs) ht text words out hw h
  obtain ⟨t1, t2⟩ := tiled_words k1 k2
  obtain ⟨s1, s2⟩ := groups_slices g2 (g4 hr) [] (by rw [g3 hd]; exact t1)
  rw [g3 hd, t2, c01_lossless hc k1] at s1
  rw [s1] at s2
  exact ⟨s1, s2⟩

/-- Non-vacuity: three words of `aabb` tagged `x` are put together, and the text of the compound is the part of the text in its range. -/
example : ∃ out, (Analyzer.mk [] Cf.tok [(CompoundWord.mk Tf.all .ipadic ["x,*,*,*".toList] none).apply]).analyze "aabb。猫".toList = .ok out ∧ (out.map (·.positionLength)).head? = some 3 ∧
    (out.map (·.text)).flatten = "aabb。猫".toList ∧ ∀ t ∈ out, sliceBytes "aabb。猫".toList t.byteStart t.byteEnd = some t.text := by
  have h : ((Analyzer.mk [] Cf.tok [(CompoundWord.mk Tf.all .ipadic ["x,*,*,*".toList] none).apply]).analyze "aabb。猫".toList).toOption.map (fun out => (out.map (·.positionLength)).head?) = some (some 3) := by
    decide +kernel
  cases ho : (Analyzer.mk [] Cf.tok [(CompoundWord.mk Tf.all .ipadic ["x,*,*,*".toList] none).apply]).analyze "aabb。猫".toList with
  | error e => rw [ho] at h; cases h
  | ok out =>
    rw [ho] at h
    obtain ⟨h1, h2⟩ := c105_slices Ac.filterEnv [.japaneseCompoundWord .ipadic [['x']] none] _ (.cons rfl .nil) (by simp [Drops]) (by simp [Rewrites]) Cf.tok Pt.complete _ out ho
    exact ⟨out, rfl, Option.some.inj h, h1, h2⟩

/-- C105 without compound words: the tokens are some of the words, in their order, with other texts at most; all of them if no filter selects, and unchanged if no filter rewrites. -/
theorem c105_selected (env : FilterEnv) (tokenFilters : List TokenFilterSetting) (hm : ∀ s ∈ tokenFilters, ¬ Merges s) (a : Analyzer)
    (ht : List.Forall₂ (fun s f => s.new env = .ok f) tokenFilters a.tokenFilters) (text : Str) (words out : List FToken)
    (hw : (Analyzer.mk a.characterFilters a.tokenizer []).analyze text = .ok words) (h : a.analyze text = .ok out) :
    ∃ chosen : List FToken, chosen.Sublist words ∧ List.Forall₂ (fun w t => t = { w with text := t.text }) chosen out ∧ ((∀ s ∈ tokenFilters, ¬ Drops s) → chosen = words) ∧
      ((∀ s ∈ tokenFilters, ¬ Rewrites s) → out = chosen) := by
  unfold Analyzer.analyze at hw h
  simp only [bind_eq_ok] at hw h
  obtain ⟨st, h1, toks, h2, h3⟩ := h
  obtain ⟨st', h1', base, h2', h3'⟩ := hw
  rw [h1] at h1'
  cases h1'
  unfold Analyzer.tokens at h2 h2'
  simp only [bind_eq_ok] at h2 h2'
  obtain ⟨tmp, k1, fts, k2, k3⟩ := h2
  obtain ⟨tmp', k1', fts', k2', k3'⟩ := h2'
  rw [k1] at k1'
  cases k1'
  rw [k2] at k2'
  cases k2'
  cases k3'
  obtain ⟨c, hc⟩ := corrected_of st.tables
  rw [mapM_ok_iff] at h3 h3'
  obtain ⟨ws, g1, g2, g3⟩ := KeptFrom.corrected (h3'.imp fun _ _ e => hc _ _ e) (h3.imp fun _ _ e => hc _ _ e) (filters_kept ht hm _ _ k3)
  refine ⟨ws, g1, g3.imp fun _ _ e => e.1, fun hn => g2 fun ⟨s, hs, hd⟩ => hn s hs hd, fun hn => ?_⟩
  have : List.Forall₂ (fun w t => t = w) ws out := g3.imp fun _ _ e => e.2 fun ⟨s, hs, hd⟩ => hn s hs hd
  clear g1 g2 g3 h3 k3
  induction this with
  | nil => rfl
  | cons e _ ih => rw [e, ih]

/-- Non-vacuity: five words, of which those with two letters are kept, in capitals. -/
example : ∃ words out chosen : List FToken, chosen.Sublist words ∧ words.length = 5 ∧ out.length = 1 ∧ List.Forall₂ (fun w t => t = { w with text := t.text }) chosen out := by
  have h : ((Analyzer.mk [] Cf.tok []).analyze "aabb。猫".toList).toOption.map List.length = some 5 := by decide +kernel
  have h' : ((Analyzer.mk [] Cf.tok [Model.lengthFilter (some 2) none, Model.uppercase Ac.filterEnv.toUppercase]).analyze "aabb。猫".toList).toOption.map List.length = some 1 := by decide +kernel
  cases hw : (Analyzer.mk [] Cf.tok []).analyze "aabb。猫".toList with
  | error e => rw [hw] at h; cases h
  | ok words =>
    cases ho : (Analyzer.mk [] Cf.tok [Model.lengthFilter (some 2) none, Model.uppercase Ac.filterEnv.toUppercase]).analyze "aabb。猫".toList with
    | error e => rw [ho] at h'; cases h'
    | ok out =>
      rw [hw] at h
      rw [ho] at h'
      obtain ⟨ws, g1, g2, -, -⟩ := c105_selected Ac.filterEnv [.length (some 2) none, .uppercase] (by simp [Merges])
        (Analyzer.mk [] Cf.tok [Model.lengthFilter (some 2) none, Model.uppercase Ac.filterEnv.toUppercase]) (.cons rfl (.cons rfl .nil)) _ words out hw ho
      exact ⟨words, out, ws, g1, Option.some.inj h, Option.some.inj h', g2⟩

end Verif.Props
