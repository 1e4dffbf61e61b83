import Verif.Proofs.Afterwards
import Verif.Props.Words
import Verif.Props.Filtering
import Verif.Props.Returns

/-!
C107: token filters can be applied afterwards.
-/
namespace Verif.Props
open Verif.Model Verif.Spec

/-- C107: applying the configured token filters to the result of an analysis gives what an analysis with these filters gives: the same tokens, the same errors, the same panics. -/
theorem c107_afterwards (env : FilterEnv) (tokenFilters : List TokenFilterSetting) (a : Analyzer) (ht : List.Forall₂ (fun s f => s.new env = .ok f) tokenFilters a.tokenFilters) (text : Str)
    (words : List FToken) (hw : (Analyzer.mk a.characterFilters a.tokenizer []).analyze text = .ok words) :
    a.analyze text = a.tokenFilters.foldlM (fun ts f => f ts) words := by
  unfold Analyzer.analyze at hw
  simp only [bind_eq_ok] at hw
  obtain ⟨st, h1, base, h2, h3⟩ := hw
  unfold Analyzer.tokens at h2
  simp only [bind_eq_ok] at h2
  obtain ⟨tmp, k1, fts, k2, k3⟩ := h2
  cases k3
  rw [mapM_ok_iff] at h3
  have hc : List.Forall₂ (Corrected (backBy st.tables)) base words := h3.imp fun _ _ e => (correctBy_iff _ _ _).mp e
  clear h3
  have hb : ∀ t t' : FToken, Corrected (backBy st.tables) t t' → t' = relocated (fun o => (backBy st.tables o).toOption.getD 0) t := by
    rintro t t' ⟨e1, e2, e3⟩
    rw [e3]
    unfold relocated
    dsimp only
    rw [e1, e2]
    rfl
  have hwords : words = base.map (relocated fun o => (backBy st.tables o).toOption.getD 0) := by
    clear k2
    induction hc with
    | nil => rfl
    | cons e _ ih => rw [List.map_cons, ← ih, hb _ _ e]
  have hall : ∀ w ∈ base, ∃ w', Corrected (backBy st.tables) w w' := by
    clear k2 hwords
    induction hc with
    | nil => simp
    | cons e _ ih =>
      intro w hw
      rcases List.mem_cons.mp hw with rfl | hw
      · exact ⟨_, e⟩
      · exact ih w hw
  rw [hwords, filters_relocated ht]
  unfold Analyzer.analyze Analyzer.tokens
  rw [h1, bind_ok, k1, bind_ok, k2, bind_ok]
  cases hf : a.tokenFilters.foldlM (fun ts f => f ts) base with
  | error e => rfl
  | ok toks =>
    obtain ⟨gs, g1, -, g3⟩ := filters_grouped ht _ _ hf
    have htoks : ∀ t ∈ toks, ∃ t', Corrected (backBy st.tables) t t' := by
      have hg : ∀ g ∈ gs, ∀ w ∈ g, ∃ w', Corrected (backBy st.tables) w w' := fun g hg w hw => hall w (g1.subset (List.mem_flatten.mpr ⟨g, hg, hw⟩))
      clear g1 hf
      induction g3 with
      | nil => simp
      | @cons g t gs ts e _ ih =>
        intro t' ht'
        rcases List.mem_cons.mp ht' with rfl | ht'
        · obtain ⟨f, l, a1, a2, a3, a4, -⟩ := e.ends
          obtain ⟨f', b1, -, -⟩ := hg g (by simp) f (List.mem_of_mem_head? a1)
          obtain ⟨l', -, b2, -⟩ := hg g (by simp) l (List.mem_of_getLast? a2)
          exact ⟨{ t' with byteStart := f'.byteStart, byteEnd := l'.byteEnd }, by rw [a3]; exact b1, by rw [a4]; exact b2, rfl⟩
        · exact ih (fun g hg' => hg g (by simp [hg'])) t' ht'
    simp only [bind_ok, pure_eq_ok]
    rw [mapM_ok_iff, List.forall₂_map_right_iff, List.forall₂_same]
    intro t ht'
    obtain ⟨t', e⟩ := htoks t ht'
    rw [← hb _ _ e]
    exact (correctBy_iff _ _ _).mpr e

/-- C107: the filters can be applied in two stages: the analysis with the filters `fs` and `gs` is that with `fs`, whose tokens are then given to `gs`. -/
theorem c107_stages (env : FilterEnv) (ss ss' : List TokenFilterSetting) (chars : List CharFilter) (tok : Tokenizer) (fs gs : List TokenFilter)
    (hf : List.Forall₂ (fun s f => s.new env = .ok f) ss fs) (hg : List.Forall₂ (fun s f => s.new env = .ok f) ss' gs) (text : Str) (words : List FToken)
    (hw : (Analyzer.mk chars tok []).analyze text = .ok words) :
    (Analyzer.mk chars tok (fs ++ gs)).analyze text = (do
      let mid ← (Analyzer.mk chars tok fs).analyze text
      gs.foldlM (fun ts f => f ts) mid) := by
  rw [c107_afterwards env (ss ++ ss') (Analyzer.mk chars tok (fs ++ gs)) (List.rel_append hf hg) text words hw, c107_afterwards env ss (Analyzer.mk chars tok fs) hf text words hw]
  dsimp only
  rw [List.foldlM_append]

/-- C107 for configured character filters: the equation holds for every text, also if the analysis fails. `env` holds the external libraries. -/
theorem c107_configured (env : FilterEnv) (hy : YadaContract env.yada) (hr : RegexContract env.regex) (characterFilters : List CharFilterSetting) (tokenFilters : List TokenFilterSetting) (a : Analyzer)
    (hc : List.Forall₂ (fun s f => s.new env = .ok f) characterFilters a.characterFilters) (hm : ∀ m, .mapping m ∈ characterFilters → MappingOk m)
    (ht : List.Forall₂ (fun s f => s.new env = .ok f) tokenFilters a.tokenFilters) (text : Str) :
    a.analyze text = (do
      let words ← (Analyzer.mk a.characterFilters a.tokenizer []).analyze text
      a.tokenFilters.foldlM (fun ts f => f ts) words) := by
  cases hw : (Analyzer.mk a.characterFilters a.tokenizer []).analyze text with
  | ok words => exact c107_afterwards env tokenFilters a ht text words hw
  | error e =>
    obtain ⟨st, h1, hbal⟩ := charFilters_return hy hr hc hm ⟨text, []⟩ (by simp)
    unfold Analyzer.analyze Analyzer.tokens at hw ⊢
    rw [h1, bind_ok] at hw ⊢
    cases k1 : a.tokenizer.tokenize st.text with
    | error e' =>
      dsimp only at hw
      rw [k1] at hw
      cases hw
      rfl
    | ok tmp =>
      dsimp only at hw
      rw [k1, bind_ok] at hw
      rw [bind_ok]
      cases k2 : tmp.mapM (Token.analyzed a.tokenizer.dictionary a.tokenizer.userDictionary) with
      | error e' =>
        rw [k2] at hw
        cases hw
        rfl
      | ok fts =>
        obtain ⟨out, ho, -⟩ := corrected_return hbal fts
        rw [k2, bind_ok, List.foldlM_nil, pure_eq_ok, bind_ok, ho] at hw
        cases hw

/-- Non-vacuity: with an offset table that moves offsets and a compound word filter, the five words of the analysis without token filters become three tokens. -/
example : ∃ words out, (Analyzer.mk Ord.merging.characterFilters Ord.merging.tokenizer []).analyze "猫。犬".toList = .ok words ∧ Ord.merging.tokenFilters.foldlM (fun ts f => f ts) words = .ok out ∧
    words.length = 5 ∧ out.length = 3 := by
  have h : ((Analyzer.mk Ord.merging.characterFilters Ord.merging.tokenizer []).analyze "猫。犬".toList).toOption.map List.length = some 5 := by decide +kernel
  have h' : (Ord.merging.analyze "猫。犬".toList).toOption.map List.length = some 3 := by decide +kernel
  cases hw : (Analyzer.mk Ord.merging.characterFilters Ord.merging.tokenizer []).analyze "猫。犬".toList with
  | error e => rw [hw] at h; cases h
  | ok words =>
    have he := c107_afterwards Ac.filterEnv Ord.settings.2 Ord.merging (.cons rfl (.cons rfl .nil)) _ words hw
    cases ho : Ord.merging.analyze "猫。犬".toList with
    | error e => rw [ho] at h'; cases h'
    | ok out =>
      rw [hw] at h
      rw [ho] at h'
      exact ⟨words, out, rfl, by rw [← he, ho], Option.some.inj h, Option.some.inj h'⟩

/-- Non-vacuity of the second theorem: the length filter first, the uppercase filter afterwards. -/
example : ∃ mid out, (Analyzer.mk [] Cf.tok [Model.lengthFilter (some 2) none]).analyze "aabb。猫".toList = .ok mid ∧ Model.uppercase Ac.filterEnv.toUppercase mid = .ok out ∧
    (Analyzer.mk [] Cf.tok [Model.lengthFilter (some 2) none, Model.uppercase Ac.filterEnv.toUppercase]).analyze "aabb。猫".toList = .ok out ∧ out.length = 1 := by
  have h : ((Analyzer.mk [] Cf.tok []).analyze "aabb。猫".toList).toOption.map List.length = some 5 := by decide +kernel
  have h' : ((Analyzer.mk [] Cf.tok [Model.lengthFilter (some 2) none, Model.uppercase Ac.filterEnv.toUppercase]).analyze "aabb。猫".toList).toOption.map List.length = some 1 := by decide +kernel
  cases hw : (Analyzer.mk [] Cf.tok []).analyze "aabb。猫".toList with
  | error e => rw [hw] at h; cases h
  | ok words =>
    have he := c107_stages Ac.filterEnv [.length (some 2) none] [.uppercase] [] Cf.tok [Model.lengthFilter (some 2) none] [Model.uppercase Ac.filterEnv.toUppercase]
      (.cons rfl .nil) (.cons rfl .nil) _ words hw
    rw [List.singleton_append] at he
    cases ho : (Analyzer.mk [] Cf.tok [Model.lengthFilter (some 2) none, Model.uppercase Ac.filterEnv.toUppercase]).analyze "aabb。猫".toList with
    | error e => rw [ho] at h'; cases h'
    | ok out =>
      rw [ho] at h' he
      obtain ⟨mid, m1, m2⟩ := (bind_eq_ok ..).mp he.symm
      rw [List.foldlM_cons, bind_eq_ok] at m2
      obtain ⟨o, m2, m3⟩ := m2
      cases m3
      exact ⟨mid, _, m1, m2, rfl, Option.some.inj h'⟩

/-- Non-vacuity of the theorem for configured filters: two character filters, and the number filter, which also panics afterwards. -/
example : ∃ cs, List.Forall₂ (fun s f => s.new Ret.env = .ok f) Ret.charFilters cs ∧ (∀ text, (Analyzer.mk cs Ret.tok [japaneseNumber none]).analyze text = (do
      let words ← (Analyzer.mk cs Ret.tok []).analyze text
      [japaneseNumber none].foldlM (fun ts f => f ts) words)) ∧
    ∃ words, (Analyzer.mk [] Ret.tok []).analyze "二十日".toList = .ok words ∧ japaneseNumber none words = .error .panic := by
  obtain ⟨cs, hc, -⟩ := settings_make (P := fun (_ : CharFilterSetting) _ => True) (new := CharFilterSetting.new Ret.env) (as := Ret.charFilters) (bs := Ret.charFilters)
    (.cons trivial (.cons trivial .nil)) (by
      simp only [Ret.charFilters, List.mem_cons, List.not_mem_nil, or_false, forall_eq_or_imp, forall_eq]
      exact ⟨⟨_, rfl⟩, _, rfl⟩)
  have h : TokenFilterSetting.new Ret.env (.japaneseNumber none) = .ok (japaneseNumber none) := rfl
  refine ⟨cs, hc, fun text => c107_configured Ret.env Src.yadaOk Ret.regex Ret.charFilters [.japaneseNumber none] ⟨cs, Ret.tok, [japaneseNumber none]⟩ hc Ret.mappings (.cons h .nil) text, ?_⟩
  have hw : ((Analyzer.mk [] Ret.tok []).analyze "二十日".toList).toOption.isSome = true := by decide +kernel
  cases ho : (Analyzer.mk [] Ret.tok []).analyze "二十日".toList with
  | error e => rw [ho] at hw; cases hw
  | ok words =>
    refine ⟨words, rfl, ?_⟩
    have he := c107_afterwards Ret.env [.japaneseNumber none] ⟨[], Ret.tok, [japaneseNumber none]⟩ (.cons h .nil) _ words ho
    rw [c101_number_fails.2, List.foldlM_cons] at he
    cases hn : japaneseNumber none words with
    | error e => rw [hn] at he; cases he; rfl
    | ok o => rw [hn] at he; cases he

end Verif.Props
