import Verif.Proofs.Parts
import Verif.Props.InOrder
/-! Analyzing a text in parts: C99. -/
namespace Verif.Props
open Verif.Model Verif.Spec

/-! ### C99 A text can be analyzed sentence by sentence -/

/-- C99: the analysis of a text is the analysis of its first part, which ends in a delimiter, followed by the analysis of the rest with the bytes and words before it added; it succeeds exactly if both
do. This is so for every complete dictionary, all character filters that treat the two parts separately, and all token filters that make no compound word across the border. -/
theorem c99_parts_partial (env : FilterEnv) (settings : List TokenFilterSetting) (a : Analyzer) (ht : List.Forall₂ (fun s f => s.new env = .ok f) settings a.tokenFilters)
    (hcomplete : Complete a.tokenizer) (x y : Str) (d : Char) (hd : d ∈ delimiters) (hcut : CutApart d a.characterFilters (x ++ [d]) y)
    (hapart : ∀ left right, (Analyzer.mk a.characterFilters a.tokenizer []).analyze (x ++ [d]) = .ok left → (Analyzer.mk a.characterFilters a.tokenizer []).analyze y = .ok right →
      Apart env settings left right) (out : List FToken) :
    a.analyze (x ++ [d] ++ y) = .ok out ↔ ∃ words first rest, (Analyzer.mk a.characterFilters a.tokenizer []).analyze (x ++ [d]) = .ok words ∧ a.analyze (x ++ [d]) = .ok first ∧
      a.analyze y = .ok rest ∧ out = first ++ rest.map (moved (blen (x ++ [d])) words.length) := by
  obtain ⟨s1, s2, s, f1, f2, hp⟩ := chain_parts hcut
  exact analyze_parts hp hcomplete hd ht hapart out

/-- C99: mappings that neither concern the delimiter nor remove text treat any two parts separately. -/
theorem c99_mappings (env : FilterEnv) (hy : YadaContract env.yada) (mappings : List StrMap) (filters : List CharFilter)
    (hc : List.Forall₂ (fun m f => (CharFilterSetting.mapping m).new env = .ok f) mappings filters) (hok : ∀ m ∈ mappings, MappingOk m) (d : Char)
    (hkeys : ∀ m ∈ mappings, ∀ k v, (k, v) ∈ m → d ∉ k) (hvalues : ∀ m ∈ mappings, ∀ k v, (k, v) ∈ m → v ≠ []) (x y : Str) : CutApart d filters (x ++ [d]) y :=
  mappings_apart hy hc hok hkeys hvalues _ _ (by simp)

/-- C99: so does normalization if no grapheme cluster reaches across the border and no normal form is empty. -/
theorem c99_normalize (d : Char) (f : UnicodeNormalize) (fs : List CharFilter) (left right : Str) (hl : (f.graphemes left).flatten = left) (hr : (f.graphemes right).flatten = right)
    (hg : f.graphemes (left ++ right) = f.graphemes left ++ f.graphemes right) (hne : ∀ g ∈ f.graphemes (left ++ right), g ≠ []) (hn : ∀ g, f.normalForm g = [] → g = [])
    (hrest : CutApart d fs ((f.graphemes left).map f.normalForm).flatten ((f.graphemes right).map f.normalForm).flatten) : CutApart d (f.filter :: fs) left right :=
  normalize_apart f hl hr hg hne hn hrest

/-- C99: so does a regular expression with a literal replacement if the matches in the text are those in the parts and none is empty. -/
theorem c99_regex (d : Char) (f : RegexFilter) (fs : List CharFilter) (left right : Str) (ps qs : List Piece) (hlit : '$' ∉ f.replacement) (hr : f.replacement ≠ [])
    (hp : Matches (fun _ => f.replacement) 0 (f.findIter left) left ps) (hq : Matches (fun _ => f.replacement) 0 (f.findIter right) right qs) (hne : ∀ p ∈ ps ++ qs, p.src ≠ [])
    (hm : f.findIter (left ++ right) = f.findIter left ++ (f.findIter right).map (movedMatch (blen left))) (hrest : CutApart d fs (target ps) (target qs)) :
    CutApart d (f.filter :: fs) left right :=
  regex_apart f hlit hr hp hq hne hm hrest

/-- C99 without conditions on the texts: mappings, and no filter for compound words. -/
theorem c99_no_compound_partial (env : FilterEnv) (hy : YadaContract env.yada) (mappings : List StrMap) (settings : List TokenFilterSetting) (a : Analyzer)
    (hc : List.Forall₂ (fun m f => (CharFilterSetting.mapping m).new env = .ok f) mappings a.characterFilters) (hok : ∀ m ∈ mappings, MappingOk m)
    (ht : List.Forall₂ (fun s f => s.new env = .ok f) settings a.tokenFilters) (hcomplete : Complete a.tokenizer) (x y : Str) (d : Char) (hd : d ∈ delimiters)
    (hkeys : ∀ m ∈ mappings, ∀ k v, (k, v) ∈ m → d ∉ k) (hvalues : ∀ m ∈ mappings, ∀ k v, (k, v) ∈ m → v ≠ [])
    (hno : ∀ kind tags newTag, .japaneseCompoundWord kind tags newTag ∉ settings) (out : List FToken) :
    a.analyze (x ++ [d] ++ y) = .ok out ↔ ∃ words first rest, (Analyzer.mk a.characterFilters a.tokenizer []).analyze (x ++ [d]) = .ok words ∧ a.analyze (x ++ [d]) = .ok first ∧
      a.analyze y = .ok rest ∧ out = first ++ rest.map (moved (blen (x ++ [d])) words.length) := by
  refine c99_parts_partial env settings a ht hcomplete x y d hd (c99_mappings env hy mappings _ hc hok d hkeys hvalues x y) (fun left right h1 h2 => ?_) out
  clear ht h1 h2
  induction settings generalizing left right with
  | nil => trivial
  | cons s settings ih =>
    exact ⟨fun kind tags newTag hs => absurd (by simp [hs]) (hno kind tags newTag), fun f l r _ _ _ => ih (fun kind tags newTag h => hno kind tags newTag (by simp [h])) l r⟩

/-- C99 without conditions: every analyzer with filters from a configuration and a complete dictionary. -/
def AlwaysInParts : Prop :=
  ∀ (a : Analyzer), (∀ f ∈ a.characterFilters, ∃ env s, CharFilterSetting.new env s = .ok f) → (∀ f ∈ a.tokenFilters, ∃ env s, TokenFilterSetting.new env s = .ok f) →
    Complete a.tokenizer → ∀ (x y : Str) (d : Char), d ∈ delimiters → ∀ words first rest, (Analyzer.mk a.characterFilters a.tokenizer []).analyze (x ++ [d]) = .ok words →
      a.analyze (x ++ [d]) = .ok first → a.analyze y = .ok rest → a.analyze (x ++ [d] ++ y) = .ok (first ++ rest.map (moved (blen (x ++ [d])) words.length))

namespace Pt
theorem complete : Complete Cf.tok := by
  intro c
  refine ⟨[0], Sample.lookup c, by simp, ?_⟩
  simp only [List.mem_singleton, forall_eq]
  exact ⟨⟨_, rfl⟩, [0], rfl, 0, by simp, _, rfl⟩

/-- Unknown words are merged. -/
def merging : Analyzer := ⟨[], Cf.tok, [(CompoundWord.mk Tf.all .ipadic ["UNK,*,*,*".toList] none).apply]⟩

/-- `猫` is removed from the text. -/
def removing : Analyzer := ⟨[Cf.f.filter], Cf.tok, []⟩

/-- What is observed of a result. -/
def spans (r : R (List FToken)) : Option (List (Str × Nat × Nat)) := r.toOption.map fun out => out.map fun t => (t.text, t.byteStart, t.byteEnd)
end Pt

/-- C99 is violated by compound words: with a filter that merges unknown words, the delimiter `。` and the word `犬` after it become one token. -/
theorem c99_compound_fails : Pt.spans (Pt.merging.analyze "。".toList) = some [("。".toList, 0, 3)] ∧ Pt.spans (Pt.merging.analyze "犬".toList) = some [("犬".toList, 0, 3)] ∧
    Pt.spans (Pt.merging.analyze "。犬".toList) = some [("。犬".toList, 0, 6)] ∧ ¬ AlwaysInParts := by
  have h1 : Pt.spans (Pt.merging.analyze "。".toList) = some [("。".toList, 0, 3)] := by decide +kernel
  have h2 : Pt.spans (Pt.merging.analyze "犬".toList) = some [("犬".toList, 0, 3)] := by decide +kernel
  have h3 : Pt.spans (Pt.merging.analyze "。犬".toList) = some [("。犬".toList, 0, 6)] := by decide +kernel
  refine ⟨h1, h2, h3, fun hall => ?_⟩
  cases e0 : (Analyzer.mk [] Cf.tok []).analyze ([] ++ ['。']) with
  | error e =>
    have : Pt.spans ((Analyzer.mk [] Cf.tok []).analyze ([] ++ ['。'])) = some [("。".toList, 0, 3)] := by decide +kernel
    rw [e0] at this; cases this
  | ok words =>
    cases e1 : Pt.merging.analyze "。".toList with
    | error e => rw [e1] at h1; cases h1
    | ok first =>
      cases e2 : Pt.merging.analyze "犬".toList with
      | error e => rw [e2] at h2; cases h2
      | ok rest =>
        have := hall Pt.merging (by simp [Pt.merging]) (fun f hf => ?_) Pt.complete [] "犬".toList '。' (by decide) words first rest e0 e1 e2
        · rw [show ([] ++ ['。'] ++ "犬".toList : Str) = "。犬".toList from rfl] at this
          rw [this] at h3
          rw [e1] at h1
          rw [e2] at h2
          simp only [Pt.spans, Except.toOption, Option.map_some, Option.some.injEq] at h1 h2 h3
          have := congrArg List.length h3
          have l1 := congrArg List.length h1
          have l2 := congrArg List.length h2
          simp at this l1 l2
          omega
        · simp only [Pt.merging, List.mem_singleton] at hf
          exact ⟨Ac.filterEnv, .japaneseCompoundWord .ipadic ["UNK".toList] none, by rw [hf]; rfl⟩

/-- C99 is violated by mappings that remove text: if `猫` is removed, the token `。` before it has the bytes 1 to 4 in `b。`, but the bytes 1 to 7 in `b。猫b`. -/
theorem c99_removed_fails : Pt.spans (Pt.removing.analyze "b。".toList) = some [("b".toList, 0, 1), ("。".toList, 1, 4)] ∧
    Pt.spans (Pt.removing.analyze "b。猫b".toList) = some [("b".toList, 0, 1), ("。".toList, 1, 7), ("b".toList, 7, 8)] := by
  constructor <;> decide +kernel

/-- C99 is violated by the iteration mark filter: in `。々` the mark repeats the delimiter before it, although alone it stays as it is. -/
theorem c99_iteration_mark_fails : Pt.spans (Ord.marks.analyze "々".toList) = some [("々".toList, 0, 3)] ∧
    Pt.spans (Ord.marks.analyze "。々".toList) = some [("。".toList, 0, 3), ("。".toList, 3, 6)] := by
  constructor <;> decide +kernel

/-- Non-vacuity of `c99_normalize` and `c99_regex`: the filters work character by character. -/
example : CutApart '。' [(UnicodeNormalize.mk (fun s => s.map ([·])) fun g => if g = ['ａ'] then ['a'] else g).filter] "ａ。".toList "ａ".toList :=
  c99_normalize '。' _ [] _ _ (by decide) (by decide) (by simp) (by simp) (fun g h => by
    dsimp only at h
    split at h
    · cases h
    · exact h) (.nil (by decide))

example : CutApart '。' [(RegexFilter.mk (fun s => if s = "a。".toList ∨ s = "a".toList then [⟨0, 1, fun _ => []⟩] else [⟨0, 1, fun _ => []⟩, ⟨4, 5, fun _ => []⟩]) ['b']).filter] "a。".toList "a".toList :=
  c99_regex '。' _ [] _ _ [⟨['a'], ['b']⟩, ⟨['。'], ['。']⟩] [⟨['a'], ['b']⟩] (by decide) (by decide) (by
      dsimp only
      rw [if_pos (by decide)]
      exact .hit 0 _ [] [] ['a'] ['。'] _ rfl rfl (.done 1 ['。']))
    (by
      dsimp only
      rw [if_pos (by decide)]
      exact .hit 0 _ [] [] ['a'] [] _ rfl rfl (.done 1 []))
    (by simp) (by
      dsimp only
      rw [if_neg (by decide), if_pos (by decide), if_pos (by decide)]
      rfl) (.nil (by decide))

namespace Pt
/-- A mapping, a filter that removes words, and a filter for compound words. -/
def settings : List TokenFilterSetting := [.stopWords [['a']], .japaneseCompoundWord .ipadic [['x']] none]
def both : Analyzer := ⟨[Cf.growFilter.filter], Cf.tok, [Model.stopWords [['a']], (CompoundWord.mk Tf.all .ipadic ["x,*,*,*".toList] none).apply]⟩

/-- The words of `猫。`. -/
def list : List FToken := [⟨['a'], 0, 1, 0, 1, ⟨0, true⟩, [['x']]⟩, ⟨['a', 'b'], 1, 2, 1, 1, ⟨1, true⟩, [['x']]⟩, ⟨['b'], 2, 3, 2, 1, ⟨2, true⟩, [['x']]⟩,
  ⟨['。'], 3, 6, 3, 1, ⟨4294967295, true⟩, ["UNK".toList]⟩]

theorem words : (Analyzer.mk [Cf.growFilter.filter] Cf.tok []).analyze (['猫'] ++ ['。']) = .ok list := by decide +kernel
end Pt

/-- Non-vacuity: in `猫。猫。` the words `ab` and `b` of each `猫` are merged, and the second part is moved by six bytes and by the four words of the first, of which two are left. -/
example : ∃ out, Pt.both.analyze "猫。猫。".toList = .ok out ∧ out.map (fun t => (t.text, t.byteStart, t.position)) =
      [("abb".toList, 1, 1), ("。".toList, 3, 3), ("abb".toList, 7, 5), ("。".toList, 9, 7)] ∧
    ∃ words first rest, (Analyzer.mk [Cf.growFilter.filter] Cf.tok []).analyze "猫。".toList = .ok words ∧ Pt.both.analyze "猫。".toList = .ok first ∧ Pt.both.analyze "猫。".toList = .ok rest ∧
      words.length = 4 ∧ out = first ++ rest.map (moved 6 4) := by
  have h : (Pt.both.analyze "猫。猫。".toList).toOption.map (fun out => out.map (fun t => (t.text, t.byteStart, t.position))) =
      some [("abb".toList, 1, 1), ("。".toList, 3, 3), ("abb".toList, 7, 5), ("。".toList, 9, 7)] := by decide +kernel
  have hw : (((Analyzer.mk [Cf.growFilter.filter] Cf.tok []).analyze "猫。".toList).toOption.map List.length) = some 4 := by decide +kernel
  cases ho : Pt.both.analyze "猫。猫。".toList with
  | error e => rw [ho] at h; cases h
  | ok out =>
    rw [ho] at h
    simp only [Except.toOption, Option.map_some, Option.some.injEq] at h
    refine ⟨out, rfl, h, ?_⟩
    have hapart : ∀ left right, (Analyzer.mk [Cf.growFilter.filter] Cf.tok []).analyze (['猫'] ++ ['。']) = .ok left →
        (Analyzer.mk [Cf.growFilter.filter] Cf.tok []).analyze "猫。".toList = .ok right → Apart Ac.filterEnv Pt.settings left right := by
      intro left right hl hr
      rw [Pt.words] at hl
      cases hl
      refine ⟨fun _ _ _ h => (by cases h), fun f left' right' hf hl' _ => ⟨fun kind tags newTag h a b ha _ hab => ?_, fun _ _ _ _ _ _ => trivial⟩⟩
      cases hf
      cases h
      have he : left' = [⟨['a', 'b'], 1, 2, 1, 1, ⟨1, true⟩, [['x']]⟩, ⟨['b'], 2, 3, 2, 1, ⟨2, true⟩, [['x']]⟩, ⟨['。'], 3, 6, 3, 1, ⟨4294967295, true⟩, ["UNK".toList]⟩] := by
        have : Model.stopWords [['a']] Pt.list = .ok [⟨['a', 'b'], 1, 2, 1, 1, ⟨1, true⟩, [['x']]⟩, ⟨['b'], 2, 3, 2, 1, ⟨2, true⟩, [['x']]⟩,
          ⟨['。'], 3, 6, 3, 1, ⟨4294967295, true⟩, ["UNK".toList]⟩] := by decide +kernel
        rw [this] at hl'
        cases hl'
        rfl
      subst he
      cases ha
      obtain ⟨⟨tag, ht, parts, hp, he⟩, -⟩ := hab
      rw [List.mem_singleton] at ht
      subst ht
      rw [← hp.split] at he
      revert he
      decide +kernel
    obtain ⟨words, first, rest, h1, h2, h3, h4⟩ := (c99_parts_partial Ac.filterEnv Pt.settings Pt.both (.cons rfl (.cons rfl .nil)) Pt.complete ['猫'] "猫。".toList '。' (by decide)
      (c99_mappings Ac.filterEnv Src.yadaOk [Cf.grow] _ (.cons (by show (Mapping.new Src.yada Cf.grow >>= _) = _; rw [Mapping.new_ok Src.yadaOk Cf.growOk]; rfl) .nil) (by simp [Cf.growOk]) '。'
        (by simp [Cf.grow]) (by simp [Cf.grow]) _ _) hapart out).mp ho
    have hlen : words.length = 4 := by
      rw [show (['猫'] ++ ['。'] : Str) = "猫。".toList from rfl, show Pt.both.characterFilters = [Cf.growFilter.filter] from rfl, show Pt.both.tokenizer = Cf.tok from rfl] at h1
      rw [h1] at hw
      simpa [Except.toOption] using hw
    exact ⟨words, first, rest, h1, h2, h3, hlen, by rw [h4, hlen]; rfl⟩

end Verif.Props
