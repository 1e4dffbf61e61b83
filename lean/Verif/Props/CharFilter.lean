import Verif.Proofs.Analyzer
import Verif.Props.Sample
import Verif.Props.Builder
/-! Properties of the character filters: C31-C38. -/
namespace Verif.Props
open Verif.Model Verif.Spec

namespace Cf
/-- `ab` → `x` (shrinks), `a` → `yyyy` (grows), `猫` → nothing, `abc` → `猫猫`. -/
def m : StrMap := [(['a', 'b'], ['x']), (['a'], ['y', 'y', 'y', 'y']), (['猫'], []), (['a', 'b', 'c'], ['猫', '猫'])]

theorem ok : MappingOk m where
  nonempty := by simp [m]
  distinct := by decide
  keys := by
    intro k v h
    simp only [m, List.mem_cons, Prod.mk.injEq, List.not_mem_nil, or_false] at h
    rcases h with ⟨rfl, _⟩ | ⟨rfl, _⟩ | ⟨rfl, _⟩ | ⟨rfl, _⟩ <;> decide
  size := by decide

def f : Mapping := ⟨m, ⟨Mapping.keyset m⟩⟩

/-- `猫abcabzad` is cut into `猫`, `abc`, `ab`, `z`, `a`, `d`. -/
def text : Str := ['猫', 'a', 'b', 'c', 'a', 'b', 'z', 'a', 'd']
def pieces : List Piece :=
  [⟨['猫'], []⟩, ⟨['a', 'b', 'c'], ['猫', '猫']⟩, ⟨['a', 'b'], ['x']⟩, ⟨['z'], ['z']⟩, ⟨['a'], ['y', 'y', 'y', 'y']⟩, ⟨['d'], ['d']⟩]
end Cf

/-! ### C31 Mapping character filter is leftmost-longest replacement -/

/-- C31: a mapping filter can be built from every usable mapping; on every text it returns (no error, panic or endless loop) the text in which, scanning from the left, the longest
matching key is replaced by its value and a character is kept if no key matches. There is only one such cutting of the text. -/
theorem c31_longest_match {yada : DaBuilder} (hy : YadaContract yada) {m : StrMap} (hm : MappingOk m) :
    ∃ f, Mapping.new yada m = .ok f ∧ ∀ text, ∃ ps t, LongestMatch m text ps ∧ source ps = text ∧ f.apply text = .ok (target ps, t) ∧
      ∀ qs, LongestMatch m text qs → qs = ps := by
  refine ⟨_, Mapping.new_ok hy hm, fun text => ?_⟩
  obtain ⟨ps, t, h1, h2, _, _, h5⟩ := Mapping.apply_spec hm text
  exact ⟨ps, t, h2, h5, h1, fun qs hq => LongestMatch.unique hm hq h2⟩

/-- Non-vacuity: a mapping with overlapping keys; `abc` wins over `ab` and `a`. -/
example : MappingOk Cf.m ∧ YadaContract Src.yada ∧ (do return (← Cf.f.apply Cf.text).1) = (.ok "猫猫xzyyyyd".toList : R Str) :=
  ⟨Cf.ok, Src.yadaOk, by decide +kernel⟩

theorem Cf.cut : LongestMatch Cf.m Cf.text Cf.pieces := by
  obtain ⟨ps, t, h1, h2, _, _, h5⟩ := Mapping.apply_spec Cf.ok Cf.text
  have hk : ∀ {k v}, (k, v) ∈ Cf.m → k = ['a', 'b'] ∨ k = ['a'] ∨ k = ['猫'] ∨ k = ['a', 'b', 'c'] := by
    intro k v h
    simp only [Cf.m, List.mem_cons, Prod.mk.injEq, List.not_mem_nil, or_false] at h
    tauto
  refine .replace ['猫'] [] _ _ (by simp [Cf.m]) ?_ <|
    .replace ['a', 'b', 'c'] _ ['a', 'b', 'z', 'a', 'd'] _ (by simp [Cf.m]) ?_ <|
    .replace ['a', 'b'] _ ['z', 'a', 'd'] _ (by simp [Cf.m]) ?_ <|
    .keep 'z' _ _ ?_ <| .replace ['a'] _ ['d'] _ (by simp [Cf.m]) ?_ <| .keep 'd' _ _ ?_ .done
  all_goals
    intro k v h
    rcases hk h with rfl | rfl | rfl | rfl <;> decide

/-! ### C32 Character-filter offsets map segment boundaries back -/

/-- C32 (mapping filter): the returned table maps the offset of every boundary between pieces in the filtered text to the offset of this boundary in the
original text. -/
theorem c32_mapping {yada : DaBuilder} (hy : YadaContract yada) {m : StrMap} (hm : MappingOk m) {f : Mapping} (hf : Mapping.new yada m = .ok f)
    (text : Str) (ps : List Piece) (hps : LongestMatch m text ps) :
    ∃ t, f.apply text = .ok (target ps, t) ∧ ∀ o i, Boundary ps o i → t.correct o (blen (target ps)) = .ok i := by
  rw [Mapping.new_ok hy hm] at hf
  cases hf
  obtain ⟨qs, t, h1, h2, h3, h4, _⟩ := Mapping.apply_spec hm text
  obtain rfl := LongestMatch.unique hm hps h2
  exact ⟨t, h1, fun o i hb => h3.correct_boundary h4 hb⟩

/-- Non-vacuity: after the deletion, two replacements (one growing, one shrinking), a kept character and a growing replacement, offset 12 of the filtered text `猫猫xzyyyyd` is offset 10
of the original. -/
example : LongestMatch Cf.m Cf.text Cf.pieces ∧ Boundary Cf.pieces 12 10 ∧ Boundary Cf.pieces 0 3 ∧
    (do let (_, t) ← Cf.f.apply Cf.text; t.correct 12 13) = .ok 10 :=
  ⟨Cf.cut, ⟨Cf.pieces.take 5, Cf.pieces.drop 5, by decide, by decide, by decide, by decide⟩,
    ⟨Cf.pieces.take 1, Cf.pieces.drop 1, by decide, by decide, by decide, by decide⟩, by decide +kernel⟩

/-- C32 (Unicode normalization): likewise, for any grapheme segmentation into non-empty clusters that make up the text, and any normal form. -/
theorem c32_unicode_normalize (f : UnicodeNormalize) (text : Str) (hg : (f.graphemes text).flatten = text)
    (hne : ∀ g ∈ f.graphemes text, g ≠ []) :
    let ps : List Piece := (f.graphemes text).map fun g => ⟨g, f.normalForm g⟩
    ∃ t, f.apply text = .ok (target ps, t) ∧ ∀ o i, Boundary ps o i → t.correct o (blen (target ps)) = .ok i := by
  intro ps
  obtain ⟨t, h1, h2⟩ := (f.filtered text hg hne).result
  refine ⟨t, h1, fun o i hb => ?_⟩
  rw [h2, sourceOffset_boundary (f.filtered text hg hne).nonempty hb]

/-- A toy normalization: one cluster per character, half-width `ｱ` to `ア`, `㌀` to `アパート`. -/
def Cf.nfkc : UnicodeNormalize where
  graphemes s := s.map ([·])
  normalForm g := if g = ['ｱ'] then ['ア'] else if g = ['㌀'] then ['ア', 'パ', 'ー', 'ト'] else if g = ['Ａ'] then ['A'] else g

example : let text := "㌀Ａb".toList
    (Cf.nfkc.graphemes text).flatten = text ∧ (∀ g ∈ Cf.nfkc.graphemes text, g ≠ []) ∧
      (do let (s, t) ← Cf.nfkc.apply text; return (s, ← t.correct 12 14, ← t.correct 13 14)) = (.ok ("アパートAb".toList, 3, 6) : R _) := by
  refine ⟨by decide, by decide, by decide +kernel⟩

/-! ### C33 Offset correction is monotone and stays inside the original text -/

/-- C33: for a filter that cuts the text into non-empty pieces and records them (mapping: `c33_mapping`, normalization: `c33_unicode_normalize`, regular expressions:
`c33_regex`), corrected offsets never decrease, and stay inside the original text. -/
def InsideAndMonotone (text out : Str) (t : OffsetTable) : Prop :=
  ∀ a b, a ≤ b → b ≤ blen out → ∃ i j, t.correct a (blen out) = .ok i ∧ t.correct b (blen out) = .ok j ∧ i ≤ j ∧ j ≤ blen text

private theorem insideAndMonotone {text : Str} {ps : List Piece} {t : OffsetTable} (ht : TableOf ps t) (hs : ∀ p ∈ ps, p.src ≠ []) (hc : source ps = text) :
    InsideAndMonotone text (target ps) t := by
  intro a b hab hb
  refine ⟨_, _, ht.correct_sourceOffset hs a, ht.correct_sourceOffset hs b, sourceOffset_mono hs hab, ?_⟩
  rw [← hc]; exact sourceOffset_le hb

theorem c33_mapping {yada : DaBuilder} (hy : YadaContract yada) {m : StrMap} (hm : MappingOk m) {f : Mapping} (hf : Mapping.new yada m = .ok f)
    (text : Str) : ∃ out t, f.apply text = .ok (out, t) ∧ InsideAndMonotone text out t := by
  rw [Mapping.new_ok hy hm] at hf
  cases hf
  obtain ⟨ps, t, h1, _, h3, h4, h5⟩ := Mapping.apply_spec hm text
  exact ⟨_, t, h1, insideAndMonotone h3 h4 h5⟩

/-- Non-vacuity: all 14 offsets of the sample. -/
example : (do let (s, t) ← Cf.f.apply Cf.text; (List.range (blen s + 1)).mapM fun o => t.correct o (blen s)) =
    (.ok [3, 4, 5, 5, 5, 5, 6, 8, 9, 9, 9, 9, 10, 11] : R _) := by decide +kernel

theorem c33_unicode_normalize (f : UnicodeNormalize) (text : Str) (hg : (f.graphemes text).flatten = text)
    (hne : ∀ g ∈ f.graphemes text, g ≠ []) : ∃ out t, f.apply text = .ok (out, t) ∧ InsideAndMonotone text out t := by
  obtain ⟨h1, h2, t, h3, h4⟩ := f.filtered text hg hne
  refine ⟨_, t, h3, fun a b hab hb => ⟨_, _, h4 a, h4 b, sourceOffset_mono h1 hab, ?_⟩⟩
  have := sourceOffset_le hb
  rwa [h2] at this

theorem c33_regex (f : RegexFilter) (text : Str) (ps : List Piece) (hlit : '$' ∉ f.replacement)
    (hm : Matches (fun _ => f.replacement) 0 (f.findIter text) text ps) (hne : ∀ p ∈ ps, p.src ≠ []) :
    ∃ t, f.apply text = .ok (target ps, t) ∧ InsideAndMonotone text (target ps) t := by
  obtain ⟨t, h1, h2, h3⟩ := f.table text hlit hm
  exact ⟨t, h1, insideAndMonotone h2 hne h3⟩

/-! ### C34 Regex character filter offsets are right -/

/-- The full property C34: whatever the pattern and the replacement, the table maps the boundaries between pieces back. -/
def RegexOffsetsRight : Prop :=
  ∀ (f : RegexFilter) (text : Str) (ps : List Piece) (dst : RegexMatch → Str), (∀ m, Expands m.group f.replacement (dst m)) → Matches dst 0 (f.findIter text) text ps →
    ∃ t, f.apply text = .ok (target ps, t) ∧ ∀ o i, Boundary ps o i → t.correct o (blen (target ps)) = .ok i

namespace Cf
/-- The pattern `x*` on the text `a`: two empty matches, replaced by `-`. -/
def rxEmpty : RegexFilter := ⟨fun _ => [⟨0, 0, fun _ => []⟩, ⟨1, 1, fun _ => []⟩], ['-']⟩

theorem rxEmpty_matches : Matches (fun _ => ['-']) 0 (rxEmpty.findIter ['a']) ['a']
    [⟨[], ['-']⟩, ⟨['a'], ['a']⟩, ⟨[], ['-']⟩] :=
  .hit 0 _ _ [] [] ['a'] _ rfl rfl (.hit 0 _ _ ['a'] [] [] _ rfl rfl (.done _ _))

/-- The pattern `(a)` with the replacement `$1` on the text `ab`. -/
def rxGroup : RegexFilter := ⟨fun _ => [⟨0, 1, fun r => if r = ['1'] then ['a'] else []⟩], ['$', '1']⟩

theorem rxGroup_matches : Matches (fun m => m.group ['1'] ++ []) 0 (rxGroup.findIter ['a', 'b']) ['a', 'b']
    [⟨['a'], ['a']⟩, ⟨['b'], ['b']⟩] :=
  .hit 0 _ _ [] ['a'] ['b'] _ rfl rfl (.done _ _)

theorem rxEmpty_expands (m : RegexMatch) : Expands m.group rxEmpty.replacement ['-'] := .char (by decide) .nil

theorem rxGroup_expands (m : RegexMatch) : Expands m.group rxGroup.replacement (m.group ['1'] ++ []) :=
  .named (name := ['1']) (s := []) (by simp) (by simp [NameChar]) (by simp) .nil
end Cf

/-- Whatever the replacement, with or without references to groups, the filtered text is the text with every match replaced by what the replacement stands for. -/
theorem c34_text (f : RegexFilter) (text : Str) (ps : List Piece) (dst : RegexMatch → Str) (hd : ∀ m ∈ f.findIter text, Expands m.group f.replacement (dst m))
    (hm : Matches dst 0 (f.findIter text) text ps) : ∃ t, f.apply text = .ok (target ps, t) := by
  obtain ⟨ps', h'⟩ := Model.Matches.other (dst' := fun _ => f.replacement) hm
  obtain ⟨t, h1, -⟩ := f.fold_spec text h' (fun _ _ => rfl) [] .empty (by simp [source]) rfl tableOf_nil
  exact ⟨t, by unfold RegexFilter.apply; rw [h1, bind_ok, f.replaceFrom_spec text hm hd [] (by simp) rfl]; rfl⟩

/-- A replacement stands for exactly one text. -/
theorem c34_expansion (group : Str → Str) (replacement : Str) : ∃ o, Expands group replacement o ∧ ∀ o', Expands group replacement o' → o' = o :=
  ⟨_, expandRefs_expands group _ replacement (Nat.le_refl _), fun _ h => expands_unique h (expandRefs_expands group _ replacement (Nat.le_refl _))⟩

/-- Non-vacuity: `$$${1}x$1` with the group `1` = `猫` stands for `$猫x猫`. -/
example : Expands (fun r => if r = ['1'] then ['猫'] else []) "$$${1}x$1".toList "$猫x猫".toList :=
  .dollar (.braced (name := ['1']) (s := "x$1".toList) (by decide) (.char (by decide) (.named (name := ['1']) (s := []) (by simp) (by simp [NameChar]) (by simp) .nil)))

/-- C34 is violated by patterns with empty matches: the start of the text is mapped to 2^64 - 1. -/
theorem c34_empty_match_fails : ¬ RegexOffsetsRight := by
  intro h
  obtain ⟨t, h1, h2⟩ := h Cf.rxEmpty ['a'] _ _ Cf.rxEmpty_expands Cf.rxEmpty_matches
  have h3 := h2 0 0 ⟨[], _, rfl, rfl, rfl, by simp⟩
  have h4 : (do let (s, t) ← Cf.rxEmpty.apply ['a']; t.correct 0 (blen s)) = .ok (2 ^ 64 - 1) := by decide +kernel
  rw [h1, bind_ok] at h4
  dsimp only at h4
  rw [h3] at h4
  cases h4

/-- C34 is violated by replacements with capture references (here with non-empty matches only): the table is computed from the length of the replacement
before expansion. -/
theorem c34_capture_fails : ¬ RegexOffsetsRight := by
  intro h
  obtain ⟨t, h1, h2⟩ := h Cf.rxGroup ['a', 'b'] _ _ Cf.rxGroup_expands Cf.rxGroup_matches
  have h3 := h2 1 1 ⟨[⟨['a'], ['a']⟩], _, rfl, rfl, rfl, by simp⟩
  have h4 : (do let (s, t) ← Cf.rxGroup.apply ['a', 'b']; t.correct 1 (blen s)) = .ok 0 := by decide +kernel
  rw [h1, bind_ok] at h4
  dsimp only at h4
  rw [h3] at h4
  cases h4

/-- C34, the part that holds: the filtered text is the text with every match replaced, and if what each match is replaced by has as many bytes as the replacement itself, every boundary whose next piece is
not the replacement of an empty match is mapped back. Missing: the boundary before the replacement of an empty match, and replacements with `$` that stand for texts of another length. -/
theorem c34_same_length_partial (f : RegexFilter) (text : Str) (ps : List Piece) (dst : RegexMatch → Str) (hd : ∀ m ∈ f.findIter text, Expands m.group f.replacement (dst m))
    (hl : ∀ m ∈ f.findIter text, blen (dst m) = blen f.replacement) (hm : Matches dst 0 (f.findIter text) text ps) :
    ∃ t, f.apply text = .ok (target ps, t) ∧
      ∀ pre post, ps = pre ++ post → (∀ p, post.head? = some p → p.dst ≠ [] ∧ p.src ≠ []) →
        t.correct (blen (target pre)) (blen (target ps)) = .ok (blen (source pre)) := by
  obtain ⟨t, h1, h2, _⟩ := f.table' text hd hl hm
  exact ⟨t, h1, fun pre post hps hh => h2.correct_boundary' hps hh⟩

/-- In particular for a replacement without `$`. -/
theorem c34_literal_partial (f : RegexFilter) (text : Str) (ps : List Piece) (hlit : '$' ∉ f.replacement)
    (hm : Matches (fun _ => f.replacement) 0 (f.findIter text) text ps) :
    ∃ t, f.apply text = .ok (target ps, t) ∧
      ∀ pre post, ps = pre ++ post → (∀ p, post.head? = some p → p.dst ≠ [] ∧ p.src ≠ []) →
        t.correct (blen (target pre)) (blen (target ps)) = .ok (blen (source pre)) :=
  c34_same_length_partial f text ps _ (fun _ _ => expands_literal _ _ hlit) (fun _ _ => rfl) hm

/-- The boundaries that are mapped back, exactly, when what each match is replaced by has as many bytes as the replacement itself. The start of a piece is mapped back unless the piece replaces an empty
match; then it is mapped to the byte before, and to 2^64 - 1 at the start of the text. The end of the text is always mapped back. -/
theorem c34_empty_exact (f : RegexFilter) (text : Str) (ps : List Piece) (dst : RegexMatch → Str) (hd : ∀ m ∈ f.findIter text, Expands m.group f.replacement (dst m))
    (hl : ∀ m ∈ f.findIter text, blen (dst m) = blen f.replacement) (hm : Matches dst 0 (f.findIter text) text ps) :
    ∃ t, f.apply text = .ok (target ps, t) ∧ t.correct (blen (target ps)) (blen (target ps)) = .ok (blen text) ∧
      ∀ pre p post, ps = pre ++ p :: post → p.dst ≠ [] → t.correct (blen (target pre)) (blen (target ps)) =
        .ok (if p.src ≠ [] then blen (source pre) else if source pre = [] then 2 ^ 64 - 1 else blen (source pre) - 1) := by
  obtain ⟨t, h1, h2, hs⟩ := f.table' text hd hl hm
  refine ⟨t, h1, ?_, fun pre p post hps hp => ?_⟩
  · rw [h2.correct_boundary' (pre := ps) (post := []) (by simp) (by simp), hs]
  · by_cases hsrc : p.src = []
    · have hdst := blen_pos hp
      rw [h2.correct, hps, locate_append, if_neg (by omega), Nat.sub_self, locate, if_pos hdst, hsrc, if_neg (by simp)]
      by_cases hpre : source pre = []
      · rw [if_pos hpre, hpre]; rfl
      · have := blen_pos hpre
        rw [if_neg hpre]
        rw [show (blen (source pre) : Int) + min ((0 : Nat) : Int) ((blen [] : Nat) - 1) = ((blen (source pre) - 1 : Nat) : Int) by rw [blen_nil]; omega, asUsize_nat]
    · rw [if_pos hsrc]
      exact h2.correct_boundary' hps (by rintro q hq; cases hq; exact ⟨hp, hsrc⟩)

/-- Non-vacuity: `x*` with the replacement `-` on the text `a`. The two replacements are mapped to 2^64 - 1 and to byte 0, the character between them to itself. -/
example : ∃ t, Cf.rxEmpty.apply ['a'] = .ok (['-', 'a', '-'], t) ∧ t.correct 0 3 = .ok (2 ^ 64 - 1) ∧ t.correct 1 3 = .ok 0 ∧ t.correct 2 3 = .ok 0 ∧ t.correct 3 3 = .ok 1 := by
  obtain ⟨t, h1, h2, h3⟩ := c34_empty_exact Cf.rxEmpty ['a'] _ _ (fun m _ => Cf.rxEmpty_expands m) (fun _ _ => rfl) Cf.rxEmpty_matches
  exact ⟨t, h1, h3 [] _ _ rfl (by simp), h3 [_] _ _ rfl (by simp), h3 [_, _] _ _ rfl (by simp), h2⟩

/-- What the table does for every replacement when no match is empty: byte `o` is mapped to where it would come from if every match had been replaced by the replacement as it is written, with its
references not expanded. So a boundary is mapped back exactly if `sourceOffset` agrees there for the two ways of replacing. -/
theorem c34_table (f : RegexFilter) (text : Str) (ps written : List Piece) (dst : RegexMatch → Str) (hd : ∀ m ∈ f.findIter text, Expands m.group f.replacement (dst m))
    (hm : Matches dst 0 (f.findIter text) text ps) (hw : Matches (fun _ => f.replacement) 0 (f.findIter text) text written) (hne : ∀ p ∈ written, p.src ≠ [])
    (hout : target ps ≠ []) :
    ∃ t, f.apply text = .ok (target ps, t) ∧ ∀ o, t.correct o (blen (target ps)) = .ok (sourceOffset written o) := by
  obtain ⟨t, h1, h2⟩ := f.fold_spec text hw (fun _ _ => rfl) [] .empty (by simp [source]) rfl tableOf_nil
  rw [List.nil_append] at h2
  refine ⟨t, by unfold RegexFilter.apply; rw [h1, bind_ok, f.replaceFrom_spec text hm hd [] (by simp) rfl]; rfl, fun o => ?_⟩
  rw [← h2.correct_sourceOffset hne, OffsetTable.correct_spec h2.wf h2.le, OffsetTable.correct_spec_pos h2.wf (blen_pos hout)]

/-- Non-vacuity: the pattern `(a)` with the replacement `$1` on the text `ab`; byte 1, the start of `b`, is mapped to byte 0. -/
example : ∃ t, Cf.rxGroup.apply ['a', 'b'] = .ok (['a', 'b'], t) ∧ t.correct 1 2 = .ok 0 := by
  obtain ⟨t, h1, h2⟩ := c34_table Cf.rxGroup ['a', 'b'] _ _ _ (fun m _ => Cf.rxGroup_expands m) Cf.rxGroup_matches
    (.hit 0 _ _ [] ['a'] ['b'] _ rfl rfl (.done _ _)) (by decide) (by decide)
  exact ⟨t, h1, h2 1⟩

/-- Non-vacuity: the pattern `(é)x` with the replacement `$1` on the text `éxb`; the group has the two bytes of `$1`. -/
example : ∃ (f : RegexFilter) (dst : RegexMatch → Str), (∀ m ∈ f.findIter "éxb".toList, Expands m.group f.replacement (dst m)) ∧
    (∀ m ∈ f.findIter "éxb".toList, blen (dst m) = blen f.replacement) ∧ Matches dst 0 (f.findIter "éxb".toList) "éxb".toList [⟨['é', 'x'], ['é']⟩, ⟨['b'], ['b']⟩] := by
  refine ⟨⟨fun _ => [⟨0, 3, fun _ => ['é']⟩], ['$', '1']⟩, fun m => m.group ['1'] ++ [], fun m _ => ?_, ?_, .hit 0 _ _ [] ['é', 'x'] ['b'] _ rfl rfl (.done _ _)⟩
  · exact .named (name := ['1']) (s := []) (by simp) (by simp [NameChar]) (by simp) .nil
  · intro m hm; simp only [List.mem_singleton] at hm; subst hm; decide

/-- Non-vacuity: `aab` with the pattern `a+` and the replacement `猫`, and the empty matches above. -/
example : ∃ f : RegexFilter, '$' ∉ f.replacement ∧ Matches (fun _ => f.replacement) 0 (f.findIter "aab".toList) "aab".toList
    [⟨['a', 'a'], ['猫']⟩, ⟨['b'], ['b']⟩] :=
  ⟨⟨fun _ => [⟨0, 2, fun _ => []⟩], ['猫']⟩, by decide, .hit 0 _ _ [] ['a', 'a'] ['b'] _ rfl rfl (.done _ _)⟩

/-! ### C35 Corrected offsets lie on character boundaries of the original text -/

namespace Cf
/-- The sample dictionary with one detail, `x`, for each of its words. -/
def dictionary : Dictionary :=
  { Sample.dictionary with wordsIdxData := (List.replicate 5 (leU32 0)).flatten, wordsData := leU32 1 ++ [120] }

def tok : Tokenizer := ⟨dictionary, none, .normal⟩

/-- `猫` → `aabb`. -/
def grow : StrMap := [(['猫'], ['a', 'a', 'b', 'b'])]

theorem growOk : MappingOk grow where
  nonempty := by simp [grow]
  distinct := by decide
  keys := by
    intro k v h
    simp only [grow, List.mem_cons, Prod.mk.injEq, List.not_mem_nil, or_false] at h
    rcases h with ⟨rfl, _⟩; decide
  size := by decide

def growFilter : Mapping := ⟨grow, ⟨Mapping.keyset grow⟩⟩

def analyzer : Analyzer := ⟨[growFilter.filter], tok, []⟩
end Cf

/-- C35 is violated: with a mapping filter that replaces `猫` by `aabb`, a token inside the replacement gets the byte range 0..1 of the three-byte character, on which slicing the
original text panics. -/
theorem c35_fails : ∃ toks, Cf.analyzer.analyze ['猫'] = .ok toks ∧ ∃ t ∈ toks, sliceBytes ['猫'] t.byteStart t.byteEnd = none := by
  refine ⟨[⟨['a'], 0, 1, 0, 1, ⟨0, true⟩, [['x']]⟩, ⟨['a', 'b'], 1, 2, 1, 1, ⟨1, true⟩, [['x']]⟩,
    ⟨['b'], 2, 3, 2, 1, ⟨2, true⟩, [['x']]⟩], by decide +kernel, ?_⟩
  exact ⟨_, List.mem_cons_self, by decide⟩

/-- C35, the part that holds: if the ends of a token are boundaries between pieces at every filter stage, the corrected byte range is a valid slice of the original
text. Missing: tokens that begin or end inside a replacement. -/
theorem c35_boundaries_partial (a : Analyzer) (text : Str) (stages : List (List Piece)) (final : Str)
    (hc : FilterChain a.characterFilters text stages final) (hne : stages ≠ []) (toks : List FToken) (h : a.analyze text = .ok toks)
    (before : List FToken) (hb : a.tokens final = .ok before) :
    List.Forall₂ (fun t t' : FToken => ∀ s e, Traced stages t.byteStart s → Traced stages t.byteEnd e → t.byteStart ≤ t.byteEnd →
      (sliceBytes text t'.byteStart t'.byteEnd).isSome) before toks := by
  rw [FilterChain.analyze hc hb] at h
  cases h
  rw [List.forall₂_map_right_iff, List.forall₂_same]
  intro t _ s e hs he hle
  dsimp only [FToken.withRange]
  have hmono := (FilterChain.bounds hc hle).1
  rw [FilterChain.traced hc hs, FilterChain.traced hc he] at hmono ⊢
  have hon : ∀ o i, Traced stages o i → OnBoundary text i := by
    intro o i ht
    generalize a.characterFilters = cfs at hc
    cases hc with
    | nil => exact absurd rfl hne
    | cons f fs _ ps stages final first rest =>
      cases ht with
      | cons _ _ _ mid _ later here =>
        obtain ⟨pre, post, rfl, _, rfl, _⟩ := here
        exact ⟨source pre, source post, by rw [← first.cut, source_append], rfl⟩
  obtain ⟨a1, b1, h1, h1'⟩ := hon _ _ hs
  obtain ⟨a2, b2, h2, h2'⟩ := hon _ _ he
  have hpre : a1 <+: a2 := by
    rcases List.prefix_or_prefix_of_prefix (l₁ := a1) (l₂ := a2) (l₃ := text) ⟨b1, h1.symm⟩ ⟨b2, h2.symm⟩ with h | h
    · exact h
    · obtain ⟨r, hr⟩ := h
      have : blen a1 = blen a2 + blen r := by rw [← hr, blen_append]
      have : r = [] := blen_eq_zero.mp (by omega)
      subst this
      rw [List.append_nil] at hr
      exact ⟨[], by rw [hr]; simp⟩
  obtain ⟨r, rfl⟩ := hpre
  have := sliceBytes_append a1 r b2
  rw [h1', h2', h2, blen_append, this]
  rfl

/-- Non-vacuity: `猫猫` becomes `aabbaabb`; the ends of the second half are boundaries. -/
example : ∃ stages final, FilterChain Cf.analyzer.characterFilters ['猫', '猫'] stages final ∧ Traced stages 4 3 ∧ Traced stages 8 6 := by
  obtain ⟨ps, h1, h2⟩ := Mapping.filtered Cf.growOk ['猫', '猫']
  have e : LongestMatch Cf.grow ['猫', '猫'] [⟨['猫'], ['a', 'a', 'b', 'b']⟩, ⟨['猫'], ['a', 'a', 'b', 'b']⟩] := by
    have hk : ∀ {k v}, (k, v) ∈ Cf.grow → k = ['猫'] := by intro k v h; simp [Cf.grow] at h; exact h.1
    refine .replace ['猫'] _ ['猫'] _ (by simp [Cf.grow]) ?_ (.replace ['猫'] _ [] _ (by simp [Cf.grow]) ?_ .done) <;>
      · intro k v h; rw [hk h]; decide
  obtain rfl := LongestMatch.unique Cf.growOk h1 e
  refine ⟨[_], _, .cons _ _ _ _ _ _ h2 (.nil _), .cons _ _ _ 4 _ (.nil _) ?_, .cons _ _ _ 8 _ (.nil _) ?_⟩
  · exact ⟨[_], [_], rfl, by decide, by decide, by simp⟩
  · exact ⟨[_, _], [], rfl, by decide, by decide, by simp⟩

/-! ### C36 Iteration marks are expanded to the repeated character -/

/-- C36: the filter returns (without offset table) a text with the same number of characters; a character that is not an expanded mark is kept; in a maximal group of `k` marks starting at
character `s`, preceded by at least `k` characters, each mark becomes the character `k` places before it (unvoiced or voiced as the mark says). If fewer characters precede, the distance is their number. -/
theorem c36_expand (f : IterationMark) (text : Str) :
    ∃ out, f.apply text = .ok (out, .empty) ∧ out.length = text.length ∧
      (∀ (q : Nat) c, text[q]? = some c → ¬ IsMark f c → out[q]? = some c) ∧
      (∀ s k j m c, MarkGroup f text s k → k ≤ s → j < k → text[s + j]? = some m → text[s + j - k]? = some c → out[s + j]? = some (repeated m c)) ∧
      (∀ s k j m c, MarkGroup f text s k → s < k → j < k → text[s + j]? = some m → text[j]? = some c → out[s + j]? = some (repeated m c)) := by
  obtain ⟨out, h1, h2, h3⟩ := iterationMark_apply f text
  have lt : ∀ {q : Nat} {c}, text[q]? = some c → q < text.length := fun h => (List.getElem?_eq_some_iff.mp h).1
  refine ⟨out, h1, h2, fun q c hc hn => (h3 q (lt hc)).1 c hc hn, ?_, ?_⟩
  · intro s k j m c hg hk hj hm hc
    exact (h3 _ (lt hm)).2 s k m c hg (by omega) (by omega) hm (by rw [Nat.min_eq_right hk]; exact hc)
  · intro s k j m c hg hk hj hm hc
    exact (h3 _ (lt hm)).2 s k m c hg (by omega) (by omega) hm (by
      rw [Nat.min_eq_left (by omega), show s + j - s = j by omega]; exact hc)

/-- Every mark lies in a maximal group, so `c36_expand` determines every character of the result. -/
theorem c36_groups (f : IterationMark) (text : Str) (q : Nat) (m : Char) (hq : text[q]? = some m) (hm : IsMark f m) :
    ∃ s k, MarkGroup f text s k ∧ s ≤ q ∧ q < s + k := exists_markGroup hq hm

/-- Non-vacuity: `馬鹿々々しい` has a group of two marks; `ところゞゝゝ` one of three. -/
example : MarkGroup ⟨true, true⟩ "馬鹿々々しい".toList 2 2 ∧
    (do return (← (IterationMark.mk true true).apply "馬鹿々々しい、ところゞゝゝ、いすヾ".toList).1) = (.ok "馬鹿馬鹿しい、ところどころ、いすす".toList : R Str) := by
  refine ⟨⟨by decide, ?_, ?_, ?_⟩, by decide +kernel⟩
  · intro j hj
    match j, hj with
    | 0, _ => exact ⟨'々', by decide, by decide⟩
    | 1, _ => exact ⟨'々', by decide, by decide⟩
  · intro c _ hc
    have h : "馬鹿々々しい".toList[2 - 1]? = some '鹿' := by decide
    rw [h] at hc
    cases hc; decide
  · intro c hc
    have h : "馬鹿々々しい".toList[2 + 2]? = some 'し' := by decide
    rw [h] at hc
    cases hc; decide

/-! ### C37 Iteration-mark filter keeps byte offsets valid -/

/-- The full property C37: the filter returns no table, so every character must keep its length in bytes. -/
def KeepsLengths (f : IterationMark) (text : Str) : Prop :=
  ∃ out, f.apply text = .ok (out, .empty) ∧ List.Forall₂ (fun a b : Char => a.utf8Size = b.utf8Size) text out

/-- C37 is violated: `a々` becomes `aa`, two bytes instead of four. -/
theorem c37_fails : ¬ ∀ f text, KeepsLengths f text := by
  intro h
  obtain ⟨out, h1, h2⟩ := h ⟨true, true⟩ ['a', '々']
  have h3 : (IterationMark.mk true true).apply ['a', '々'] = .ok (['a', 'a'], .empty) := by decide +kernel
  rw [h3] at h1
  cases h1
  cases h2 with
  | cons _ h => cases h with
    | cons h _ => exact absurd h (by decide)

/-- C37, the part that holds: if the repeated characters are three bytes long in UTF-8 (all kana and common kanji are), every character keeps its length. Missing: repeated characters of other
lengths. -/
theorem c37_three_bytes_partial (f : IterationMark) (text : Str)
    (h : ∀ s k j c, MarkGroup f text s k → j < k → text[s + j - min s k]? = some c → c.utf8Size = 3) : KeepsLengths f text := by
  obtain ⟨out, h1, h2, h3⟩ := iterationMark_apply f text
  refine ⟨out, h1, ?_⟩
  rw [List.forall₂_iff_get]
  refine ⟨h2.symm, ?_⟩
  intro q hq hq'
  have e1 : text[q]? = some (text.get ⟨q, hq⟩) := List.getElem?_eq_getElem hq
  have e2 : out[q]? = some (out.get ⟨q, hq'⟩) := List.getElem?_eq_getElem hq'
  by_cases hm : IsMark f (text.get ⟨q, hq⟩)
  · obtain ⟨s, k, hg, h5, h6⟩ := exists_markGroup e1 hm
    obtain ⟨c, hc⟩ : ∃ c, text[q - min s k]? = some c := ⟨_, List.getElem?_eq_getElem (by omega)⟩
    have h7 := (h3 q hq).2 s k _ c hg h5 h6 e1 hc
    rw [h7] at e2
    rw [← Option.some.inj e2, utf8Size_repeated]
    have h8 := h s k (q - s) c hg (by omega) (by rw [show s + (q - s) = q by omega]; exact hc)
    rw [h8]
    rcases hm with ⟨_, hm⟩ | ⟨_, hm⟩
    · rw [hm]; decide
    · simp only [List.mem_cons, List.not_mem_nil, or_false] at hm
      rcases hm with hm | hm | hm | hm <;> rw [hm] <;> decide
  · have h7 := (h3 q hq).1 _ e1 hm
    rw [h7] at e2
    rw [← Option.some.inj e2]

/-- Non-vacuity: any text of three-byte characters, such as `時々`. -/
example : ∀ s k j c, MarkGroup ⟨true, true⟩ ['時', '々'] s k → j < k → ['時', '々'][s + j - min s k]? = some c → c.utf8Size = 3 := by
  intro s k j c _ _ hc
  have : c ∈ ['時', '々'] := List.mem_of_getElem? hc
  simp only [List.mem_cons, List.not_mem_nil, or_false] at this
  rcases this with rfl | rfl <;> decide

/-! ### C38 Offsets through a chain of character filters -/

/-- C38: if the filters of the analyzer cut and replace the text as `stages` lists, the result of `analyze` is the tokens of the filtered text with both ends of the byte range led back through all stages, and
nothing else changed. -/
theorem c38_chain (a : Analyzer) (text : Str) (stages : List (List Piece)) (final : Str) (hc : FilterChain a.characterFilters text stages final)
    (toks : List FToken) (ht : a.tokens final = .ok toks) :
    a.analyze text = .ok (toks.map fun t => FToken.withRange t (sourceThrough stages t.byteStart) (sourceThrough stages t.byteEnd)) :=
  FilterChain.analyze hc ht

/-- C38: an offset that is a piece boundary at every stage is led to its place in the original text. -/
theorem c38_traced (fs : List CharFilter) (text : Str) (stages : List (List Piece)) (final : Str) (hc : FilterChain fs text stages final) (o i : Nat)
    (ht : Traced stages o i) : sourceThrough stages o = i := FilterChain.traced hc ht

/-- C38: ranges stay ordered and inside the original text. -/
theorem c38_range (fs : List CharFilter) (text : Str) (stages : List (List Piece)) (final : Str) (hc : FilterChain fs text stages final) (s e : Nat)
    (h1 : s ≤ e) (h2 : e ≤ blen final) : sourceThrough stages s ≤ sourceThrough stages e ∧ sourceThrough stages e ≤ blen text :=
  ⟨(FilterChain.bounds hc h1).1, (FilterChain.bounds hc h1).2 h2⟩

/-- C38: the mapping, normalization, regular expression (literal replacement, no empty match) and iteration mark (three-byte characters) filters are filters as `FilterChain` requires. -/
theorem c38_mapping_filtered {yada : DaBuilder} (hy : YadaContract yada) {m : StrMap} (hm : MappingOk m) {f : Mapping} (hf : Mapping.new yada m = .ok f)
    (text : Str) : ∃ ps, LongestMatch m text ps ∧ Filtered f.filter text ps := by
  rw [Mapping.new_ok hy hm] at hf
  cases hf
  exact Mapping.filtered hm text

theorem c38_unicode_normalize_filtered (f : UnicodeNormalize) (text : Str) (hg : (f.graphemes text).flatten = text) (hne : ∀ g ∈ f.graphemes text, g ≠ []) :
    Filtered f.filter text ((f.graphemes text).map fun g => ⟨g, f.normalForm g⟩) := f.filtered text hg hne

theorem c38_regex_filtered (f : RegexFilter) (text : Str) (ps : List Piece) (hlit : '$' ∉ f.replacement)
    (hm : Matches (fun _ => f.replacement) 0 (f.findIter text) text ps) (hne : ∀ p ∈ ps, p.src ≠ []) : Filtered f.filter text ps := by
  obtain ⟨t, h1, h2, h3⟩ := f.table text hlit hm
  exact ⟨hne, h3, t, h1, fun o => h2.correct_sourceOffset hne o⟩

theorem c38_iteration_mark_filtered (f : IterationMark) (text : Str)
    (h : ∀ s k j c, MarkGroup f text s k → j < k → text[s + j - min s k]? = some c → c.utf8Size = 3) :
    ∃ ps, Filtered f.filter text ps ∧ ps.map (·.src) = text.map ([·]) := by
  obtain ⟨out, h1, h2⟩ := c37_three_bytes_partial f text h
  obtain ⟨ps, h3, h4, _⟩ := filtered_same_lengths (f := f.filter) h1 h2
  exact ⟨ps, h3, h4⟩

/-- Non-vacuity: iteration marks, then a mapping, then another mapping; the tokens of `人々` with `人` → `ab`, `bab` → `猫`. -/
example : let f1 : Mapping := ⟨[(['人'], ['a', 'b'])], ⟨Mapping.keyset [(['人'], ['a', 'b'])]⟩⟩
    let f2 : Mapping := ⟨[(['b', 'a'], ['猫'])], ⟨Mapping.keyset [(['b', 'a'], ['猫'])]⟩⟩
    (Analyzer.mk [(IterationMark.mk true true).filter, f1.filter, f2.filter] Cf.tok []).analyze ['人', '々'] =
      .ok [⟨['a'], 0, 1, 0, 1, ⟨0, true⟩, [['x']]⟩, ⟨['猫'], 1, 4, 1, 1, ⟨3, true⟩, [['x']]⟩, ⟨['b'], 4, 6, 2, 1, ⟨2, true⟩, [['x']]⟩] := by
  decide +kernel

end Verif.Props
