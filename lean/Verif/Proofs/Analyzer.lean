import Verif.Spec.Analyzer
import Verif.Proofs.Mapping
import Verif.Proofs.IterationMark
/-! Offset correction through the analyzer. -/
namespace Verif.Model
open Verif.Spec

theorem Filtering.fold_spec {fs : List CharFilter} {text : Str} {stages : List (List Piece)} {final : Str} (h : FilterChain fs text stages final) :
    ∀ tables, ∃ new, fs.foldlM Filtering.step ⟨text, tables⟩ = .ok ⟨final, new ++ tables⟩ ∧
      ∀ t : FToken, new.foldlM FToken.correctBy t =
        .ok (FToken.withRange t (sourceThrough stages t.byteStart) (sourceThrough stages t.byteEnd)) := by
  induction h with
  | nil text => intro tables; exact ⟨[], rfl, fun t => rfl⟩
  | cons f fs text ps stages final first rest ih =>
    intro tables
    obtain ⟨t0, hf, hc⟩ := first.result
    have hstep : Filtering.step ⟨text, tables⟩ f =
        .ok ⟨target ps, if t0.offsets.isEmpty then tables else (t0, blen (target ps)) :: tables⟩ := by
      unfold Filtering.step
      dsimp only
      rw [hf]; rfl
    rw [List.foldlM_cons, hstep, bind_ok]
    by_cases he : t0.offsets.isEmpty
    · rw [if_pos he]
      obtain ⟨new, h1, h2⟩ := ih tables
      refine ⟨new, h1, ?_⟩
      intro t
      rw [h2]
      have hid : ∀ o, sourceOffset ps o = o := by
        intro o
        have := hc o
        unfold OffsetTable.correct at this
        rw [if_pos he] at this
        exact (Except.ok.inj this).symm
      simp only [sourceThrough, hid]
    · rw [if_neg he]
      obtain ⟨new, h1, h2⟩ := ih ((t0, blen (target ps)) :: tables)
      refine ⟨new ++ [(t0, blen (target ps))], by rw [h1]; simp, ?_⟩
      intro t
      rw [List.foldlM_append, h2, bind_ok]
      simp only [List.foldlM_cons, List.foldlM_nil]
      unfold FToken.correctBy
      simp only [FToken.withRange, hc, bind_ok, pure_eq_ok, sourceThrough]

theorem FilterChain.analyze {a : Analyzer} {text : Str} {stages : List (List Piece)} {final : Str} (h : FilterChain a.characterFilters text stages final)
    {toks : List FToken} (ht : a.tokens final = .ok toks) :
    a.analyze text = .ok (toks.map fun t => FToken.withRange t (sourceThrough stages t.byteStart) (sourceThrough stages t.byteEnd)) := by
  obtain ⟨new, h1, h2⟩ := Filtering.fold_spec h []
  unfold Analyzer.analyze
  rw [h1, bind_ok]
  dsimp only
  rw [ht, bind_ok, List.append_nil, mapM_ok_iff]
  clear ht
  induction toks with
  | nil => exact .nil
  | cons t toks ih => exact .cons (h2 t) ih

theorem sourceOffset_boundary {ps : List Piece} (hs : ∀ p ∈ ps, p.src ≠ []) {o i : Nat} (hb : Boundary ps o i) : sourceOffset ps o = i := by
  obtain ⟨pre, post, rfl, rfl, rfl, hh⟩ := hb
  have h1 := locate_eq_sourceOffset hs (blen (target pre))
  rw [locate_append, if_neg (by omega), Nat.sub_self, locate_zero (ps := post) ?_] at h1
  · omega
  · intro p hp
    exact ⟨hh p hp, hs p (List.mem_append.mpr (.inr (List.mem_of_mem_head? hp)))⟩

theorem FilterChain.traced {fs : List CharFilter} {text : Str} {stages : List (List Piece)} {final : Str} (h : FilterChain fs text stages final) {o i : Nat}
    (ht : Traced stages o i) : sourceThrough stages o = i := by
  induction h generalizing i with
  | nil text => cases ht; rfl
  | cons f fs text ps stages final first rest ih =>
    cases ht with
    | cons _ _ _ mid _ later here => rw [sourceThrough, ih later, sourceOffset_boundary first.nonempty here]

theorem FilterChain.bounds {fs : List CharFilter} {text : Str} {stages : List (List Piece)} {final : Str} (h : FilterChain fs text stages final) {a b : Nat}
    (hab : a ≤ b) : sourceThrough stages a ≤ sourceThrough stages b ∧
      (b ≤ blen final → sourceThrough stages b ≤ blen text) := by
  induction h with
  | nil text => exact ⟨hab, id⟩
  | cons f fs text ps stages final first rest ih =>
    refine ⟨sourceOffset_mono first.nonempty ih.1, fun hb => ?_⟩
    rw [← first.cut]
    exact sourceOffset_le (ih.2 hb)

/-- The end of the text is always mapped to the end. -/
theorem sourceOffset_end (ps : List Piece) : sourceOffset ps (blen (target ps)) = blen (source ps) := by
  induction ps with
  | nil => rfl
  | cons p ps ih =>
    rw [blen_target_cons, blen_source_cons, sourceOffset, if_neg (by omega), Nat.add_sub_cancel_left, ih]

/-! ### The concrete filters satisfy `Filtered` -/

theorem Mapping.filtered {m : StrMap} (hm : MappingOk m) (text : Str) :
    ∃ ps, LongestMatch m text ps ∧ Filtered (Mapping.filter ⟨m, ⟨Mapping.keyset m⟩⟩) text ps := by
  obtain ⟨ps, t, h1, h2, h3, h4, h5⟩ := Mapping.apply_spec hm text
  exact ⟨ps, h2, h4, h5, t, h1, fun o => h3.correct_sourceOffset h4 o⟩

theorem UnicodeNormalize.filtered (f : UnicodeNormalize) (text : Str) (hg : (f.graphemes text).flatten = text)
    (hne : ∀ g ∈ f.graphemes text, g ≠ []) :
    Filtered f.filter text ((f.graphemes text).map fun g => ⟨g, f.normalForm g⟩) := by
  obtain ⟨t, h1, h2⟩ := f.fold_spec (f.graphemes text) [] .empty tableOf_nil
  have hsrc : ∀ p ∈ (f.graphemes text).map fun g => (⟨g, f.normalForm g⟩ : Piece), p.src ≠ [] := by
    intro p hp
    rw [List.mem_map] at hp
    obtain ⟨g, hg, rfl⟩ := hp
    exact hne g hg
  refine ⟨hsrc, ?_, t, ?_, ?_⟩
  · have e : ∀ gs : List Str, source (gs.map fun g => (⟨g, f.normalForm g⟩ : Piece)) = gs.flatten := by
      intro gs
      induction gs with
      | nil => rfl
      | cons g gs ih => simp only [source, List.map_cons, List.flatMap_cons, List.flatten_cons] at ih ⊢; rw [ih]
    rw [e, hg]
  · show f.apply text = _
    unfold UnicodeNormalize.apply
    have h1' : (f.graphemes text).foldl f.step ([], 0, .empty) = _ := h1
    rw [h1']
    simp
  · rw [List.nil_append] at h2
    exact fun o => h2.correct_sourceOffset hsrc o

theorem RegexFilter.table' (f : RegexFilter) (text : Str) {ps : List Piece} {dst : RegexMatch → Str} (hd : ∀ m ∈ f.findIter text, Expands m.group f.replacement (dst m))
    (hl : ∀ m ∈ f.findIter text, blen (dst m) = blen f.replacement) (hm : Matches dst 0 (f.findIter text) text ps) :
    ∃ t, f.apply text = .ok (target ps, t) ∧ TableOf ps t ∧ source ps = text := by
  obtain ⟨t, h1, h2⟩ := f.fold_spec text hm hl [] .empty (by simp [source]) rfl tableOf_nil
  have h3 := f.replaceFrom_spec text hm hd [] (by simp) rfl
  refine ⟨t, ?_, by simpa using h2, Matches.source_eq hm⟩
  unfold RegexFilter.apply
  rw [h1, bind_ok, h3]; rfl

theorem RegexFilter.table (f : RegexFilter) (text : Str) {ps : List Piece} (hlit : '$' ∉ f.replacement)
    (hm : Matches (fun _ => f.replacement) 0 (f.findIter text) text ps) :
    ∃ t, f.apply text = .ok (target ps, t) ∧ TableOf ps t ∧ source ps = text :=
  f.table' text (fun _ _ => expands_literal _ _ hlit) (fun _ _ => rfl) hm

/-- A filter that returns no table and keeps the length of every character satisfies `Filtered` with one piece per character. -/
theorem filtered_same_lengths {f : CharFilter} {text out : Str} (h : f text = .ok (out, .empty))
    (hl : List.Forall₂ (fun a b : Char => a.utf8Size = b.utf8Size) text out) :
    ∃ ps, Filtered f text ps ∧ ps.map (·.src) = text.map ([·]) ∧ ps.map (·.dst) = out.map ([·]) := by
  obtain ⟨ps, h1, h2, h3⟩ : ∃ ps : List Piece, ps.map (·.src) = text.map ([·]) ∧ ps.map (·.dst) = out.map ([·]) ∧
      ∀ p ∈ ps, blen p.src = blen p.dst := by
    clear h
    induction hl with
    | nil => exact ⟨[], rfl, rfl, by simp⟩
    | cons hab _ ih =>
      rename_i a b _ _ _
      obtain ⟨ps, h1, h2, h3⟩ := ih
      refine ⟨⟨[a], [b]⟩ :: ps, by simp [h1], by simp [h2], ?_⟩
      intro p hp
      rcases List.mem_cons.mp hp with rfl | hp
      · simpa using hab
      · exact h3 p hp
  have flat : ∀ (ps : List Piece) (s : Str) (g : Piece → Str), ps.map g = s.map ([·]) → ps.flatMap g = s := by
    intro ps s g hg
    rw [List.flatMap_def, hg]
    clear hg
    induction s with
    | nil => rfl
    | cons c s ih => rw [List.map_cons, List.flatten_cons, ih]; rfl
  have hsrc : ∀ p ∈ ps, p.src ≠ [] := by
    intro p hp
    have : p.src ∈ text.map ([·]) := by rw [← h1]; exact List.mem_map_of_mem hp
    rw [List.mem_map] at this
    obtain ⟨c, _, hc⟩ := this
    rw [← hc]; simp
  refine ⟨ps, ⟨hsrc, flat ps text _ h1, .empty, ?_, ?_⟩, h1, h2⟩
  · rw [h, show target ps = out from flat ps out _ h2]
  · intro o
    have hid : ∀ (ps : List Piece), (∀ p ∈ ps, p.src ≠ []) → (∀ p ∈ ps, blen p.src = blen p.dst) → ∀ o, sourceOffset ps o = o := by
      intro ps
      induction ps with
      | nil => intros; rfl
      | cons p ps ih =>
        intro hs hl o
        have hp := blen_pos (hs p (by simp))
        have he := hl p (by simp)
        rw [sourceOffset, ih (fun q hq => hs q (by simp [hq])) (fun q hq => hl q (by simp [hq]))]
        split <;> omega
    rw [hid ps hsrc h3 o]; rfl

/-! ### Groups of marks -/

theorem exists_markGroup {f : IterationMark} {text : Str} {q : Nat} {m : Char} (hq : text[q]? = some m) (hm : IsMark f m) :
    ∃ s k, MarkGroup f text s k ∧ s ≤ q ∧ q < s + k := by
  have left : ∀ q m, text[q]? = some m → IsMark f m →
      ∃ s, s ≤ q ∧ (∀ i, s ≤ i → i ≤ q → ∃ c, text[i]? = some c ∧ IsMark f c) ∧ ∀ c, 0 < s → text[s - 1]? = some c → ¬ IsMark f c := by
    intro q
    induction q with
    | zero =>
      intro m hq hm
      refine ⟨0, Nat.le_refl _, ?_, by simp⟩
      intro i _ hi
      have : i = 0 := by omega
      subst this
      exact ⟨m, hq, hm⟩
    | succ q ih =>
      intro m hq hm
      by_cases h : ∃ c, text[q]? = some c ∧ IsMark f c
      · obtain ⟨c, hc, hcm⟩ := h
        obtain ⟨s, h1, h2, h3⟩ := ih c hc hcm
        refine ⟨s, by omega, ?_, h3⟩
        intro i hi1 hi2
        by_cases hi : i = q + 1
        · subst hi; exact ⟨m, hq, hm⟩
        · exact h2 i hi1 (by omega)
      · refine ⟨q + 1, Nat.le_refl _, ?_, ?_⟩
        · intro i hi1 hi2
          have : i = q + 1 := by omega
          subst this
          exact ⟨m, hq, hm⟩
        · intro c _ hc hcm
          exact h ⟨c, by simpa using hc, hcm⟩
  have right : ∀ n q, text.length - q = n → ∃ e, q ≤ e ∧ (∀ i, q ≤ i → i < e → ∃ c, text[i]? = some c ∧ IsMark f c) ∧
      ∀ c, text[e]? = some c → ¬ IsMark f c := by
    intro n
    induction n with
    | zero =>
      intro q hn
      refine ⟨q, Nat.le_refl _, fun i h1 h2 => absurd h2 (by omega), ?_⟩
      intro c hc
      rw [List.getElem?_eq_none (by omega)] at hc
      exact absurd hc (by simp)
    | succ n ih =>
      intro q hn
      by_cases h : ∃ c, text[q]? = some c ∧ IsMark f c
      · obtain ⟨c, hc, hcm⟩ := h
        obtain ⟨e, h1, h2, h3⟩ := ih (q + 1) (by omega)
        refine ⟨e, by omega, ?_, h3⟩
        intro i hi1 hi2
        by_cases hi : i = q
        · subst hi; exact ⟨c, hc, hcm⟩
        · exact h2 i (by omega) hi2
      · refine ⟨q, Nat.le_refl _, fun i h1 h2 => absurd h2 (by omega), ?_⟩
        intro c hc hcm
        exact h ⟨c, hc, hcm⟩
  obtain ⟨s, h1, h2, h3⟩ := left q m hq hm
  obtain ⟨e, h4, h5, h6⟩ := right _ (q + 1) rfl
  refine ⟨s, e - s, ⟨by omega, ?_, h3, ?_⟩, h1, by omega⟩
  · intro j hj
    by_cases hjq : s + j ≤ q
    · exact h2 _ (by omega) hjq
    · exact h5 _ (by omega) (by omega)
  · rw [show s + (e - s) = e by omega]; exact h6

end Verif.Model
