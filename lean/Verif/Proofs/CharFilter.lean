import Verif.Spec.CharFilter
import Verif.Proofs.Basic
import Verif.Proofs.Monad
import Mathlib.Data.List.Basic
/-! Offset tables of the character filters. -/
namespace Verif.Model
open Verif.Spec

/-! ### Tables as functions -/

/-- The difference a table gives for an offset: the last entry not after it. -/
def OffsetTable.at (t : OffsetTable) (o : Nat) : Int :=
  (((t.offsets.zip t.diffs).filter (fun e => e.1 ≤ o)).getLast?.map (·.2)).getD 0

structure OffsetTable.WF (t : OffsetTable) : Prop where
  len : t.offsets.length = t.diffs.length
  sorted : t.offsets.Pairwise (· < ·)

theorem OffsetTable.add_spec {t : OffsetTable} (wf : t.WF) {offset : Nat} {diff : Int}
    (hle : ∀ x ∈ t.offsets, x ≤ offset) :
    (t.add offset diff).WF ∧ (∀ x ∈ (t.add offset diff).offsets, x ≤ offset) ∧
      (t.add offset diff).diffs.getLast? = some diff ∧
      ∀ o, (t.add offset diff).at o = if offset ≤ o then diff else t.at o := by
  obtain ⟨offs, diffs⟩ := t
  obtain ⟨hlen, hs⟩ := wf
  dsimp only at hlen hs hle
  rcases List.eq_nil_or_concat offs with rfl | ⟨a, x, rfl⟩
  · have : diffs = [] := by simpa using hlen.symm
    subst this
    refine ⟨⟨rfl, by simp [OffsetTable.add]⟩, by simp [OffsetTable.add], rfl, ?_⟩
    intro o
    simp only [OffsetTable.add, OffsetTable.at, List.getLast?_nil, List.nil_append, List.zip_cons_cons, List.zip_nil_right]
    by_cases h : offset ≤ o <;> simp [h]
  · rcases List.eq_nil_or_concat diffs with rfl | ⟨b, y, rfl⟩
    · simp at hlen
    rw [List.concat_eq_append, List.concat_eq_append] at hlen
    rw [List.concat_eq_append] at hs hle
    simp only [List.length_append, List.length_cons, List.length_nil, Nat.zero_add, Nat.add_right_cancel_iff] at hlen
    rw [List.pairwise_append] at hs
    obtain ⟨hsa, _, hsx⟩ := hs
    have hx : x ≤ offset := hle x (by simp)
    simp only [List.concat_eq_append]
    by_cases hxo : x = offset
    · subst hxo
      have e : OffsetTable.add ⟨a ++ [x], b ++ [y]⟩ x diff = ⟨a ++ [x], b ++ [diff]⟩ := by
        simp [OffsetTable.add]
      rw [e]
      refine ⟨⟨by simp [hlen], by simpa [List.pairwise_append] using ⟨hsa, by simpa using hsx⟩⟩, hle, by simp, ?_⟩
      intro o
      simp only [OffsetTable.at]
      rw [List.zip_append hlen, List.zip_append hlen]
      by_cases h : x ≤ o <;> simp [h]
    · have e : OffsetTable.add ⟨a ++ [x], b ++ [y]⟩ offset diff = ⟨a ++ [x] ++ [offset], b ++ [y] ++ [diff]⟩ := by
        simp [OffsetTable.add, hxo]
      rw [e]
      refine ⟨⟨by simp [hlen], ?_⟩, ?_, by simp, ?_⟩
      · rw [List.pairwise_append, List.pairwise_append]
        refine ⟨⟨hsa, by simp, hsx⟩, by simp, ?_⟩
        intro z hz w hw
        simp only [List.mem_singleton] at hw
        subst hw
        rw [List.mem_append, List.mem_singleton] at hz
        rcases hz with hz | rfl
        · have := hsx z hz x (by simp); omega
        · omega
      · intro z hz
        rw [List.mem_append, List.mem_singleton] at hz
        rcases hz with hz | rfl
        · exact hle z hz
        · exact Nat.le_refl _
      · intro o
        simp only [OffsetTable.at]
        rw [List.zip_append (by simp [hlen])]
        by_cases h : offset ≤ o <;> simp [h]

theorem OffsetTable.at_large {t : OffsetTable} (wf : t.WF) {o : Nat} (hle : ∀ x ∈ t.offsets, x ≤ o) :
    t.at o = t.diffs.getLast?.getD 0 := by
  obtain ⟨offs, diffs⟩ := t
  obtain ⟨hlen, _⟩ := wf
  dsimp only at hlen hle
  unfold OffsetTable.at
  dsimp only
  rw [List.filter_eq_self.mpr ?_]
  · rcases List.eq_nil_or_concat offs with rfl | ⟨a, x, rfl⟩
    · have : diffs = [] := by simpa using hlen.symm
      subst this; rfl
    · rcases List.eq_nil_or_concat diffs with rfl | ⟨b, y, rfl⟩
      · simp at hlen
      · rw [List.concat_eq_append, List.concat_eq_append] at *
        rw [List.zip_append (by simpa using hlen)]
        simp
  · intro e he
    have := hle e.1 (List.of_mem_zip he).1
    simpa using this

/-- The fold for a growing replacement. -/
theorem OffsetTable.grow_spec {t : OffsetTable} (wf : t.WF) {O : Nat} {prev : Int} (hle : ∀ x ∈ t.offsets, x ≤ O) (k : Nat) :
    let t' := (List.range (k + 1)).foldl (init := t) fun t e => t.add (O + e) (prev - (e : Int) - 1)
    t'.WF ∧ (∀ x ∈ t'.offsets, x ≤ O + k) ∧
      ∀ o, t'.at o = if o < O then t.at o else prev - (min (o - O) k : Nat) - 1 := by
  induction k with
  | zero =>
    simp only [List.range_succ, List.range_zero, List.nil_append, List.foldl_cons, List.foldl_nil]
    obtain ⟨h1, h2, _, h4⟩ := OffsetTable.add_spec wf (offset := O + 0) (diff := prev - ((0 : Nat) : Int) - 1) (by simpa using hle)
    refine ⟨h1, h2, ?_⟩
    intro o
    rw [h4]
    by_cases h : o < O
    · rw [if_neg (by omega), if_pos h]
    · rw [if_pos (by omega), if_neg h]; simp
  | succ k ih =>
    intro t'
    obtain ⟨i1, i2, i3⟩ := ih
    have e : t' = OffsetTable.add ((List.range (k + 1)).foldl (init := t) fun t e => t.add (O + e) (prev - (e : Int) - 1)) (O + (k + 1))
        (prev - ((k + 1 : Nat) : Int) - 1) := by
      show List.foldl _ _ (List.range (k + 1 + 1)) = _
      rw [List.range_succ, List.foldl_append]; rfl
    rw [e]
    obtain ⟨h1, h2, _, h4⟩ := OffsetTable.add_spec i1 (offset := O + (k + 1)) (diff := prev - ((k + 1 : Nat) : Int) - 1)
      (fun x hx => by have := i2 x hx; omega)
    refine ⟨h1, h2, ?_⟩
    intro o
    rw [h4, i3]
    by_cases h : o < O
    · rw [if_neg (by omega), if_pos h, if_pos h]
    · rw [if_neg h, if_neg h]
      by_cases h' : O + (k + 1) ≤ o
      · rw [if_pos h']; omega
      · rw [if_neg h']; omega

/-! ### The table of a sequence of pieces -/

/-- `sourceOffset` with integers (a piece without source text gives -1 for its first byte). -/
def locate : List Piece → Nat → Int
  | [], o => o
  | p :: ps, o => if o < blen p.dst then min (o : Int) ((blen p.src : Int) - 1) else blen p.src + locate ps (o - blen p.dst)

theorem blen_target_cons (p : Piece) (ps : List Piece) : blen (target (p :: ps)) = blen p.dst + blen (target ps) := by
  simp [target]

theorem blen_source_cons (p : Piece) (ps : List Piece) : blen (source (p :: ps)) = blen p.src + blen (source ps) := by
  simp [source]

theorem locate_ge (ps : List Piece) {o : Nat} (h : blen (target ps) ≤ o) :
    locate ps o = (o : Int) + blen (source ps) - blen (target ps) := by
  induction ps generalizing o with
  | nil => simp [locate, source, target]
  | cons p ps ih =>
    rw [blen_target_cons] at h
    rw [locate, if_neg (by omega), ih (by omega), blen_target_cons, blen_source_cons]
    omega

theorem locate_append (ps qs : List Piece) (o : Nat) :
    locate (ps ++ qs) o = if o < blen (target ps) then locate ps o else blen (source ps) + locate qs (o - blen (target ps)) := by
  induction ps generalizing o with
  | nil => simp [source, target]
  | cons p ps ih =>
    rw [List.cons_append, locate, locate, ih, blen_target_cons, blen_source_cons]
    by_cases h : o < blen p.dst
    · rw [if_pos h, if_pos h, if_pos (by omega)]
    · rw [if_neg h, if_neg h]
      by_cases h' : o - blen p.dst < blen (target ps)
      · rw [if_pos h', if_pos (by omega)]
      · rw [if_neg h', if_neg (by omega), Nat.sub_sub]; omega

/-- The table describes the pieces. -/
structure TableOf (ps : List Piece) (t : OffsetTable) : Prop where
  wf : t.WF
  le : ∀ x ∈ t.offsets, x ≤ blen (target ps)
  loc : ∀ o : Nat, (o : Int) + t.at o = locate ps o

theorem tableOf_nil : TableOf [] .empty :=
  ⟨⟨rfl, by simp [OffsetTable.empty]⟩, by simp [OffsetTable.empty], by simp [OffsetTable.empty, OffsetTable.at, locate]⟩

theorem asUsize_nat (n : Nat) : asUsize (n : Int) = n := by simp [asUsize]

theorem TableOf.last {ps : List Piece} {t : OffsetTable} (h : TableOf ps t) :
    t.diffs.getLast?.getD 0 = (blen (source ps) : Int) - blen (target ps) := by
  rw [← OffsetTable.at_large h.wf h.le]
  have := h.loc (blen (target ps))
  rw [locate_ge ps (Nat.le_refl _)] at this
  omega

theorem TableOf.at_ge {ps : List Piece} {t : OffsetTable} (h : TableOf ps t) {o : Nat} (ho : blen (target ps) ≤ o) :
    t.at o = (blen (source ps) : Int) - blen (target ps) := by
  have := h.loc o
  rw [locate_ge ps ho] at this
  omega

/-- Recording one more piece keeps the table right. -/
theorem TableOf.record {ps : List Piece} {t : OffsetTable} (h : TableOf ps t) (p : Piece) :
    TableOf (ps ++ [p]) (t.record (blen (source ps) + blen p.src) (blen p.src) (blen p.dst)) := by
  have hlast := h.last
  have ht : blen (target (ps ++ [p])) = blen (target ps) + blen p.dst := by simp [target]
  unfold OffsetTable.record
  dsimp only
  rw [hlast]
  rcases Nat.lt_trichotomy (blen p.src) (blen p.dst) with hlt | heq | hgt
  · -- growing
    rw [if_pos (by omega), if_neg (by omega)]
    obtain ⟨k, hk⟩ : ∃ k, ((blen p.src : Int) - (blen p.dst : Int)).natAbs = k + 1 := ⟨blen p.dst - blen p.src - 1, by omega⟩
    rw [hk]
    have hO : asUsize ((↑(blen (source ps) + blen p.src) : Int) + -((blen (source ps) : Int) - blen (target ps)))
        = blen (target ps) + blen p.src := by
      rw [← asUsize_nat (blen (target ps) + blen p.src)]; congr 1; push_cast; omega
    rw [hO]
    obtain ⟨h1, h2, h3⟩ := OffsetTable.grow_spec h.wf (O := blen (target ps) + blen p.src)
      (prev := (blen (source ps) : Int) - blen (target ps)) (fun x hx => by have := h.le x hx; omega) k
    refine ⟨h1, fun x hx => by have := h2 x hx; omega, ?_⟩
    intro o
    rw [h3, locate_append]
    by_cases c1 : o < blen (target ps)
    · rw [if_pos c1, if_pos (by omega)]; exact h.loc o
    · rw [if_neg c1]
      simp only [locate]
      by_cases c2 : o < blen (target ps) + blen p.src
      · rw [if_pos c2, h.at_ge (by omega), if_pos (by omega)]; omega
      · rw [if_neg c2]
        by_cases c3 : o < blen (target ps) + blen p.dst
        · rw [if_pos (by omega)]; omega
        · rw [if_neg (by omega)]; omega
  · -- same length
    rw [if_neg (by omega)]
    refine ⟨h.wf, fun x hx => by have := h.le x hx; omega, ?_⟩
    intro o
    rw [h.loc, locate_append]
    by_cases c1 : o < blen (target ps)
    · rw [if_pos c1]
    · rw [if_neg c1, locate_ge ps (by omega)]
      simp only [locate]
      by_cases c3 : o - blen (target ps) < blen p.dst
      · rw [if_pos c3]; omega
      · rw [if_neg c3]; omega
  · -- shrinking
    rw [if_pos (by omega), if_pos (by omega)]
    have hO : asUsize ((↑(blen (source ps) + blen p.src) : Int) - ((blen p.src : Int) - blen p.dst) -
        ((blen (source ps) : Int) - blen (target ps))) = blen (target ps) + blen p.dst := by
      rw [← asUsize_nat (blen (target ps) + blen p.dst)]; congr 1; push_cast; omega
    rw [hO]
    obtain ⟨h1, h2, _, h4⟩ := OffsetTable.add_spec h.wf (offset := blen (target ps) + blen p.dst)
      (diff := (blen (source ps) : Int) - blen (target ps) + ((blen p.src : Int) - blen p.dst))
      (fun x hx => by have := h.le x hx; omega)
    refine ⟨h1, fun x hx => by have := h2 x hx; omega, ?_⟩
    intro o
    rw [h4, locate_append]
    by_cases c1 : o < blen (target ps)
    · rw [if_pos c1, if_neg (by omega)]; exact h.loc o
    · rw [if_neg c1]
      simp only [locate]
      by_cases c3 : o < blen (target ps) + blen p.dst
      · rw [if_neg (by omega), if_pos (by omega), h.at_ge (by omega)]; omega
      · rw [if_pos (by omega), if_neg (by omega)]; omega

theorem TableOf.copied {ps : List Piece} {t : OffsetTable} (h : TableOf ps t) (s : Str) : TableOf (ps ++ copied s) t := by
  induction s generalizing ps with
  | nil => simpa [Spec.copied] using h
  | cons c s ih =>
    have := h.record ⟨[c], [c]⟩
    rw [show t.record (blen (source ps) + blen [c]) (blen [c]) (blen [c]) = t by simp [OffsetTable.record]] at this
    have := ih this
    simpa [Spec.copied] using this

/-! ### `correct_offset` -/

theorem OffsetTable.binarySearch_spec {es : List (Nat × Int)} (hs : (es.map (·.1)).Pairwise (· < ·)) (o : Nat) :
    match binarySearch (es.map (·.1)) o with
    | .ok i => es[i]? = (es.filter (·.1 ≤ o)).getLast? ∧ (es.filter (·.1 ≤ o)) ≠ []
    | .error i => i = (es.filter (·.1 ≤ o)).length ∧ es.take i = es.filter (·.1 ≤ o) := by
  have key : ∀ es : List (Nat × Int), (es.map (·.1)).Pairwise (· < ·) →
      ∃ a b, es = a ++ b ∧ (es.map (·.1)).takeWhile (· < o) = a.map (·.1) ∧ (∀ e ∈ a, e.1 < o) ∧
        ((∀ e ∈ b, o < e.1) ∨ ∃ v r, b = (o, v) :: r ∧ ∀ e ∈ r, o < e.1) := by
    intro es
    induction es with
    | nil => intro _; exact ⟨[], [], rfl, rfl, by simp, by simp⟩
    | cons e es ih =>
      intro hs
      rw [List.map_cons, List.pairwise_cons] at hs
      by_cases he : e.1 < o
      · obtain ⟨a, b, h1, h2, h3, h4⟩ := ih hs.2
        refine ⟨e :: a, b, by rw [h1]; rfl, ?_, ?_, h4⟩
        · rw [List.map_cons, List.takeWhile_cons, if_pos (by simpa using he), h2]; rfl
        · simpa using ⟨he, fun x y h => h3 (x, y) h⟩
      · refine ⟨[], e :: es, rfl, ?_, by simp, ?_⟩
        · rw [List.map_cons, List.takeWhile_cons, if_neg (by simpa using he)]; rfl
        · have hgt : ∀ x ∈ es, o < x.1 := by
            intro x hx
            have := hs.1 x.1 (List.mem_map_of_mem hx); omega
          by_cases heq : e.1 = o
          · exact .inr ⟨e.2, es, by rw [← heq], hgt⟩
          · refine .inl ?_
            intro x hx
            rcases List.mem_cons.mp hx with rfl | hx
            · omega
            · exact hgt x hx
  obtain ⟨a, b, h1, h2, h3, h4⟩ := key es hs
  unfold binarySearch
  rw [h2]
  subst h1
  have ha : a.filter (fun e => decide (e.1 ≤ o)) = a := by
    rw [List.filter_eq_self]; intro e he; have := h3 e he; simpa using (by omega : e.1 ≤ o)
  have hb : ∀ r : List (Nat × Int), (∀ e ∈ r, o < e.1) → r.filter (fun e => decide (e.1 ≤ o)) = [] := by
    intro r hr
    rw [List.filter_eq_nil_iff]; intro e he; have := hr e he; simpa using this
  rcases h4 with h4 | ⟨v, r, rfl, hr⟩
  · have hf : (a ++ b).filter (fun e => decide (e.1 ≤ o)) = a := by rw [List.filter_append, ha, hb b h4, List.append_nil]
    have : ¬ ((a ++ b).map (·.1))[(a.map (·.1)).length]? = some o := by
      rw [List.map_append, List.getElem?_append_right (Nat.le_refl _), Nat.sub_self]
      cases b with
      | nil => simp
      | cons e b => have := h4 e (by simp); simp; omega
    rw [if_neg this, hf]
    simp
  · have hf : (a ++ (o, v) :: r).filter (fun e => decide (e.1 ≤ o)) = a ++ [(o, v)] := by
      rw [List.filter_append, ha, List.filter_cons, hb r hr]; simp
    have : ((a ++ (o, v) :: r).map (·.1))[(a.map (·.1)).length]? = some o := by
      rw [List.map_append, List.getElem?_append_right (Nat.le_refl _), Nat.sub_self]; rfl
    rw [if_pos this, hf]
    simp

theorem OffsetTable.correct_spec {t : OffsetTable} (wf : t.WF) {textLen : Nat} (hle : ∀ x ∈ t.offsets, x ≤ textLen) (o : Nat) :
    t.correct o textLen = .ok (asUsize ((o : Int) + t.at o)) := by
  obtain ⟨es, hz, h1, h2⟩ : ∃ es : List (Nat × Int), t.offsets.zip t.diffs = es ∧ t.offsets = es.map (·.1) ∧ t.diffs = es.map (·.2) :=
    ⟨_, rfl, (List.map_fst_zip (Nat.le_of_eq wf.len)).symm, (List.map_snd_zip (Nat.le_of_eq wf.len.symm)).symm⟩
  unfold OffsetTable.correct OffsetTable.index OffsetTable.at
  rw [hz, h2]
  have hs := wf.sorted
  rw [h1] at hs hle ⊢
  have hb := OffsetTable.binarySearch_spec hs o
  cases es with
  | nil => simp [asUsize]
  | cons e es =>
    rw [if_neg (by simp)]
    have hne : e :: es ≠ [] := by simp
    generalize e :: es = es at *
    cases hbs : binarySearch (es.map (·.1)) o with
    | ok i =>
      rw [hbs] at hb
      dsimp only at hb ⊢
      rw [List.getElem?_map, hb.1]
      cases hl : (es.filter (·.1 ≤ o)).getLast? with
      | none => rw [List.getLast?_eq_none_iff] at hl; exact absurd hl hb.2
      | some x => rfl
    | error i =>
      rw [hbs] at hb
      dsimp only at hb ⊢
      obtain ⟨hi, ht⟩ := hb
      by_cases h0 : i = 0
      · have hf : es.filter (·.1 ≤ o) = [] := by rw [← List.length_eq_zero_iff, ← hi, h0]
        rw [if_neg (by simpa using h0)]
        by_cases htl : i ≥ textLen
        · exfalso
          cases es with
          | nil => exact hne rfl
          | cons x xs =>
            have h3 := hle x.1 (by simp)
            rw [List.filter_eq_nil_iff] at hf
            have := hf x (by simp)
            simp at this
            omega
        · rw [if_neg htl, hf]; simp [asUsize]
      · rw [if_pos h0]
        dsimp only
        rw [List.getElem?_map, ← ht, List.getLast?_eq_getElem?]
        have hil : i ≤ es.length := by
          rw [hi]; exact List.length_filter_le _ _
        rw [List.length_take, Nat.min_eq_left hil, List.getElem?_take_of_lt (by omega)]
        obtain ⟨x, hx⟩ : ∃ x, es[i - 1]? = some x := by
          rw [← Option.isSome_iff_exists, isSome_getElem?]; omega
        rw [hx]; rfl

/-- The length of the text only matters when it is zero. -/
theorem OffsetTable.correct_len (t : OffsetTable) (o : Nat) {a b : Nat} (ha : 0 < a) (hb : 0 < b) : t.correct o a = t.correct o b := by
  have h : t.index o a = t.index o b := by
    unfold OffsetTable.index
    cases binarySearch t.offsets o with
    | ok i => rfl
    | error i =>
      by_cases h0 : i = 0
      · subst h0
        simp only [ne_eq, not_true_eq_false, if_false]
        rw [if_neg (by omega), if_neg (by omega)]
      · simp only [ne_eq, h0, not_false_eq_true, if_true]
  unfold OffsetTable.correct
  rw [h]

theorem OffsetTable.correct_spec_pos {t : OffsetTable} (wf : t.WF) {textLen : Nat} (hpos : 0 < textLen) (o : Nat) :
    t.correct o textLen = .ok (asUsize ((o : Int) + t.at o)) := by
  have sum : ∀ (l : List Nat), ∀ x ∈ l, x ≤ l.sum := by
    intro l
    induction l with
    | nil => simp
    | cons y l ih =>
      intro x hx
      rw [List.sum_cons]
      rcases List.mem_cons.mp hx with rfl | hx
      · omega
      · have := ih x hx; omega
  have hle : ∀ x ∈ t.offsets, x ≤ t.offsets.sum + 1 := fun x hx => Nat.le_succ_of_le (sum _ x hx)
  rw [← OffsetTable.correct_spec wf hle o]
  exact t.correct_len o hpos (by omega)

end Verif.Model
