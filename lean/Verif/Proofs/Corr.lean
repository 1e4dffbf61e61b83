import Verif.Proofs.Added
/-! Lexicons whose words are written at corresponding places, with corresponding costs, choose corresponding segmentations. -/
namespace Verif.Spec
open Verif.Model

variable {mode mode' : Mode} {text : Str}

/-- A word that may be used is written somewhere. -/
theorem wordAt_written {L : Lexicon} {rest : Str} {k : Nat} {latest : Option Nat} {w : Item} : L.WordAt mode rest k latest w ↔ ∃ p, L.WrittenAt mode rest k latest w p := by
  constructor
  · rintro (⟨h1, h2, h3⟩ | ⟨ho, name, rank, s, l, hp, hl, hn, rfl⟩)
    · have h4 : w ∈ L.words.filter (·.surface = w.surface) := by simp [h1]
      obtain ⟨n, hn, h6⟩ := List.getElem_of_mem h4
      exact ⟨.known n, h2, h3, by rw [List.getElem?_eq_getElem hn, h6]⟩
    · have h4 : l ∈ L.unk.filter (·.name = name) := by simp [hl, hn]
      obtain ⟨n, hn, h6⟩ := List.getElem_of_mem h4
      exact ⟨.unknown rank n, ho, name, s, l, hp, by rw [List.getElem?_eq_getElem hn, h6], rfl⟩
  · rintro ⟨p, hp⟩
    cases p with
    | known i =>
      obtain ⟨h1, h2, h3⟩ := hp
      exact .inl ⟨List.mem_of_mem_filter (List.mem_of_getElem? h3), h1, h2⟩
    | unknown r i =>
      obtain ⟨ho, name, s, l, hp, hl, rfl⟩ := hp
      have := List.mem_filter.mp (List.mem_of_getElem? hl)
      exact .inr ⟨ho, name, r, s, l, hp, this.1, by simpa using this.2, rfl⟩

theorem segFrom_split {L : Lexicon} {xs ys : List Item} : ∀ {pre : Str}, L.SegFrom mode text pre (xs ++ ys) → L.SegFrom mode text (pre ++ (xs.map (·.surface)).flatten) ys := by
  induction xs with
  | nil => intro pre h; simpa using h
  | cons x xs ih => intro pre h; simpa using ih h.2

/-- Words related by `R` are written at the same places, have the same texts, and the costs of related segmentations are related by a growing linear function. -/
structure Corr (R : Item → Item → Prop) (L L' : Lexicon) (mode mode' : Mode) : Prop where
  surface : ∀ {w w'}, R w w' → w'.surface = w.surface
  up : ∀ {rest k latest p w}, L.WrittenAt mode rest k latest w p → ∃ w', L'.WrittenAt mode' rest k latest w' p ∧ R w w'
  down : ∀ {rest k latest p w'}, L'.WrittenAt mode' rest k latest w' p → ∃ w, L.WrittenAt mode rest k latest w p ∧ R w w'
  last : ∀ rest k o, L'.LastProposal rest k o ↔ L.LastProposal rest k o
  unknown : ∀ latest k, unknownOpen mode' latest k ↔ unknownOpen mode latest k
  cost : ∃ k c : Int, 0 < k ∧ ∀ {ws ws'}, List.Forall₂ R ws ws' → L'.cost mode' ws' = k * L.cost mode ws + c

namespace Corr
variable {R : Item → Item → Prop} {L L' : Lexicon}

theorem cost_le (h : Corr R L L' mode mode') {ws ws' vs vs' : List Item} (hw : List.Forall₂ R ws ws') (hv : List.Forall₂ R vs vs') :
    L'.cost mode' ws' ≤ L'.cost mode' vs' ↔ L.cost mode ws ≤ L.cost mode vs := by
  obtain ⟨k, c, hk, hc⟩ := h.cost
  rw [hc hw, hc hv, Int.add_le_add_iff_right]
  exact ⟨fun hx => Int.le_of_mul_le_mul_left hx hk, fun hx => Int.mul_le_mul_of_nonneg_left hx hk.le⟩

theorem cost_eq (h : Corr R L L' mode mode') {ws ws' vs vs' : List Item} (hw : List.Forall₂ R ws ws') (hv : List.Forall₂ R vs vs') (he : L'.cost mode' ws' = L'.cost mode' vs') :
    L.cost mode ws = L.cost mode vs :=
  le_antisymm ((h.cost_le hw hv).mp he.le) ((h.cost_le hv hw).mp he.ge)

theorem ends (h : Corr R L L' mode mode') (rest : Str) (k : Nat) (latest : Option Nat) (p : Nat) :
    (∃ w, L.WordAt mode rest k latest w ∧ p = k + blen w.surface) ↔ ∃ w, L'.WordAt mode' rest k latest w ∧ p = k + blen w.surface := by
  constructor
  · rintro ⟨w, hw, rfl⟩
    obtain ⟨q, hq⟩ := wordAt_written.mp hw
    obtain ⟨w', h1, h2⟩ := h.up hq
    exact ⟨w', wordAt_written.mpr ⟨q, h1⟩, by rw [h.surface h2]⟩
  · rintro ⟨w', hw, rfl⟩
    obtain ⟨q, hq⟩ := wordAt_written.mp hw
    obtain ⟨w, h1, h2⟩ := h.down hq
    exact ⟨w, wordAt_written.mpr ⟨q, h1⟩, by rw [h.surface h2]⟩

theorem scan (h : Corr R L L' mode mode') {k : Nat} {reach : Nat → Prop} {l : Option Nat} : L.Scan mode text k reach l ↔ L'.Scan mode' text k reach l := by
  constructor <;> intro hs
  · induction hs with
    | start => exact .start
    | skip _ hn ih => exact .skip ih hn
    | closed _ hr ht hp ho ih =>
      have := Lexicon.Scan.closed ih hr ht hp (by rw [h.unknown]; exact ho)
      simp only [← h.ends] at this
      exact this
    | opened _ hr ht hp ho hl ih =>
      have := Lexicon.Scan.opened ih hr ht hp ((h.unknown _ _).mpr ho) ((h.last _ _ _).mpr hl)
      simp only [← h.ends] at this
      exact this
  · induction hs with
    | start => exact .start
    | skip _ hn ih => exact .skip ih hn
    | closed _ hr ht hp ho ih =>
      have := Lexicon.Scan.closed ih hr ht hp (by rw [← h.unknown]; exact ho)
      simp only [h.ends] at this
      exact this
    | opened _ hr ht hp ho hl ih =>
      have := Lexicon.Scan.opened ih hr ht hp ((h.unknown _ _).mp ho) ((h.last _ _ _).mp hl)
      simp only [h.ends] at this
      exact this

theorem surfaces (h : Corr R L L' mode mode') {ws ws' : List Item} (hr : List.Forall₂ R ws ws') : ws'.map (·.surface) = ws.map (·.surface) := by
  induction hr with
  | nil => rfl
  | cons h1 _ ih => rw [List.map_cons, List.map_cons, h.surface h1, ih]

/-- The beginning of a segmentation of the second lexicon, continued by one of the first. -/
theorem lower (h : Corr R L L' mode mode') {xs' ys' ys : List Item} : ∀ {pre : Str}, L'.SegFrom mode' text pre (xs' ++ ys') → L.SegFrom mode text (pre ++ (xs'.map (·.surface)).flatten) ys →
    ∃ xs, List.Forall₂ R xs xs' ∧ L.SegFrom mode text pre (xs ++ ys) := by
  induction xs' with
  | nil => intro pre _ hy; exact ⟨[], .nil, by simpa using hy⟩
  | cons x' xs' ih =>
    rintro pre ⟨⟨rest, reach, latest, ht, hs, hw⟩, hx⟩ hy
    obtain ⟨xs, h1, h2⟩ := ih hx (by simpa using hy)
    obtain ⟨q, hq⟩ := wordAt_written.mp hw
    obtain ⟨x, h3, h4⟩ := h.down hq
    exact ⟨x :: xs, .cons h4 h1, ⟨rest, reach, latest, ht, h.scan.mpr hs, wordAt_written.mpr ⟨q, h3⟩⟩, by rw [h.surface h4] at h2; exact h2⟩

/-- Words of both lexicons that are written at the same places, which are the first places of the words of the first lexicon. -/
inductive Paired (R : Item → Item → Prop) (L L' : Lexicon) (mode mode' : Mode) (text : Str) : Str → List Item → List Item → Prop
  | nil {pre} : Paired R L L' mode mode' text pre [] []
  | cons {pre w w' ws ws'} (rest : Str) (reach : Nat → Prop) (latest : Option Nat) (p : Slot) : text = pre ++ rest → L.Scan mode text (blen pre) reach latest →
      L.WrittenAt mode rest (blen pre) latest w p → (∀ q, L.WrittenAt mode rest (blen pre) latest w q → p.le q) → L'.WrittenAt mode' rest (blen pre) latest w' p → R w w' →
      Paired R L L' mode mode' text (pre ++ w.surface) ws ws' → Paired R L L' mode mode' text pre (w :: ws) (w' :: ws')

theorem pair (h : Corr R L L' mode mode') {ws : List Item} (hc : L.Chosen mode text ws) : ∀ (b a : List Item), ws = a ++ b → ∃ b', Paired R L L' mode mode' text (a.map (·.surface)).flatten b b'
  | [], _, _ => ⟨[], .nil⟩
  | v :: b, a, he => by
    obtain ⟨b', hb⟩ := pair h hc b (a ++ [v]) (by rw [he]; simp)
    rcases hc.keep a v b a v he (he ▸ hc.segmentation) (by rw [he]) with hk | ⟨-, rest, reach, latest, ht, hs, p, hp, hmin⟩
    · omega
    · obtain ⟨v', h1, h2⟩ := h.up hp
      exact ⟨v' :: b', .cons rest reach latest p ht hs hp hmin h1 h2 (by simpa using hb)⟩

theorem Paired.rel {pre : Str} {ws ws' : List Item} (h : Paired R L L' mode mode' text pre ws ws') : List.Forall₂ R ws ws' := by
  induction h with
  | nil => exact .nil
  | cons _ _ _ _ _ _ _ _ _ h1 _ ih => exact .cons h1 ih

theorem Paired.seg (hR : Corr R L L' mode mode') {pre : Str} {ws ws' : List Item} (h : Paired R L L' mode mode' text pre ws ws') (hs : L.SegFrom mode text pre ws) :
    L'.SegFrom mode' text pre ws' := by
  induction h with
  | nil => exact hs
  | cons rest reach latest p ht hsc hp _ hp' hrel _ ih =>
    refine ⟨⟨rest, reach, latest, ht, hR.scan.mp hsc, wordAt_written.mpr ⟨p, hp'⟩⟩, ?_⟩
    rw [hR.surface hrel]
    exact ih hs.2

theorem Paired.split {a' : List Item} : ∀ {pre : Str} {ws : List Item} {v' : Item} {b' : List Item}, Paired R L L' mode mode' text pre ws (a' ++ v' :: b') → ∃ a v b, ws = a ++ v :: b ∧
    List.Forall₂ R a a' ∧ Paired R L L' mode mode' text (pre ++ (a.map (·.surface)).flatten) (v :: b) (v' :: b') := by
  induction a' with
  | nil =>
    intro pre ws v' b' h
    cases h with
    | cons rest reach latest p h1 h2 h3 h4 h5 h6 h7 =>
      rename_i v b
      exact ⟨[], v, b, rfl, .nil, by simpa using Paired.cons rest reach latest p h1 h2 h3 h4 h5 h6 h7⟩
  | cons x' a' ih =>
    intro pre ws v' b' h
    cases h with
    | cons rest reach latest p h1 h2 h3 h4 h5 h6 h7 =>
      rename_i x ws
      obtain ⟨a, v, b, rfl, g1, g2⟩ := ih h7
      exact ⟨x :: a, v, b, rfl, .cons h6 g1, by simpa using g2⟩

/-- Corresponding lexicons choose corresponding segmentations. -/
theorem chosen (h : Corr R L L' mode mode') {ws : List Item} (hc : L.Chosen mode text ws) : ∃ ws', L'.Chosen mode' text ws' ∧ List.Forall₂ R ws ws' := by
  obtain ⟨ws', hp⟩ := h.pair hc ws [] rfl
  have hp : Paired R L L' mode mode' text [] ws ws' := hp
  have hseg' : L'.Segmentation mode' text ws' := hp.seg h hc.segmentation
  refine ⟨ws', ⟨hseg', fun vs' hv => ?_, ?_⟩, hp.rel⟩
  · obtain ⟨vs, h1, h2⟩ := h.lower (ys' := []) (ys := []) (xs' := vs') (pre := []) (by rw [List.append_nil]; exact hv) (by
      have := (lex_segFrom_surfaces hv).1
      simpa [Lexicon.SegFrom] using this)
    rw [h.cost_le hp.rel h1]
    exact hc.cheapest vs (by rw [List.append_nil] at h2; exact h2)
  · intro a' v' b' x' u' he hv heq
    subst he
    obtain ⟨a, v, b, rfl, ha, hvb⟩ := hp.split
    rw [List.nil_append] at hvb
    cases hvb with
    | cons rest reach latest p ht hs hpv hmin hpv' hrel hb =>
      have hpre : (a'.map (·.surface)).flatten = (a.map (·.surface)).flatten := by rw [h.surfaces ha]
      have hbs : b'.map (·.surface) = b.map (·.surface) := h.surfaces hb.rel
      -- the text before the tail is the same
      have hfront : (x'.map (·.surface)).flatten ++ u'.surface = (a.map (·.surface)).flatten ++ v.surface := by
        have e1 := (lex_segFrom_surfaces hv).1
        have e2 := (lex_segFrom_surfaces hc.segmentation).1
        simp only [List.nil_append, List.map_append, List.map_cons, List.flatten_append, List.flatten_cons, hbs] at e1 e2
        have := e1.trans e2.symm
        rw [← List.append_assoc, ← List.append_assoc] at this
        exact List.append_cancel_right this
      have htail : L.SegFrom mode text ((x'.map (·.surface)).flatten ++ u'.surface) b := by
        rw [hfront]
        have := (segFrom_split (xs := a ++ [v]) (ys := b) (pre := []) (by rw [List.append_assoc]; exact hc.segmentation))
        simpa using this
      have huse : L'.Usable mode' text (x'.map (·.surface)).flatten u' := by
        have := segFrom_split hv
        simpa using this.1
      obtain ⟨rest2, reach2, latest2, ht2, hs2, hw2⟩ := huse
      -- every place of `u'` is one of a word with which there is a segmentation of the first lexicon
      have key : ∀ q, L'.WrittenAt mode' rest2 (blen (x'.map (·.surface)).flatten) latest2 u' q → ∃ u, L.WrittenAt mode rest2 (blen (x'.map (·.surface)).flatten) latest2 u q ∧
          u.surface = u'.surface ∧ L.ToKeep mode text (a.map (·.surface)).flatten v u := by
        intro q hq
        obtain ⟨u, h1, h2⟩ := h.down hq
        obtain ⟨x, h3, h4⟩ := h.lower (xs' := x') (ys' := u' :: b') (ys := u :: b) (pre := []) hv
          ⟨⟨rest2, reach2, latest2, by simpa using ht2, h.scan.mpr (by simpa using hs2), by simpa using wordAt_written.mpr ⟨q, h1⟩⟩, by rw [← h.surface h2]; simpa using htail⟩
        exact ⟨u, h1, (h.surface h2).symm, hc.keep a v b x u rfl h4 (h.cost_eq (List.rel_append h3 (.cons h2 hb.rel)) hp.rel heq)⟩
      obtain ⟨q0, hq0⟩ := wordAt_written.mp hw2
      obtain ⟨u0, -, es, hk⟩ := key q0 hq0
      rcases hk with hk | ⟨e, -⟩
      · left
        rw [h.surface hrel, ← es]; exact hk
      · right
        have hsame : u'.surface = v'.surface := by rw [h.surface hrel, ← e, es]
        have hpre2 : (x'.map (·.surface)).flatten = (a.map (·.surface)).flatten := by
          rw [hsame, h.surface hrel] at hfront
          exact List.append_cancel_right hfront
        rw [hpre2] at ht2 hs2 key
        obtain rfl : rest2 = rest := List.append_cancel_left (ht2.symm.trans ht)
        obtain ⟨rfl, -⟩ := lex_scan_unique (h.scan.mpr hs2) hs
        refine ⟨hsame, rest2, reach2, latest2, by rw [hpre]; exact ht2, by rw [hpre]; exact hs2, p, by rw [hpre]; exact hpv', fun q hq => ?_⟩
        rw [hpre] at hq
        obtain ⟨u, h1, h2, h3⟩ := key q hq
        rcases h3 with h3 | ⟨-, rest3, reach3, latest3, ht3, hs3, p3, hp3, hall3⟩
        · rw [h2, hsame, h.surface hrel] at h3; omega
        · obtain rfl : rest3 = rest2 := List.append_cancel_left (ht3.symm.trans ht2)
          obtain ⟨rfl, -⟩ := lex_scan_unique hs3 hs
          exact Slot.le_trans (hmin p3 hp3) (hall3 q h1)

theorem all_chosen (h : Corr R L L' mode mode') {ss : List Str} {segs : List (List Item)} (hc : List.Forall₂ (L.Chosen mode) ss segs) :
    ∃ segs', List.Forall₂ (L'.Chosen mode') ss segs' ∧ List.Forall₂ R segs.flatten segs'.flatten := by
  induction hc with
  | nil => exact ⟨[], .nil, .nil⟩
  | cons h1 _ ih =>
    obtain ⟨segs', g1, g2⟩ := ih
    obtain ⟨ws', k1, k2⟩ := h.chosen h1
    exact ⟨ws' :: segs', .cons k1 g1, List.rel_append k2 g2⟩

theorem begins (h : Corr R L L' mode mode') {ws' : List Item} (hb : L'.Begins mode' text ws') : ∃ ws, List.Forall₂ R ws ws' ∧ L.Begins mode text ws := by
  have go : ∀ (ws' : List Item) (pre : Str), (∀ a w b, ws' = a ++ w :: b → L'.Usable mode' text (pre ++ (a.map (·.surface)).flatten) w) →
      ∃ ws, List.Forall₂ R ws ws' ∧ ∀ a w b, ws = a ++ w :: b → L.Usable mode text (pre ++ (a.map (·.surface)).flatten) w := by
    intro ws'
    induction ws' with
    | nil => exact fun _ _ => ⟨[], .nil, fun a w b he => by cases a <;> cases he⟩
    | cons w' ws' ih =>
      intro pre hu
      obtain ⟨rest, reach, latest, ht, hs, hw⟩ := hu [] w' ws' rfl
      obtain ⟨q, hq⟩ := wordAt_written.mp hw
      obtain ⟨w, h1, h2⟩ := h.down hq
      obtain ⟨ws, h3, h4⟩ := ih (pre ++ w'.surface) fun a v b he => by
        have := hu (w' :: a) v b (by rw [he]; rfl)
        simpa using this
      refine ⟨w :: ws, .cons h2 h3, fun a v b he => ?_⟩
      cases a with
      | nil =>
        cases he
        exact ⟨rest, reach, latest, ht, h.scan.mpr hs, wordAt_written.mpr ⟨q, h1⟩⟩
      | cons x a =>
        cases he
        have := h4 a v b rfl
        rw [h.surface h2] at this
        simpa using this
  obtain ⟨ws, h1, h2⟩ := go ws' [] fun a w b he => by simpa using hb a w b he
  exact ⟨ws, h1, fun a w b he => by simpa using h2 a w b he⟩

end Corr
end Verif.Spec
