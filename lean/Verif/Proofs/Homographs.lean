import Verif.Spec.Homographs
import Verif.Proofs.Repriced
/-! The chosen segmentation depends only on the words with the same text and their order. -/
namespace Verif.Model
open Verif.Spec

section same
variable {D : List DefLine} {U : List UnkLine} {C : List CostLine} {W W' : List Item}

theorem sameTexts_of_filter (h : ∀ s, W.filter (·.surface = s) = W'.filter (·.surface = s)) : SameTexts W W' := by
  intro s
  have : ∀ V : List Item, (∃ w ∈ V, w.surface = s) ↔ V.filter (·.surface = s) ≠ [] := by
    intro V
    rw [ne_eq, List.filter_eq_nil_iff]
    simp
  rw [this, this, h]

theorem mem_of_filter (h : ∀ s, W.filter (·.surface = s) = W'.filter (·.surface = s)) {w : Item} (hw : w ∈ W) : w ∈ W' := by
  have : w ∈ W.filter (·.surface = w.surface) := by simp [hw]
  rw [h] at this
  exact List.mem_of_mem_filter this

/-- Words that stay available keep a segmentation. -/
theorem sameTexts_segFrom' (h : SameTexts W W') {mode : Mode} {text : Str} {ws : List Item} : ∀ {pre : Str}, (∀ u ∈ ws, u ∈ W → u ∈ W') →
    Lexicon.SegFrom ⟨W, D, U, C⟩ mode text pre ws → Lexicon.SegFrom ⟨W', D, U, C⟩ mode text pre ws := by
  induction ws with
  | nil => intro _ _ hs; exact hs
  | cons w ws ih =>
    rintro pre hin ⟨⟨rest, reach, latest, ht, hs, hw⟩, hrest⟩
    refine ⟨⟨rest, reach, latest, ht, sameTexts_scan h hs, ?_⟩, ih (fun u hu => hin u (by simp [hu])) hrest⟩
    rcases hw with ⟨h1, h2, h3⟩ | ⟨ho, hw⟩
    · exact .inl ⟨hin w (by simp) h1, h2, h3⟩
    · exact .inr ⟨ho, (sameTexts_unknownAt h rest w).mp hw⟩

theorem written_unknown (h : SameTexts W W') {mode : Mode} {rest : Str} {k : Nat} {latest : Option Nat} {u : Item} {r i : Nat}
    (hw : Lexicon.WrittenAt ⟨W, D, U, C⟩ mode rest k latest u (.unknown r i)) : Lexicon.WrittenAt ⟨W', D, U, C⟩ mode rest k latest u (.unknown r i) := by
  obtain ⟨h1, name, s, l, hp, h2⟩ := hw
  exact ⟨h1, name, s, l, (sameTexts_proposes h _ _ _ _).mp hp, h2⟩

theorem written_filter (h : ∀ s, W.filter (·.surface = s) = W'.filter (·.surface = s)) {mode : Mode} {rest : Str} {k : Nat} {latest : Option Nat} {u : Item} {p : Slot}
    (hw : Lexicon.WrittenAt ⟨W, D, U, C⟩ mode rest k latest u p) : Lexicon.WrittenAt ⟨W', D, U, C⟩ mode rest k latest u p := by
  cases p with
  | known i =>
    obtain ⟨h1, h2, h3⟩ := hw
    exact ⟨h1, h2, by rw [← h3]; exact congrArg (·[i]?) (h u.surface).symm⟩
  | unknown r i => exact written_unknown (sameTexts_of_filter h) hw

theorem costBefore_words {mode : Mode} : ∀ {ws : List Item} {right : UInt16}, Lexicon.costBefore ⟨W', D, U, C⟩ mode right ws = Lexicon.costBefore ⟨W, D, U, C⟩ mode right ws
  | [], _ => rfl
  | w :: ws, right => by
    have h : Lexicon.conn ⟨W', D, U, C⟩ right w.leftId = Lexicon.conn ⟨W, D, U, C⟩ right w.leftId := rfl
    simp only [Lexicon.costBefore, h, costBefore_words]

/-- The costs still fit with some of the words, if these have the same texts. -/
theorem fewer_fit (h : SameTexts W' W) (hin : ∀ u ∈ W', u ∈ W) {mode : Mode} {text : Str} (hf : Lexicon.CostsFit ⟨W, D, U, C⟩ mode text) : Lexicon.CostsFit ⟨W', D, U, C⟩ mode text := by
  intro ws hb
  rw [costBefore_words (W := W)]
  refine hf ws fun a w b e => ?_
  obtain ⟨rest, reach, latest, ht, hs, hw⟩ := hb a w b e
  refine ⟨rest, reach, latest, ht, sameTexts_scan h hs, ?_⟩
  rcases hw with ⟨h1, h2, h3⟩ | ⟨ho, hw⟩
  · exact .inl ⟨hin w h1, h2, h3⟩
  · exact .inr ⟨ho, (sameTexts_unknownAt h rest w).mp hw⟩

end same

theorem sameHomographs_symm {L L' : Lexicon} (h : SameHomographs L L') : SameHomographs L' L :=
  ⟨fun s => (h.1 s).symm, h.2.1.symm, h.2.2.1.symm, h.2.2.2.symm⟩

theorem sameHomographs_fit {L L' : Lexicon} (h : SameHomographs L L') {mode : Mode} {text : Str} (hf : L.CostsFit mode text) : L'.CostsFit mode text := by
  obtain ⟨W, D, U, C⟩ := L
  obtain ⟨W', D', U', C'⟩ := L'
  obtain ⟨h, rfl, rfl, rfl⟩ := h
  have h' : ∀ s, W'.filter (·.surface = s) = W.filter (·.surface = s) := fun s => (h s).symm
  exact fewer_fit (sameTexts_of_filter h') (fun u hu => mem_of_filter h' hu) hf

theorem without_fit {L L' : Lexicon} {A : List Item} {w : Item} (h : Without L L' A w) (hs : ∃ u ∈ L'.words, u.surface = w.surface) {mode : Mode} {text : Str} (hf : L.CostsFit mode text) :
    L'.CostsFit mode text := by
  obtain ⟨W, D, U, C⟩ := L
  obtain ⟨W', D', U', C'⟩ := L'
  obtain ⟨⟨B, e1, e2⟩, rfl, rfl, rfl⟩ := h
  have hin : ∀ u ∈ W', u ∈ W := fun u hu => by
    dsimp only at e1 e2
    rw [e2] at hu
    rw [e1]
    simp only [List.mem_append, List.mem_cons] at hu ⊢
    tauto
  refine fewer_fit (fun s => ⟨fun ⟨u, hu, e⟩ => ⟨u, hin u hu, e⟩, fun ⟨u, hu, e⟩ => ?_⟩) hin hf
  dsimp only at e1 e2 hs
  rw [e1, List.mem_append, List.mem_cons] at hu
  rcases hu with hu | rfl | hu
  · exact ⟨u, by rw [e2]; simp [hu], e⟩
  · obtain ⟨v, hv, e'⟩ := hs
    exact ⟨v, hv, e'.trans e⟩
  · exact ⟨u, by rw [e2]; simp [hu], e⟩

/-- Only the words with the same text and their order matter. -/
theorem sameHomographs_chosen {L L' : Lexicon} (h : SameHomographs L L') {mode : Mode} {text : Str} {ws : List Item} (hs : L.Chosen mode text ws) : L'.Chosen mode text ws := by
  obtain ⟨W, D, U, C⟩ := L
  obtain ⟨W', D', U', C'⟩ := L'
  obtain ⟨h, rfl, rfl, rfl⟩ := h
  have h' : ∀ s, W'.filter (·.surface = s) = W.filter (·.surface = s) := fun s => (h s).symm
  have back : ∀ {vs}, Lexicon.Segmentation ⟨W', D', U', C'⟩ mode text vs → Lexicon.Segmentation ⟨W, D', U', C'⟩ mode text vs :=
    fun hv => sameTexts_segFrom' (sameTexts_of_filter h') (fun _ _ hu => mem_of_filter h' hu) hv
  have cost : ∀ {vs : List Item} {right : UInt16}, Lexicon.costFrom ⟨W', D', U', C'⟩ mode right vs = Lexicon.costFrom ⟨W, D', U', C'⟩ mode right vs :=
    fun {vs right} => costFrom_meetings fun _ _ => rfl
  refine ⟨sameTexts_segFrom' (sameTexts_of_filter h) (fun _ _ hu => mem_of_filter h hu) hs.segmentation, fun vs hv => ?_, ?_⟩
  · unfold Lexicon.cost
    rw [cost, cost]
    exact hs.cheapest vs (back hv)
  · intro a v b a' v' he hv hcost
    unfold Lexicon.cost at hcost
    rw [cost, cost] at hcost
    rcases hs.keep a v b a' v' he (back hv) hcost with hk | ⟨e, rest, reach, latest, ht, hsc, p, hp, hall⟩
    · exact .inl hk
    · exact .inr ⟨e, rest, reach, latest, ht, sameTexts_scan (sameTexts_of_filter h) hsc, p, written_filter h hp, fun p' hp' => hall p' (written_filter h' hp')⟩

/-! ### Removing a word -/

/-- Places in a list without one of its elements. -/
theorem remove_slot {α : Type} {A B : List α} {w v v' : α} {i : Nat} (hi : (A ++ w :: B)[i]? = some v) (hall : ∀ j : Nat, (A ++ w :: B)[j]? = some v' → i ≤ j) (hv : v = w → w ∈ A) :
    ∃ i2 : Nat, (A ++ B)[i2]? = some v ∧ ∀ j : Nat, (A ++ B)[j]? = some v' → i2 ≤ j := by
  have up : ∀ j : Nat, (A ++ B)[j]? = some v' → (j < A.length ∧ i ≤ j) ∨ (A.length ≤ j ∧ i ≤ j + 1) := by
    intro j hj
    by_cases hlt : j < A.length
    · rw [List.getElem?_append_left hlt] at hj
      exact .inl ⟨hlt, hall j (by rw [List.getElem?_append_left hlt]; exact hj)⟩
    · rw [List.getElem?_append_right (by omega)] at hj
      refine .inr ⟨by omega, hall (j + 1) ?_⟩
      rw [List.getElem?_append_right (by omega), show j + 1 - A.length = (j - A.length) + 1 by omega, List.getElem?_cons_succ]
      exact hj
  by_cases h1 : i < A.length
  · refine ⟨i, by rwa [List.getElem?_append_left h1] at hi ⊢, fun j hj => ?_⟩
    rcases up j hj with h | h <;> omega
  · rw [List.getElem?_append_right (by omega)] at hi
    cases hk : i - A.length with
    | zero =>
      rw [hk, List.getElem?_cons_zero, Option.some.injEq] at hi
      subst hi
      obtain ⟨i2, hlt, h2⟩ := List.getElem_of_mem (hv rfl)
      refine ⟨i2, by rw [List.getElem?_append_left hlt, List.getElem?_eq_getElem hlt, h2], fun j hj => ?_⟩
      rcases up j hj with h | h <;> omega
    | succ k =>
      rw [hk, List.getElem?_cons_succ] at hi
      refine ⟨A.length + k, by rw [List.getElem?_append_right (by omega), show A.length + k - A.length = k by omega]; exact hi, fun j hj => ?_⟩
      rcases up j hj with h | h <;> omega

/-- Removing a word that is not used, or that is also written before, changes nothing, if there is another word with its text. -/
theorem removed_chosen {L L' : Lexicon} {A : List Item} {w : Item} (h : Without L L' A w) (hs : ∃ u ∈ L'.words, u.surface = w.surface) {mode : Mode} {text : Str} {ws : List Item}
    (hc : L.Chosen mode text ws) (hw : w ∈ ws → w ∈ A) : L'.Chosen mode text ws := by
  obtain ⟨W, D, U, C⟩ := L
  obtain ⟨W', D', U', C'⟩ := L'
  obtain ⟨⟨B, rfl, rfl⟩, rfl, rfl, rfl⟩ := h
  have hst : SameTexts (A ++ w :: B) (A ++ B) := by
    intro s
    simp only [List.mem_append, List.mem_cons] at hs ⊢
    constructor
    · rintro ⟨u, hu | rfl | hu, rfl⟩
      · exact ⟨u, .inl hu, rfl⟩
      · exact hs
      · exact ⟨u, .inr hu, rfl⟩
    · rintro ⟨u, hu | hu, rfl⟩
      · exact ⟨u, .inl hu, rfl⟩
      · exact ⟨u, .inr (.inr hu), rfl⟩
  have cost : ∀ {vs : List Item} {right : UInt16}, Lexicon.costFrom ⟨A ++ B, D', U', C'⟩ mode right vs = Lexicon.costFrom ⟨A ++ w :: B, D', U', C'⟩ mode right vs :=
    fun {vs right} => costFrom_meetings fun _ _ => rfl
  have back : ∀ {vs}, Lexicon.Segmentation ⟨A ++ B, D', U', C'⟩ mode text vs → Lexicon.Segmentation ⟨A ++ w :: B, D', U', C'⟩ mode text vs :=
    fun hv => sameTexts_segFrom' (sameTexts_symm hst) (fun u _ hu => by simp only [List.mem_append, List.mem_cons] at hu ⊢; tauto) hv
  refine ⟨sameTexts_segFrom' hst (fun u hu hin => ?_) hc.segmentation, fun vs hv => ?_, ?_⟩
  · simp only [List.mem_append, List.mem_cons] at hin ⊢
    rcases hin with hin | rfl | hin
    · exact .inl hin
    · exact .inl (hw hu)
    · exact .inr hin
  · unfold Lexicon.cost
    rw [cost, cost]
    exact hc.cheapest vs (back hv)
  · intro a v b a' v' he hv hcost
    unfold Lexicon.cost at hcost
    rw [cost, cost] at hcost
    rcases hc.keep a v b a' v' he (back hv) hcost with hk | ⟨e, rest, reach, latest, ht, hsc, p, hp, hall⟩
    · exact .inl hk
    · refine .inr ⟨e, rest, reach, latest, ht, sameTexts_scan hst hsc, ?_⟩
      cases p with
      | unknown r i =>
        refine ⟨.unknown r i, written_unknown hst hp, fun p' hp' => ?_⟩
        cases p' with
        | unknown r' j => exact hall _ (written_unknown (sameTexts_symm hst) hp')
        | known j =>
          obtain ⟨h1, h2, h3⟩ := hp'
          have h4 : v' ∈ (A ++ w :: B).filter (·.surface = v'.surface) := by
            have h5 := List.mem_of_getElem? h3
            simp only [List.mem_filter, List.mem_append, List.mem_cons] at h5 ⊢
            tauto
          obtain ⟨n, hn, h6⟩ := List.getElem_of_mem h4
          exact absurd (hall (.known n) ⟨h1, h2, by rw [List.getElem?_eq_getElem hn, h6]⟩) (by simp [Slot.le])
      | known i =>
        obtain ⟨h1, h2, h3⟩ := hp
        have key : ∃ i2 : Nat, ((A ++ B).filter (·.surface = v.surface))[i2]? = some v ∧ ∀ j : Nat, ((A ++ B).filter (·.surface = v.surface))[j]? = some v' → i2 ≤ j := by
          have hall' : ∀ j : Nat, ((A ++ w :: B).filter (·.surface = v.surface))[j]? = some v' → i ≤ j := fun j hj =>
            hall (.known j) ⟨by rw [e]; exact h1, by rw [e]; exact h2, by rw [e]; exact hj⟩
          by_cases hsv : w.surface = v.surface
          · simp only [List.filter_append, List.filter_cons, hsv, decide_true, if_true] at h3 hall' ⊢
            refine remove_slot h3 hall' fun hvw => ?_
            rw [List.mem_filter]
            exact ⟨hw (by rw [he, hvw]; simp), by simp [hsv]⟩
          · simp only [List.filter_append, List.filter_cons, hsv, decide_false] at h3 hall' ⊢
            exact ⟨i, h3, hall'⟩
        obtain ⟨i2, k1, k2⟩ := key
        refine ⟨.known i2, ⟨h1, h2, k1⟩, fun p' hp' => ?_⟩
        cases p' with
        | unknown r' j => trivial
        | known j =>
          obtain ⟨-, -, g3⟩ := hp'
          rw [e] at g3
          exact k2 j g3

/-- The cost of a segmentation in which one word is exchanged for one with the same text and context ids. -/
theorem alike_cost {L : Lexicon} {mode : Mode} {u w : Item} (h : Alike u w) {b : List Item} : ∀ {a : List Item} {right : UInt16},
    L.costFrom mode right (a ++ u :: b) = L.costFrom mode right (a ++ w :: b) + (u.cost.toInt - w.cost.toInt)
  | [], right => by
    simp only [List.nil_append, Lexicon.costFrom, h.1, h.2.1, h.2.2]
    ring
  | x :: a, right => by
    simp only [List.cons_append, Lexicon.costFrom, alike_cost h (a := a)]
    ring

theorem alike_seg {L : Lexicon} {mode : Mode} {text : Str} {u w : Item} (h : u.surface = w.surface) (hu : u ∈ L.words) {b : List Item} : ∀ {a : List Item} {pre : Str},
    L.SegFrom mode text pre (a ++ w :: b) → L.SegFrom mode text pre (a ++ u :: b)
  | [], pre, ⟨⟨rest, reach, latest, ht, hs, hw⟩, hrest⟩ => by
    refine ⟨⟨rest, reach, latest, ht, hs, .inl ⟨hu, ?_⟩⟩, by rw [h]; exact hrest⟩
    rw [h]
    rcases hw with ⟨-, h2, h3⟩ | ⟨-, hw⟩
    · exact ⟨h2, h3⟩
    · exact lex_unknown_prefix hw
  | _ :: _, _, ⟨h1, hrest⟩ => ⟨h1, alike_seg h hu hrest⟩

/-- A word is not used if a cheaper one with the same text and context ids exists, or one of the same cost that is written before. -/
theorem dominated_unused {L : Lexicon} {A B : List Item} {w u : Item} (hL : L.words = A ++ w :: B) (ha : Alike u w) (hu : u ∈ L.words)
    (hcost : u.cost.toInt < w.cost.toInt ∨ (u.cost = w.cost ∧ u ∈ A)) {mode : Mode} {text : Str} {ws : List Item} (hc : L.Chosen mode text ws) (hw : w ∈ ws) : w ∈ A := by
  obtain ⟨a, b, rfl⟩ := List.append_of_mem hw
  have hseg : L.Segmentation mode text (a ++ u :: b) := alike_seg ha.1 hu hc.segmentation
  have hce : L.cost mode (a ++ u :: b) = L.cost mode (a ++ w :: b) + (u.cost.toInt - w.cost.toInt) := alike_cost ha
  rcases hcost with hlt | ⟨heq, huA⟩
  · have := hc.cheapest _ hseg
    omega
  · rcases hc.keep a w b a u rfl hseg (by rw [hce, heq]; omega) with hk | ⟨e, rest, reach, latest, ht, hsc, p, hp, hall⟩
    · rw [ha.1] at hk; omega
    · -- `w` is written before the last of the places of `u` in `A`
      have hpre : u.surface ≠ [] ∧ u.surface <+: rest := by
        have : ∀ {a : List Item} {pre : Str}, L.SegFrom mode text pre (a ++ w :: b) → (pre ++ (a.map (·.surface)).flatten) ++ rest = text → w.surface ≠ [] ∧ w.surface <+: rest := by
          intro a
          induction a with
          | nil =>
            rintro pre ⟨⟨rest', _, _, ht', _, hw'⟩, _⟩ e'
            simp only [List.map_nil, List.flatten_nil, List.append_nil] at e'
            rw [ht'] at e'
            have := List.append_cancel_left e'
            subst this
            rcases hw' with ⟨-, h2, h3⟩ | ⟨-, hw'⟩
            · exact ⟨h2, h3⟩
            · exact lex_unknown_prefix hw'
          | cons x a ih =>
            rintro pre ⟨_, h2⟩ e'
            exact ih h2 (by simpa using e')
        rw [ha.1]
        exact this (a := a) (pre := []) hc.segmentation (by simpa using ht.symm)
      have hmem : u ∈ A.filter (·.surface = u.surface) := by simp [huA]
      obtain ⟨n, hn, h6⟩ := List.getElem_of_mem hmem
      have hle := hall (.known n) ⟨hpre.1, hpre.2, by
        rw [hL, List.filter_append, List.getElem?_append_left hn, List.getElem?_eq_getElem hn, h6]⟩
      cases p with
      | unknown r i => exact absurd hle (by simp [Slot.le])
      | known i =>
        obtain ⟨-, -, h3⟩ := hp
        have hin : i < (A.filter (·.surface = w.surface)).length := by
          rw [ha.1] at hn
          exact Nat.lt_of_le_of_lt hle hn
        rw [hL, List.filter_append, List.getElem?_append_left hin] at h3
        exact List.mem_of_mem_filter (List.mem_of_getElem? h3)

end Verif.Model
