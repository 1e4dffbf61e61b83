import Verif.Spec.Repriced
import Verif.Proofs.Determined
import Mathlib.Tactic.Ring
import Mathlib.Tactic.Tauto
/-! Comparing the chosen segmentations of two lexicons that differ in costs. -/
namespace Verif.Model
open Verif.Spec

section scan
variable {D : List DefLine} {U : List UnkLine} {C C' : List CostLine} {W W' : List Item}

/-- The same texts are words of both lists. -/
def SameTexts (W W' : List Item) : Prop := ∀ s, (∃ w ∈ W, w.surface = s) ↔ (∃ w ∈ W', w.surface = s)

theorem sameTexts_symm (h : SameTexts W W') : SameTexts W' W := fun s => (h s).symm

theorem sameTexts_known (h : SameTexts W W') (rest s : Str) :
    (∃ w, Lexicon.KnownAt ⟨W, D, U, C⟩ rest w ∧ w.surface = s) ↔ ∃ w, Lexicon.KnownAt ⟨W', D, U, C'⟩ rest w ∧ w.surface = s := by
  constructor
  · rintro ⟨w, ⟨h1, h2, h3⟩, rfl⟩
    obtain ⟨w', h4, h5⟩ := (h w.surface).mp ⟨w, h1, rfl⟩
    exact ⟨w', ⟨h4, by rw [h5]; exact h2, by rw [h5]; exact h3⟩, h5⟩
  · rintro ⟨w, ⟨h1, h2, h3⟩, rfl⟩
    obtain ⟨w', h4, h5⟩ := (h w.surface).mpr ⟨w, h1, rfl⟩
    exact ⟨w', ⟨h4, by rw [h5]; exact h2, by rw [h5]; exact h3⟩, h5⟩

theorem sameTexts_known' (h : SameTexts W W') (rest : Str) :
    (∃ w, Lexicon.KnownAt ⟨W, D, U, C⟩ rest w) ↔ ∃ w, Lexicon.KnownAt ⟨W', D, U, C'⟩ rest w :=
  ⟨fun ⟨w, hw⟩ => let ⟨w', h', _⟩ := (sameTexts_known h rest w.surface).mp ⟨w, hw, rfl⟩; ⟨w', h'⟩,
   fun ⟨w, hw⟩ => let ⟨w', h', _⟩ := (sameTexts_known (D := D) (U := U) (C := C) (C' := C') h rest w.surface).mpr ⟨w, hw, rfl⟩; ⟨w', h'⟩⟩

theorem sameTexts_proposes (h : SameTexts W W') (rest name : Str) (rank : Nat) (s : Str) :
    Lexicon.Proposes ⟨W, D, U, C⟩ rest name rank s ↔ Lexicon.Proposes ⟨W', D, U, C'⟩ rest name rank s := by
  unfold Lexicon.Proposes
  rw [sameTexts_known' (D := D) (U := U) (C := C) (C' := C') h rest]
  have : Lexicon.unknownText ⟨W, D, U, C⟩ name rank = Lexicon.unknownText ⟨W', D, U, C'⟩ name rank := by
    funext g r
    cases r with
    | nil => rfl
    | cons c cs => rfl
  simp only [this]

theorem sameTexts_unknownAt (h : SameTexts W W') (rest : Str) (w : Item) :
    Lexicon.UnknownAt ⟨W, D, U, C⟩ rest w ↔ Lexicon.UnknownAt ⟨W', D, U, C'⟩ rest w := by
  unfold Lexicon.UnknownAt
  simp only [sameTexts_proposes (D := D) (U := U) (C := C) (C' := C') h]

theorem sameTexts_last (h : SameTexts W W') (rest : Str) (k : Nat) (o : Option Nat) :
    Lexicon.LastProposal ⟨W, D, U, C⟩ rest k o ↔ Lexicon.LastProposal ⟨W', D, U, C'⟩ rest k o := by
  unfold Lexicon.LastProposal
  simp only [sameTexts_proposes (D := D) (U := U) (C := C) (C' := C') h]

theorem sameTexts_ends (h : SameTexts W W') (mode : Mode) (rest : Str) (k : Nat) (latest : Option Nat) (p : Nat) :
    (∃ w, Lexicon.WordAt ⟨W, D, U, C⟩ mode rest k latest w ∧ p = k + blen w.surface) ↔
      ∃ w, Lexicon.WordAt ⟨W', D, U, C'⟩ mode rest k latest w ∧ p = k + blen w.surface := by
  constructor
  · rintro ⟨w, hw | ⟨ho, hw⟩, rfl⟩
    · obtain ⟨w', h1, h2⟩ := (sameTexts_known (C' := C') h rest w.surface).mp ⟨w, hw, rfl⟩
      exact ⟨w', .inl h1, by rw [h2]⟩
    · exact ⟨w, .inr ⟨ho, (sameTexts_unknownAt h rest w).mp hw⟩, rfl⟩
  · rintro ⟨w, hw | ⟨ho, hw⟩, rfl⟩
    · obtain ⟨w', h1, h2⟩ := (sameTexts_known (C := C) h rest w.surface).mpr ⟨w, hw, rfl⟩
      exact ⟨w', .inl h1, by rw [h2]⟩
    · exact ⟨w, .inr ⟨ho, (sameTexts_unknownAt h rest w).mpr hw⟩, rfl⟩

/-- The scan looks only at the texts of the words. -/
theorem sameTexts_scan (h : SameTexts W W') {mode : Mode} {text : Str} {k : Nat} {R : Nat → Prop} {l : Option Nat} (hs : Lexicon.Scan ⟨W, D, U, C⟩ mode text k R l) :
    Lexicon.Scan ⟨W', D, U, C'⟩ mode text k R l := by
  induction hs with
  | start => exact .start
  | skip _ hn ih => exact .skip ih hn
  | closed _ hr ht hp ho ih =>
    have := Lexicon.Scan.closed ih hr ht hp ho
    simp only [← sameTexts_ends (D := D) (U := U) (C := C) (C' := C') h] at this
    exact this
  | opened _ hr ht hp ho hl ih =>
    have := Lexicon.Scan.opened ih hr ht hp ho ((sameTexts_last h _ _ _).mp hl)
    simp only [← sameTexts_ends (D := D) (U := U) (C := C) (C' := C') h] at this
    exact this

theorem lex_unknown_prefix {L : Lexicon} {rest : Str} {w : Item} (h : L.UnknownAt rest w) : w.surface ≠ [] ∧ w.surface <+: rest := by
  obtain ⟨name, rank, s, l, ⟨c, tail, data, rfl, -, -, -, rfl⟩, -, -, rfl⟩ := h
  refine ⟨by simp [UnkLine.item, Lexicon.unknownText], ?_⟩
  simp only [UnkLine.item, Lexicon.unknownText]
  split
  · exact List.cons_prefix_cons.mpr ⟨rfl, List.takeWhile_prefix _⟩
  · exact List.cons_prefix_cons.mpr ⟨rfl, List.nil_prefix⟩

/-- Replacing words by words with the same text keeps a word usable. -/
theorem sameTexts_usable (h : SameTexts W W') {f : Item → Item} (hf : ∀ w, (f w).surface = w.surface) (hin : ∀ w, f w = w ∨ f w ∈ W') (hW : ∀ w ∈ W, f w ∈ W')
    {mode : Mode} {text pre : Str} {w : Item} (hu : Lexicon.Usable ⟨W, D, U, C⟩ mode text pre w) : Lexicon.Usable ⟨W', D, U, C'⟩ mode text pre (f w) := by
  obtain ⟨rest, reach, latest, ht, hs, hw⟩ := hu
  refine ⟨rest, reach, latest, ht, sameTexts_scan h hs, ?_⟩
  rcases hw with ⟨h1, h2, h3⟩ | ⟨ho, hw⟩
  · exact .inl ⟨hW w h1, by rw [hf]; exact h2, by rw [hf]; exact h3⟩
  · rcases hin w with he | he
    · rw [he]
      exact .inr ⟨ho, (sameTexts_unknownAt h rest w).mp hw⟩
    · obtain ⟨h2, h3⟩ := lex_unknown_prefix hw
      exact .inl ⟨he, by rw [hf]; exact h2, by rw [hf]; exact h3⟩

theorem sameTexts_segFrom (h : SameTexts W W') {f : Item → Item} (hf : ∀ w, (f w).surface = w.surface) (hin : ∀ w, f w = w ∨ f w ∈ W') (hW : ∀ w ∈ W, f w ∈ W')
    {mode : Mode} {text : Str} : ∀ {ws : List Item} {pre : Str}, Lexicon.SegFrom ⟨W, D, U, C⟩ mode text pre ws → Lexicon.SegFrom ⟨W', D, U, C'⟩ mode text pre (ws.map f)
  | [], _, hs => hs
  | w :: ws, pre, ⟨hu, hs⟩ => by
    refine ⟨sameTexts_usable h hf hin hW hu, ?_⟩
    show Lexicon.SegFrom _ mode text (pre ++ (f w).surface) (ws.map f)
    rw [hf]
    exact sameTexts_segFrom h hf hin hW hs

end scan

/-! ### One word -/

section word
variable {D : List DefLine} {U : List UnkLine} {C : List CostLine} {A B : List Item} {w : Item} {x : Int16}

/-- `w` becomes `v`. -/
def swapFor (w v u : Item) : Item := if u = w then v else u

theorem sameTexts_reprice : SameTexts (A ++ w :: B) (A ++ { w with cost := x } :: B) := by
  intro s
  simp only [List.mem_append, List.mem_cons]
  constructor
  · rintro ⟨u, h1 | rfl | h1, h2⟩
    · exact ⟨u, .inl h1, h2⟩
    · exact ⟨_, .inr (.inl rfl), h2⟩
    · exact ⟨u, .inr (.inr h1), h2⟩
  · rintro ⟨u, h1 | rfl | h1, h2⟩
    · exact ⟨u, .inl h1, h2⟩
    · exact ⟨w, .inr (.inl rfl), h2⟩
    · exact ⟨u, .inr (.inr h1), h2⟩

theorem swap_seg {mode : Mode} {text : Str} {ws : List Item} (h : Lexicon.Segmentation ⟨A ++ w :: B, D, U, C⟩ mode text ws) :
    Lexicon.Segmentation ⟨A ++ { w with cost := x } :: B, D, U, C⟩ mode text (ws.map (swapFor w { w with cost := x })) := by
  refine sameTexts_segFrom sameTexts_reprice ?_ ?_ ?_ h
  · intro u
    unfold swapFor
    split
    · rename_i e; rw [e]
    · rfl
  · intro u
    unfold swapFor
    split
    · exact .inr (by simp)
    · exact .inl rfl
  · intro u hu
    unfold swapFor
    split
    · simp
    · rename_i hne
      simp only [List.mem_append, List.mem_cons] at hu ⊢
      rcases hu with hu | hu | hu
      · exact .inl hu
      · exact absurd hu hne
      · exact .inr (.inr hu)

theorem swap_cost {W W' : List Item} {mode : Mode} {ws : List Item} : ∀ right,
    Lexicon.costFrom ⟨W', D, U, C⟩ mode right (ws.map (swapFor w { w with cost := x })) = Lexicon.costFrom ⟨W, D, U, C⟩ mode right ws + (x.toInt - w.cost.toInt) * (ws.count w : Int) := by
  induction ws with
  | nil => intro right; simp [Lexicon.costFrom, Lexicon.conn]
  | cons u ws ih =>
    intro right
    simp only [List.map_cons, Lexicon.costFrom]
    by_cases he : u = w
    · subst he
      rw [List.count_cons_self, show swapFor u { u with cost := x } u = { u with cost := x } by simp [swapFor]]
      simp only [ih, Lexicon.conn]
      push_cast
      ring
    · rw [List.count_cons_of_ne he, show swapFor w { w with cost := x } u = u by simp [swapFor, he]]
      simp only [ih, Lexicon.conn]
      ring

end word

theorem repriced_symm {L L' : Lexicon} {w : Item} {x : Int16} (h : Repriced L L' w x) : Repriced L' L { w with cost := x } w.cost := by
  obtain ⟨⟨A, B, h1, h2⟩, h3, h4, h5⟩ := h
  exact ⟨⟨A, B, h2, h1⟩, h3.symm, h4.symm, h5.symm⟩

theorem repriced_seg {L L' : Lexicon} {w : Item} {x : Int16} (h : Repriced L L' w x) {mode : Mode} {text : Str} {ws : List Item} (hs : L.Segmentation mode text ws) :
    L'.Segmentation mode text (ws.map (swapFor w { w with cost := x })) ∧
      L'.cost mode (ws.map (swapFor w { w with cost := x })) = L.cost mode ws + (x.toInt - w.cost.toInt) * (ws.count w : Int) := by
  obtain ⟨W, D, U, C⟩ := L
  obtain ⟨W', D', U', C'⟩ := L'
  obtain ⟨⟨A, B, rfl, rfl⟩, rfl, rfl, rfl⟩ := h
  exact ⟨swap_seg hs, swap_cost 0⟩

/-- A cheaper word is used at least as often. -/
theorem cheaper_count {L L' : Lexicon} {w : Item} {x : Int16} (h : Repriced L L' w x) (hx : x.toInt < w.cost.toInt) {mode : Mode} {text : Str} {ws ws' : List Item}
    (hs : L.Chosen mode text ws) (hs' : L'.Chosen mode text ws') : ws.count w ≤ ws'.count { w with cost := x } := by
  obtain ⟨g1, g2⟩ := repriced_seg h hs.segmentation
  obtain ⟨g3, g4⟩ := repriced_seg (repriced_symm h) hs'.segmentation
  have h1 := hs'.cheapest _ g1
  have h2 := hs.cheapest _ g3
  rw [g2] at h1
  rw [g4] at h2
  have h3 : (x.toInt - w.cost.toInt) * (ws'.count { w with cost := x } : Int) ≤ (x.toInt - w.cost.toInt) * (ws.count w : Int) := by
    simp only at h2
    have e : (w.cost.toInt - x.toInt) * (ws'.count { w with cost := x } : Int) = - ((x.toInt - w.cost.toInt) * (ws'.count { w with cost := x } : Int)) := by ring
    omega
  by_contra hlt
  have h4 : (ws'.count { w with cost := x } : Int) < (ws.count w : Int) := by omega
  have := Int.mul_lt_mul_of_neg_left h4 (show x.toInt - w.cost.toInt < 0 by omega)
  omega

theorem swap_self {w v : Item} {ws : List Item} (h : w ∉ ws) : ws.map (swapFor w v) = ws := by
  conv_rhs => rw [← List.map_id ws]
  refine List.map_congr_left fun u hu => ?_
  simp only [swapFor, id_eq, ite_eq_right_iff]
  rintro rfl
  exact absurd hu h

theorem filter_swap {A B : List Item} {w v : Item} (hv : v.surface = w.surface) {s : Str} {i : Nat} {u : Item} (hu : u ≠ w)
    (h : ((A ++ w :: B).filter (·.surface = s))[i]? = some u) : ((A ++ v :: B).filter (·.surface = s))[i]? = some u := by
  simp only [List.filter_append, List.filter_cons, hv] at h ⊢
  split at h
  · rename_i hs
    rw [if_pos hs]
    rw [List.getElem?_append] at h ⊢
    split
    · rename_i hlt
      rw [if_pos hlt] at h
      exact h
    · rename_i hlt
      rw [if_neg hlt] at h
      cases hi : i - (A.filter (·.surface = s)).length with
      | zero => rw [hi] at h; simp only [List.getElem?_cons_zero, Option.some.injEq] at h; exact absurd h.symm hu
      | succ j => rw [hi] at h; simpa using h
  · rename_i hs
    rw [if_neg hs]
    exact h

theorem written_swap {D : List DefLine} {U : List UnkLine} {C : List CostLine} {A B : List Item} {w : Item} {x : Int16} {mode : Mode} {rest : Str} {k : Nat} {latest : Option Nat} {u : Item} {p : Slot}
    (hu : u ≠ w) (h : Lexicon.WrittenAt ⟨A ++ w :: B, D, U, C⟩ mode rest k latest u p) : Lexicon.WrittenAt ⟨A ++ { w with cost := x } :: B, D, U, C⟩ mode rest k latest u p := by
  cases p with
  | known i =>
    obtain ⟨h1, h2, h3⟩ := h
    exact ⟨h1, h2, filter_swap (w := w) (v := { w with cost := x }) rfl hu h3⟩
  | unknown r i =>
    obtain ⟨h1, name, s, l, hp, h2⟩ := h
    exact ⟨h1, name, s, l, (sameTexts_proposes sameTexts_reprice _ _ _ _).mp hp, h2⟩

/-- Raising the cost of a word that is not used changes nothing. -/
theorem dearer_chosen {L L' : Lexicon} {w : Item} {x : Int16} (h : Repriced L L' w x) (hx : w.cost.toInt < x.toInt) {mode : Mode} {text : Str} {ws : List Item}
    (hs : L.Chosen mode text ws) (hw : w ∉ ws) : L'.Chosen mode text ws := by
  obtain ⟨g1, g2⟩ := repriced_seg h hs.segmentation
  rw [swap_self hw] at g1 g2
  rw [List.count_eq_zero_of_not_mem hw] at g2
  simp only [Int.natCast_zero, mul_zero, add_zero] at g2
  have key : ∀ vs, L'.Segmentation mode text vs → L.cost mode ws ≤ L'.cost mode vs ∧ (L'.cost mode vs = L.cost mode ws → { w with cost := x } ∉ vs ∧ L.Segmentation mode text vs ∧ L.cost mode vs = L.cost mode ws) := by
    intro vs hvs
    obtain ⟨k1, k2⟩ := repriced_seg (repriced_symm h) hvs
    have k3 := hs.cheapest _ k1
    have k4 : 0 ≤ (x.toInt - w.cost.toInt) * (vs.count { w with cost := x } : Int) := Int.mul_nonneg (by omega) (Int.natCast_nonneg _)
    have e : (w.cost.toInt - x.toInt) * (vs.count { w with cost := x } : Int) = - ((x.toInt - w.cost.toInt) * (vs.count { w with cost := x } : Int)) := by ring
    rw [k2] at k3
    simp only at k3
    refine ⟨by omega, fun he => ?_⟩
    have hn : { w with cost := x } ∉ vs := by
      intro hm
      have h1 : (0 : Int) < vs.count { w with cost := x } := by exact_mod_cast List.count_pos_iff.mpr hm
      have h2 : 0 < (x.toInt - w.cost.toInt) * (vs.count { w with cost := x } : Int) := Int.mul_pos (by omega) h1
      omega
    rw [swap_self hn] at k1 k2
    rw [List.count_eq_zero_of_not_mem hn] at k2
    simp only [Int.natCast_zero, mul_zero, add_zero] at k2
    exact ⟨hn, k1, by rw [k2, he]⟩
  refine ⟨g1, fun vs hvs => by rw [g2]; exact (key vs hvs).1, ?_⟩
  intro a v b a' v' he hseg hcost
  obtain ⟨hn, hseg', hcost'⟩ := (key _ hseg).2 (by rw [hcost, g2])
  have hk := hs.keep a v b a' v' he hseg' hcost'
  have hv : v ≠ w := by
    rintro rfl
    exact hw (by rw [he]; simp)
  have hv' : v' ≠ { w with cost := x } := by
    rintro rfl
    exact hn (by simp)
  rcases hk with hk | ⟨e1, rest, reach, latest, ht, hsc, p, hp, hall⟩
  · exact .inl hk
  · obtain ⟨W, D, U, C⟩ := L
    obtain ⟨W', D', U', C'⟩ := L'
    obtain ⟨⟨A, B, rfl, rfl⟩, rfl, rfl, rfl⟩ := h
    refine .inr ⟨e1, rest, reach, latest, ht, sameTexts_scan sameTexts_reprice hsc, p, written_swap hv hp, fun p' hp' => hall p' ?_⟩
    have := written_swap (w := { w with cost := x }) (x := w.cost) hv' hp'
    exact this

/-! ### Connection costs -/

theorem costFrom_meetings {L L' : Lexicon} {mode : Mode} {ws : List Item} : ∀ {right : UInt16}, (∀ m ∈ meetings right ws, L'.conn m.1 m.2 = L.conn m.1 m.2) → L'.costFrom mode right ws = L.costFrom mode right ws := by
  induction ws with
  | nil => intro right h; exact h (right, 0) (by simp [meetings])
  | cons w ws ih =>
    intro right h
    simp only [Lexicon.costFrom]
    rw [ih fun m hm => h m (by simp [meetings, hm]), h (right, w.leftId) (by simp [meetings])]

theorem costFrom_conn_le {L L' : Lexicon} (h : ∀ r l, L.conn r l ≤ L'.conn r l) {mode : Mode} {ws : List Item} : ∀ {right : UInt16}, L.costFrom mode right ws ≤ L'.costFrom mode right ws := by
  induction ws with
  | nil => intro right; exact h _ _
  | cons w ws ih =>
    intro right
    have h1 := h right w.leftId
    have h2 := @ih w.rightId
    simp only [Lexicon.costFrom]
    omega

/-- Raising connection costs that are not used changes nothing. -/
theorem raised_chosen {L L' : Lexicon} (hw : L'.words = L.words) (hd : L'.defs = L.defs) (hk : L'.unk = L.unk) (hc : ∀ r l, L.conn r l ≤ L'.conn r l) {mode : Mode} {text : Str} {ws : List Item}
    (hs : L.Chosen mode text ws) (hm : ∀ m ∈ meetings 0 ws, L'.conn m.1 m.2 = L.conn m.1 m.2) : L'.Chosen mode text ws := by
  have e1 : L'.cost mode ws = L.cost mode ws := costFrom_meetings hm
  obtain ⟨W, D, U, C⟩ := L
  obtain ⟨_, _, _, C'⟩ := L'
  obtain rfl : _ = W := hw
  obtain rfl : _ = D := hd
  obtain rfl : _ = U := hk
  rename_i W D U
  have hst : SameTexts W W := fun _ => Iff.rfl
  have hseg : ∀ {C C' : List CostLine} {vs : List Item}, Lexicon.Segmentation ⟨W, D, U, C⟩ mode text vs → Lexicon.Segmentation ⟨W, D, U, C'⟩ mode text vs := by
    intro C C' vs h
    have := sameTexts_segFrom (C' := C') hst (f := id) (fun _ => rfl) (fun _ => .inl rfl) (fun _ h => h) h
    rwa [List.map_id] at this
  have hle : ∀ vs, Lexicon.cost ⟨W, D, U, C⟩ mode vs ≤ Lexicon.cost ⟨W, D, U, C'⟩ mode vs := fun vs => costFrom_conn_le hc
  refine ⟨hseg hs.segmentation, fun vs hvs => ?_, ?_⟩
  · rw [e1]
    exact Int.le_trans (hs.cheapest vs (hseg hvs)) (hle vs)
  · intro a v b a' v' he hv hcost
    have h1 := hs.cheapest _ (hseg hv)
    have h2 := hle (a' ++ v' :: b)
    rw [e1] at hcost
    have h3 : Lexicon.cost ⟨W, D, U, C⟩ mode (a' ++ v' :: b) = Lexicon.cost ⟨W, D, U, C⟩ mode ws := by
      refine Int.le_antisymm ?_ h1
      exact Int.le_trans h2 (Int.le_of_eq hcost)
    have hk := hs.keep a v b a' v' he (hseg hv) h3
    rcases hk with hk | ⟨e1, rest, reach, latest, ht, hsc, p, hp, hall⟩
    · exact .inl hk
    · have hwr : ∀ {C C' : List CostLine} {u p}, Lexicon.WrittenAt ⟨W, D, U, C⟩ mode rest (blen (a.map (·.surface)).flatten) latest u p →
          Lexicon.WrittenAt ⟨W, D, U, C'⟩ mode rest (blen (a.map (·.surface)).flatten) latest u p := by
        intro C C' u p h
        cases p with
        | known i => exact h
        | unknown r i =>
          obtain ⟨h1, name, s, l, hp, h2⟩ := h
          exact ⟨h1, name, s, l, (sameTexts_proposes hst _ _ _ _).mp hp, h2⟩
      exact .inr ⟨e1, rest, reach, latest, ht, sameTexts_scan hst hsc, p, hwr hp, fun p' hp' => hall p' (hwr hp')⟩

/-! ### Tokens -/

theorem tokensFor_uses {w : Item} {ws : List Item} : ∀ {byte pos : Nat}, uses w (Lexicon.tokensFor byte pos ws) = ws.countP fun u => decide (u.surface = w.surface) && decide (u.details = w.details) := by
  induction ws with
  | nil => intro byte pos; rfl
  | cons u ws ih =>
    intro byte pos
    have := @ih (byte + blen u.surface) (pos + 1)
    simp only [uses] at this
    simp only [uses, Lexicon.tokensFor, List.countP_cons, this, ShowsWord, Option.some.injEq]

theorem segFrom_usable {L : Lexicon} {mode : Mode} {text : Str} {ws : List Item} : ∀ {pre : Str}, L.SegFrom mode text pre ws → ∀ u ∈ ws, u ∈ L.words ∨ u.details = ["UNK".toList] := by
  induction ws with
  | nil => intro _ _ u hu; cases hu
  | cons w ws ih =>
    rintro pre ⟨⟨rest, reach, latest, -, -, hw⟩, h⟩ u hu
    rcases List.mem_cons.mp hu with rfl | hu
    · rcases hw with hw | ⟨-, name, rank, s, l, -, -, -, rfl⟩
      · exact .inl hw.1
      · exact .inr rfl
    · exact ih h u hu

theorem countP_count {L : Lexicon} {w : Item} (hd : Distinguishable L w) {ws : List Item} (h : ∀ u ∈ ws, u ∈ L.words ∨ u.details = ["UNK".toList]) :
    ws.countP (fun u => decide (u.surface = w.surface) && decide (u.details = w.details)) = ws.count w := by
  rw [List.count]
  refine List.countP_congr fun u hu => ?_
  simp only [Bool.and_eq_true, decide_eq_true_eq, beq_iff_eq]
  constructor
  · rintro ⟨h1, h2⟩
    rcases h u hu with h3 | h3
    · exact hd.1 u h3 h1 h2
    · exact absurd (h2.symm.trans h3) hd.2
  · rintro rfl
    exact ⟨rfl, rfl⟩

theorem distinguishable_repriced {L L' : Lexicon} {w : Item} {x : Int16} (h : Repriced L L' w x) (hn : (L.words.count w) = 1) (hd : Distinguishable L w) : Distinguishable L' { w with cost := x } := by
  obtain ⟨⟨A, B, h1, h2⟩, -⟩ := h
  refine ⟨fun u hu e1 e2 => ?_, hd.2⟩
  rw [h2] at hu
  rw [h1] at hn
  have hnot : w ∉ A ++ B := by
    intro hm
    have : 0 < (A ++ B).count w := List.count_pos_iff.mpr hm
    simp only [List.count_append, List.count_cons_self] at hn this
    omega
  simp only [List.mem_append, List.mem_cons] at hu hnot
  have hm : u = { w with cost := x } ∨ (u ∈ A ∨ u ∈ B) := by tauto
  rcases hm with hm | hm
  · exact hm
  · have := hd.1 u (by rw [h1]; simp only [List.mem_append, List.mem_cons]; tauto) e1 e2
    subst this
    exact absurd hm hnot

end Verif.Model
