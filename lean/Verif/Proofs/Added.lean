import Verif.Spec.Added
import Verif.Proofs.Homographs
/-! Segmentations that do not use a word are segmentations without it. -/
namespace Verif.Model
open Verif.Spec

/-- For this text both lexicons look for the same unknown words at the same places. -/
structure Agree (L L' : Lexicon) (mode : Mode) (text : Str) : Prop where
  unk : L'.unk = L.unk
  proposes : ∀ rest name rank s, rest <:+ text → (L.Proposes rest name rank s ↔ L'.Proposes rest name rank s)
  scan : ∀ k reach latest, L.Scan mode text k reach latest → ∃ reach' latest', L'.Scan mode text k reach' latest' ∧ (unknownOpen mode latest k ↔ unknownOpen mode latest' k)
  scan' : ∀ k reach latest, L'.Scan mode text k reach latest → ∃ reach' latest', L.Scan mode text k reach' latest' ∧ (unknownOpen mode latest k ↔ unknownOpen mode latest' k)

namespace Agree
variable {L L' : Lexicon} {mode : Mode} {text : Str}

theorem symm (h : Agree L L' mode text) : Agree L' L mode text := ⟨h.unk.symm, fun r n k s hr => (h.proposes r n k s hr).symm, h.scan', h.scan⟩

theorem unknownAt (h : Agree L L' mode text) {rest : Str} (hr : rest <:+ text) {w : Item} (hw : L.UnknownAt rest w) : L'.UnknownAt rest w := by
  obtain ⟨name, rank, s, l, hp, h1, h2⟩ := hw
  exact ⟨name, rank, s, l, (h.proposes _ _ _ _ hr).mp hp, by rw [h.unk]; exact h1, h2⟩

theorem segFrom (h : Agree L L' mode text) {ws : List Item} : ∀ {pre : Str}, (∀ u ∈ ws, u ∈ L.words → u ∈ L'.words) → L.SegFrom mode text pre ws → L'.SegFrom mode text pre ws := by
  induction ws with
  | nil => intro _ _ hs; exact hs
  | cons w ws ih =>
    rintro pre hin ⟨⟨rest, reach, latest, ht, hs, hw⟩, hrest⟩
    obtain ⟨reach', latest', hs', ho'⟩ := h.scan _ _ _ hs
    refine ⟨⟨rest, reach', latest', ht, hs', ?_⟩, ih (fun u hu => hin u (by simp [hu])) hrest⟩
    rcases hw with ⟨h1, h2, h3⟩ | ⟨ho, hw⟩
    · exact .inl ⟨hin w (by simp) h1, h2, h3⟩
    · exact .inr ⟨ho'.mp ho, h.unknownAt ⟨pre, ht.symm⟩ hw⟩

theorem written (h : Agree L L' mode text) {rest : Str} (hr : rest <:+ text) {k : Nat} {latest latest' : Option Nat} (ho : unknownOpen mode latest k ↔ unknownOpen mode latest' k) {u : Item} {r i : Nat}
    (hw : L.WrittenAt mode rest k latest u (.unknown r i)) : L'.WrittenAt mode rest k latest' u (.unknown r i) := by
  obtain ⟨h1, name, s, l, hp, h2⟩ := hw
  exact ⟨ho.mp h1, name, s, l, (h.proposes _ _ _ _ hr).mp hp, by rw [h.unk]; exact h2⟩

/-- The costs still fit with some of the words. -/
theorem fewer (h : Agree L L' mode text) (hin : ∀ u ∈ L'.words, u ∈ L.words) (hcosts : L'.costs = L.costs) (hf : L.CostsFit mode text) : L'.CostsFit mode text := by
  intro ws hb
  have e : ∀ {vs : List Item} {right : UInt16}, L'.costBefore mode right vs = L.costBefore mode right vs := by
    intro vs
    induction vs with
    | nil => intro _; rfl
    | cons v vs ih => intro right; simp only [Lexicon.costBefore, Lexicon.conn, hcosts, ih]
  rw [e]
  refine hf ws fun a w b e => ?_
  obtain ⟨rest, reach, latest, ht, hs, hw⟩ := hb a w b e
  obtain ⟨reach', latest', hs', ho'⟩ := h.scan' _ _ _ hs
  refine ⟨rest, reach', latest', ht, hs', ?_⟩
  rcases hw with ⟨h1, h2, h3⟩ | ⟨ho, hw⟩
  · exact .inl ⟨hin w h1, h2, h3⟩
  · exact .inr ⟨ho'.mp ho, h.symm.unknownAt ⟨_, ht.symm⟩ hw⟩

end Agree

theorem without_agree_fit {L L' : Lexicon} {A : List Item} {w : Item} (h : Without L L' A w) {mode : Mode} {text : Str} (hag : Agree L L' mode text) (hf : L.CostsFit mode text) :
    L'.CostsFit mode text := by
  obtain ⟨⟨B, e1, e2⟩, -, -, hc⟩ := h
  refine hag.fewer (fun u hu => ?_) hc hf
  rw [e2] at hu
  rw [e1]
  simp only [List.mem_append, List.mem_cons] at hu ⊢
  tauto

/-- Removing a word that is not used changes nothing, if unknown words are looked for as before. -/
theorem dropped_chosen {L L' : Lexicon} {A : List Item} {w : Item} (h : Without L L' A w) {mode : Mode} {text : Str} (hag : Agree L L' mode text) {ws : List Item}
    (hc : L.Chosen mode text ws) (hw : w ∉ ws) : L'.Chosen mode text ws := by
  obtain ⟨W, D, U, C⟩ := L
  obtain ⟨W', D', U', C'⟩ := L'
  obtain ⟨⟨B, rfl, rfl⟩, rfl, rfl, rfl⟩ := h
  have cost : ∀ {vs : List Item} {right : UInt16}, Lexicon.costFrom ⟨A ++ B, D', U', C'⟩ mode right vs = Lexicon.costFrom ⟨A ++ w :: B, D', U', C'⟩ mode right vs :=
    fun {vs right} => costFrom_meetings fun _ _ => rfl
  have back : ∀ {vs}, Lexicon.Segmentation ⟨A ++ B, D', U', C'⟩ mode text vs → Lexicon.Segmentation ⟨A ++ w :: B, D', U', C'⟩ mode text vs :=
    fun hv => hag.symm.segFrom (fun u _ hu => by simp only [List.mem_append, List.mem_cons] at hu ⊢; tauto) hv
  refine ⟨hag.segFrom (fun u hu hin => ?_) hc.segmentation, fun vs hv => ?_, ?_⟩
  · simp only [List.mem_append, List.mem_cons] at hin ⊢
    rcases hin with hin | rfl | hin
    · exact .inl hin
    · exact absurd hu hw
    · exact .inr hin
  · unfold Lexicon.cost
    rw [cost, cost]
    exact hc.cheapest vs (back hv)
  · intro a v b a' v' he hv hcost
    unfold Lexicon.cost at hcost
    rw [cost, cost] at hcost
    rcases hc.keep a v b a' v' he (back hv) hcost with hk | ⟨e, rest, reach, latest, ht, hsc, p, hp, hall⟩
    · exact .inl hk
    · obtain ⟨reach', latest', hsc', ho⟩ := hag.scan _ _ _ hsc
      have hsuf : rest <:+ text := ⟨_, ht.symm⟩
      refine .inr ⟨e, rest, reach', latest', ht, hsc', ?_⟩
      cases p with
      | unknown r i =>
        refine ⟨.unknown r i, hag.written hsuf ho hp, fun p' hp' => ?_⟩
        cases p' with
        | unknown r' j => exact hall _ (hag.symm.written hsuf ho.symm hp')
        | known j =>
          obtain ⟨h1, h2, h3⟩ := hp'
          have h4 : v' ∈ (A ++ w :: B).filter (·.surface = v'.surface) := by
            have h5 := List.mem_of_getElem? h3
            simp only [List.mem_filter, List.mem_append, List.mem_cons] at h5 ⊢
            tauto
          obtain ⟨n, hn, h6⟩ := List.getElem_of_mem h4
          exact absurd (hall (.known n) ⟨h1, h2, by rw [List.getElem?_eq_getElem hn, h6]⟩) (by simp [Slot.le])
      | known i =>
        obtain ⟨h1, h2, h3⟩ := hp
        have key : ∃ i2 : Nat, ((A ++ B).filter (·.surface = v.surface))[i2]? = some v ∧ ∀ j : Nat, ((A ++ B).filter (·.surface = v.surface))[j]? = some v' → i2 ≤ j := by
          have hall' : ∀ j : Nat, ((A ++ w :: B).filter (·.surface = v.surface))[j]? = some v' → i ≤ j := fun j hj =>
            hall (.known j) ⟨by rw [e]; exact h1, by rw [e]; exact h2, by rw [e]; exact hj⟩
          by_cases hsv : w.surface = v.surface
          · simp only [List.filter_append, List.filter_cons, hsv, decide_true, if_true] at h3 hall' ⊢
            refine remove_slot h3 hall' fun hvw => absurd ?_ hw
            rw [he, hvw]; simp
          · simp only [List.filter_append, List.filter_cons, hsv, decide_false] at h3 hall' ⊢
            exact ⟨i, h3, hall'⟩
        obtain ⟨i2, k1, k2⟩ := key
        refine ⟨.known i2, ⟨h1, h2, k1⟩, fun p' hp' => ?_⟩
        cases p' with
        | unknown r' j => trivial
        | known j =>
          obtain ⟨-, -, g3⟩ := hp'
          rw [e] at g3
          exact k2 j g3

/-! ### Unknown words are looked for at the same places -/

section agree
variable {D : List DefLine} {U : List UnkLine} {C : List CostLine} {A B : List Item} {w : Item}

theorem known_more {rest : Str} {u : Item} (h : Lexicon.KnownAt ⟨A ++ B, D, U, C⟩ rest u) : Lexicon.KnownAt ⟨A ++ w :: B, D, U, C⟩ rest u := by
  obtain ⟨h1, h2⟩ := h
  refine ⟨?_, h2⟩
  simp only [List.mem_append, List.mem_cons] at h1 ⊢
  tauto

theorem known_less {rest : Str} {u : Item} (h : Lexicon.KnownAt ⟨A ++ w :: B, D, U, C⟩ rest u) : Lexicon.KnownAt ⟨A ++ B, D, U, C⟩ rest u ∨ (u = w ∧ w.surface ≠ [] ∧ w.surface <+: rest) := by
  obtain ⟨h1, h2⟩ := h
  simp only [List.mem_append, List.mem_cons] at h1
  rcases h1 with h1 | rfl | h1
  · exact .inl ⟨by simp [h1], h2⟩
  · exact .inr ⟨rfl, h2⟩
  · exact .inl ⟨by simp [h1], h2⟩

theorem hides_proposes {text : Str} (h : HidesNothing ⟨A ++ B, D, U, C⟩ w.surface text) {rest : Str} (hr : rest <:+ text) (name : Str) (rank : Nat) (s : Str) :
    Lexicon.Proposes ⟨A ++ w :: B, D, U, C⟩ rest name rank s ↔ Lexicon.Proposes ⟨A ++ B, D, U, C⟩ rest name rank s := by
  have ht : Lexicon.unknownText ⟨A ++ w :: B, D, U, C⟩ name rank = Lexicon.unknownText ⟨A ++ B, D, U, C⟩ name rank := by
    funext g r
    cases r <;> rfl
  unfold Lexicon.Proposes
  constructor
  · rintro ⟨c, tail, data, rfl, h1, h2, h3, rfl⟩
    refine ⟨c, tail, data, rfl, h1, h2, h3.imp_right fun hn ⟨u, hu⟩ => hn ⟨u, known_more hu⟩, by rw [ht]⟩
  · rintro ⟨c, tail, data, rfl, h1, h2, h3, rfl⟩
    refine ⟨c, tail, data, rfl, h1, h2, ?_, by rw [ht]⟩
    rcases h3 with h3 | hn
    · exact .inl h3
    · by_cases hw : ∃ u, Lexicon.KnownAt ⟨A ++ w :: B, D, U, C⟩ (c :: tail) u
      · left
        obtain ⟨u, hu⟩ := hw
        rcases known_less hu with hu | ⟨-, hne, post, hpost⟩
        · exact absurd ⟨u, hu⟩ hn
        · obtain ⟨pre, hpre⟩ := hr
          have hhead : w.surface.head? = some c := by
            cases hs : w.surface with
            | nil => exact absurd hs hne
            | cons d ds => rw [hs] at hpost; simp only [List.cons_append, List.cons.injEq] at hpost; simp [hpost.1]
          rcases h pre post c (by rw [List.append_assoc, hpost, hpre]) hhead with ⟨u, hu1, hu2, hu3⟩ | hall
          · exact absurd ⟨u, hu1, hu2, by rw [← hpost]; exact hu3⟩ hn
          · exact hall name (List.mem_of_getElem? h1) data (by rw [h2]; simp)
      · exact .inr hw

theorem cut_hides (h : CutInto (A ++ B) w.surface) (text : Str) : HidesNothing ⟨A ++ B, D, U, C⟩ w.surface text := by
  intro pre post c _ hc
  obtain ⟨us, h1, h2⟩ := h
  left
  cases us with
  | nil => rw [← h2] at hc; simp at hc
  | cons u us =>
    refine ⟨u, (h1 u (by simp)).1, (h1 u (by simp)).2, ?_⟩
    rw [← h2]
    simp only [List.map_cons, List.flatten_cons, List.append_assoc]
    exact List.prefix_append _ _

variable {mode : Mode} {text : Str}

/-- What the scans of both lexicons have reached: the same, apart from what will be reached through words that start later. -/
structure Ahead (W' : List Item) (text : Str) (k : Nat) (reach reach' : Nat → Prop) : Prop where
  less : ∀ p, reach' p → reach p
  more : ∀ p, reach p → reach' p ∨ ∃ pre us post, us ≠ [] ∧ k ≤ blen pre ∧ reach' (blen pre) ∧ (∀ u ∈ us, u ∈ W' ∧ u.surface ≠ []) ∧
    text = pre ++ (us.map (·.surface)).flatten ++ post ∧ p = blen pre + blen (us.map (·.surface)).flatten

theorem Ahead.now {W' : List Item} {k : Nat} {reach reach' : Nat → Prop} (h : Ahead W' text k reach reach') : reach k ↔ reach' k := by
  refine ⟨fun hr => ?_, h.less k⟩
  rcases h.more k hr with h | ⟨pre, us, post, hne, hk, -, hus, -, hp⟩
  · exact h
  · cases us with
    | nil => exact absurd rfl hne
    | cons u us =>
      have := blen_pos (hus u (by simp)).2
      simp only [List.map_cons, List.flatten_cons, blen_append] at hp
      omega

theorem Ahead.skip {W' : List Item} {k : Nat} {reach reach' : Nat → Prop} (h : Ahead W' text k reach reach') (hn : ¬ reach' k) : Ahead W' text (k + 1) reach reach' := by
  refine ⟨h.less, fun p hp => ?_⟩
  rcases h.more p hp with h1 | ⟨pre, us, post, hne, hk, hr, hrest⟩
  · exact .inl h1
  · have : k ≠ blen pre := fun e => hn (e ▸ hr)
    exact .inr ⟨pre, us, post, hne, by omega, hr, hrest⟩

theorem Ahead.step {k : Nat} {reach reach' : Nat → Prop} (h : Ahead (A ++ B) text k reach reach') (hcut : CutInto (A ++ B) w.surface) {pre rest : Str} (ht : text = pre ++ rest) (hk : blen pre = k)
    (latest : Option Nat) :
    Ahead (A ++ B) text (k + 1) (fun p => reach p ∨ ∃ v, Lexicon.WordAt ⟨A ++ w :: B, D, U, C⟩ mode rest k latest v ∧ p = k + blen v.surface)
      (fun p => reach' p ∨ ∃ v, Lexicon.WordAt ⟨A ++ B, D, U, C⟩ mode rest k latest v ∧ p = k + blen v.surface) := by
  have hpro := fun name rank s => hides_proposes (D := D) (U := U) (C := C) (cut_hides hcut text) (⟨pre, ht.symm⟩ : rest <:+ text) name rank s
  have hun : ∀ v, Lexicon.UnknownAt ⟨A ++ w :: B, D, U, C⟩ rest v ↔ Lexicon.UnknownAt ⟨A ++ B, D, U, C⟩ rest v := fun v => by
    unfold Lexicon.UnknownAt
    simp only [hpro]
  -- a way through words of the smaller list that starts here
  have way : ∀ us : List Item, us ≠ [] → (∀ u ∈ us, u ∈ A ++ B ∧ u.surface ≠ []) → ∀ post, rest = (us.map (·.surface)).flatten ++ post → ∀ p, p = k + blen (us.map (·.surface)).flatten →
      (reach' p ∨ ∃ v, Lexicon.WordAt ⟨A ++ B, D, U, C⟩ mode rest k latest v ∧ p = k + blen v.surface) ∨
      ∃ pre us post, us ≠ [] ∧ k + 1 ≤ blen pre ∧ (reach' (blen pre) ∨ ∃ v, Lexicon.WordAt ⟨A ++ B, D, U, C⟩ mode rest k latest v ∧ blen pre = k + blen v.surface) ∧
        (∀ u ∈ us, u ∈ A ++ B ∧ u.surface ≠ []) ∧ text = pre ++ (us.map (·.surface)).flatten ++ post ∧ p = blen pre + blen (us.map (·.surface)).flatten := by
    intro us hne hus post hrest p hp
    cases us with
    | nil => exact absurd rfl hne
    | cons u us =>
      have hu := hus u (by simp)
      have hpos := blen_pos hu.2
      simp only [List.map_cons, List.flatten_cons, List.append_assoc, blen_append] at hrest hp
      have hat : Lexicon.WordAt ⟨A ++ B, D, U, C⟩ mode rest k latest u := .inl ⟨hu.1, hu.2, by rw [hrest]; exact List.prefix_append _ _⟩
      by_cases hnil : us = []
      · subst hnil
        exact .inl (.inr ⟨u, hat, by simpa using hp⟩)
      · refine .inr ⟨pre ++ u.surface, us, post, hnil, by rw [blen_append]; omega, .inr ⟨u, hat, by rw [blen_append, hk]⟩, fun v hv => hus v (by simp [hv]), ?_, ?_⟩
        · rw [ht, hrest]; simp
        · rw [blen_append]; omega
  refine ⟨?_, ?_⟩
  · rintro p (hp | ⟨v, hv, rfl⟩)
    · exact .inl (h.less p hp)
    · refine .inr ⟨v, ?_, rfl⟩
      rcases hv with hv | ⟨ho, hv⟩
      · exact .inl (known_more hv)
      · exact .inr ⟨ho, (hun v).mpr hv⟩
  · rintro p (hp | ⟨v, hv, rfl⟩)
    · rcases h.more p hp with h1 | ⟨pre1, us, post, hne, hle, hr, hus, ht1, hp1⟩
      · exact .inl (.inl h1)
      · by_cases he : k = blen pre1
        · obtain ⟨rfl, hrest⟩ := prefix_unique (ht.symm.trans (ht1.trans (List.append_assoc _ _ _))) (hk.trans he)
          exact way us hne hus post hrest p (by rw [hp1, hk])
        · exact .inr ⟨pre1, us, post, hne, by omega, .inl hr, hus, ht1, hp1⟩
    · rcases hv with hv | ⟨ho, hv⟩
      · rcases known_less hv with hv | ⟨rfl, hne, post, hpost⟩
        · exact .inl (.inr ⟨v, .inl hv, rfl⟩)
        · obtain ⟨us, h1, h2⟩ := hcut
          refine way us ?_ h1 post (by rw [h2, hpost]) _ (by rw [h2])
          rintro rfl
          exact hne h2.symm
      · exact .inl (.inr ⟨v, .inr ⟨ho, (hun v).mp hv⟩, rfl⟩)

theorem cut_last (hcut : CutInto (A ++ B) w.surface) {pre rest : Str} (ht : text = pre ++ rest) (k : Nat) (o : Option Nat) :
    Lexicon.LastProposal ⟨A ++ w :: B, D, U, C⟩ rest k o ↔ Lexicon.LastProposal ⟨A ++ B, D, U, C⟩ rest k o := by
  have hpro := fun name rank s => hides_proposes (D := D) (U := U) (C := C) (cut_hides hcut text) (⟨pre, ht.symm⟩ : rest <:+ text) name rank s
  unfold Lexicon.LastProposal
  simp only [hpro]

theorem cut_scan (hcut : CutInto (A ++ B) w.surface) {k : Nat} {reach : Nat → Prop} {latest : Option Nat} (hs : Lexicon.Scan ⟨A ++ w :: B, D, U, C⟩ mode text k reach latest) :
    ∃ reach', Lexicon.Scan ⟨A ++ B, D, U, C⟩ mode text k reach' latest ∧ Ahead (A ++ B) text k reach reach' := by
  induction hs with
  | start => exact ⟨_, .start, fun _ h => h, fun _ h => .inl h⟩
  | skip _ hn ih =>
    obtain ⟨reach', hs', ha⟩ := ih
    have hn' := fun h => hn (ha.now.mpr h)
    exact ⟨reach', .skip hs' hn', ha.skip hn'⟩
  | closed _ hr ht hk ho ih =>
    obtain ⟨reach', hs', ha⟩ := ih
    exact ⟨_, .closed hs' (ha.now.mp hr) ht hk ho, ha.step hcut ht hk _⟩
  | opened _ hr ht hk ho hl ih =>
    obtain ⟨reach', hs', ha⟩ := ih
    exact ⟨_, .opened hs' (ha.now.mp hr) ht hk ho ((cut_last hcut ht _ _).mp hl), ha.step hcut ht hk _⟩

theorem cut_scan' (hcut : CutInto (A ++ B) w.surface) {k : Nat} {reach' : Nat → Prop} {latest : Option Nat} (hs : Lexicon.Scan ⟨A ++ B, D, U, C⟩ mode text k reach' latest) :
    ∃ reach, Lexicon.Scan ⟨A ++ w :: B, D, U, C⟩ mode text k reach latest ∧ Ahead (A ++ B) text k reach reach' := by
  induction hs with
  | start => exact ⟨_, .start, fun _ h => h, fun _ h => .inl h⟩
  | skip _ hn ih =>
    obtain ⟨reach, hs', ha⟩ := ih
    exact ⟨reach, .skip hs' fun h => hn (ha.now.mp h), ha.skip hn⟩
  | closed _ hr ht hk ho ih =>
    obtain ⟨reach, hs', ha⟩ := ih
    exact ⟨_, .closed hs' (ha.now.mpr hr) ht hk ho, ha.step hcut ht hk _⟩
  | opened _ hr ht hk ho hl ih =>
    obtain ⟨reach, hs', ha⟩ := ih
    exact ⟨_, .opened hs' (ha.now.mpr hr) ht hk ho ((cut_last hcut ht _ _).mpr hl), ha.step hcut ht hk _⟩

theorem cut_agree {L L' : Lexicon} {A : List Item} {w : Item} (h : Without L L' A w) (hcut : CutInto L'.words w.surface) (mode : Mode) (text : Str) : Agree L L' mode text := by
  obtain ⟨W, D, U, C⟩ := L
  obtain ⟨W', D', U', C'⟩ := L'
  obtain ⟨⟨B, rfl, rfl⟩, rfl, rfl, rfl⟩ := h
  refine ⟨rfl, fun rest name rank s hr => hides_proposes (cut_hides hcut text) hr name rank s, fun k reach latest hs => ?_, fun k reach latest hs => ?_⟩
  · obtain ⟨reach', hs', -⟩ := cut_scan hcut hs
    exact ⟨reach', latest, hs', Iff.rfl⟩
  · obtain ⟨reach', hs', -⟩ := cut_scan' hcut hs
    exact ⟨reach', latest, hs', Iff.rfl⟩

end agree

/-! ### Modes in which unknown words are looked for everywhere -/

theorem lex_lastProposal_exists (L : Lexicon) (rest : Str) (k : Nat) : ∃ o, L.LastProposal rest k o := by
  by_cases h : ∃ name rank s, L.Proposes rest name rank s
  · have bound : ∀ name rank s, L.Proposes rest name rank s → ∃ c tail, rest = c :: tail ∧ rank < (categoriesOf L.defs c.toNat).length := by
      rintro name rank s ⟨c, tail, data, rfl, h1, -⟩
      exact ⟨c, tail, rfl, (List.getElem?_eq_some_iff.mp h1).1⟩
    obtain ⟨name, rank, s, hp⟩ := h
    obtain ⟨c, tail, rfl, -⟩ := bound _ _ _ hp
    have : ∀ n, (∃ name rank s, L.Proposes (c :: tail) name rank s ∧ (categoriesOf L.defs c.toNat).length - n ≤ rank) →
        ∃ name rank s, L.Proposes (c :: tail) name rank s ∧ ∀ name' rank' s', L.Proposes (c :: tail) name' rank' s' → rank' ≤ rank := by
      intro n
      induction n with
      | zero =>
        rintro ⟨name, rank, s, hp, hle⟩
        obtain ⟨c', tail', he, hlt⟩ := bound _ _ _ hp
        cases he
        omega
      | succ n ih =>
        rintro ⟨name, rank, s, hp, hle⟩
        by_cases hd : ∃ name rank s, L.Proposes (c :: tail) name rank s ∧ (categoriesOf L.defs c.toNat).length - n ≤ rank
        · exact ih hd
        · refine ⟨name, rank, s, hp, fun name' rank' s' hp' => ?_⟩
          by_contra hgt
          exact hd ⟨name', rank', s', hp', by omega⟩
    obtain ⟨name, rank, s, hp, hmax⟩ := this (categoriesOf L.defs c.toNat).length ⟨name, rank, s, hp, by omega⟩
    exact ⟨_, .inl ⟨name, rank, s, hp, rfl, hmax⟩⟩
  · exact ⟨none, .inr ⟨rfl, h⟩⟩

theorem lex_scan_exists (L : Lexicon) (mode : Mode) (text : Str) : ∀ k, ∃ reach latest, L.Scan mode text k reach latest ∧ ∀ p, reach p → ∃ pre rest, text = pre ++ rest ∧ blen pre = p
  | 0 => ⟨_, _, .start, fun p hp => ⟨[], text, rfl, hp.symm⟩⟩
  | k + 1 => by
    obtain ⟨reach, latest, hs, hb⟩ := lex_scan_exists L mode text k
    by_cases hr : reach k
    · obtain ⟨pre, rest, ht, hk⟩ := hb k hr
      have hb' : ∀ p, (reach p ∨ ∃ w, L.WordAt mode rest k latest w ∧ p = k + blen w.surface) → ∃ pre rest, text = pre ++ rest ∧ blen pre = p := by
        rintro p (hp | ⟨w, hw, rfl⟩)
        · exact hb p hp
        · have hpre : w.surface <+: rest := by
            rcases hw with ⟨-, -, h⟩ | ⟨-, h⟩
            · exact h
            · exact (lex_unknown_prefix h).2
          obtain ⟨post, hpost⟩ := hpre
          exact ⟨pre ++ w.surface, post, by rw [ht, ← hpost, List.append_assoc], by rw [blen_append, hk]⟩
      by_cases ho : unknownOpen mode latest k
      · obtain ⟨o, hl⟩ := lex_lastProposal_exists L rest k
        exact ⟨_, _, .opened hs hr ht hk ho hl, hb'⟩
      · exact ⟨_, _, .closed hs hr ht hk ho, hb'⟩
    · exact ⟨_, _, .skip hs hr, hb⟩

theorem open_agree {L L' : Lexicon} {A : List Item} {w : Item} (h : Without L L' A w) {mode : Mode} (hm : mode ≠ .normal) {text : Str} (hh : HidesNothing L' w.surface text) : Agree L L' mode text := by
  obtain ⟨W, D, U, C⟩ := L
  obtain ⟨W', D', U', C'⟩ := L'
  obtain ⟨⟨B, rfl, rfl⟩, rfl, rfl, rfl⟩ := h
  refine ⟨rfl, fun rest name rank s hr => hides_proposes hh hr name rank s, fun k _ _ _ => ?_, fun k _ _ _ => ?_⟩
  · obtain ⟨reach, latest, hs, -⟩ := lex_scan_exists ⟨A ++ B, D', U', C'⟩ mode text k
    exact ⟨reach, latest, hs, by simp [unknownOpen, hm]⟩
  · obtain ⟨reach, latest, hs, -⟩ := lex_scan_exists ⟨A ++ w :: B, D', U', C'⟩ mode text k
    exact ⟨reach, latest, hs, by simp [unknownOpen, hm]⟩

theorem same_agree {L L' : Lexicon} {A : List Item} {w : Item} (h : Without L L' A w) {mode : Mode} {text : Str} (hs : SameUnknowns L L' mode text) : Agree L L' mode text := by
  refine ⟨h.2.2.1, hs.1, fun k _ _ h1 => ?_, fun k _ _ h1 => ?_⟩
  · obtain ⟨reach, latest, h2, -⟩ := lex_scan_exists L' mode text k
    exact ⟨reach, latest, h2, hs.2 _ _ _ _ _ h1 h2⟩
  · obtain ⟨reach, latest, h2, -⟩ := lex_scan_exists L mode text k
    exact ⟨reach, latest, h2, (hs.2 _ _ _ _ _ h2 h1).symm⟩

end Verif.Model
