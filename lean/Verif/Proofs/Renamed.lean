import Verif.Spec.Renamed
import Verif.Proofs.Corr
/-! Lexicons that correspond place by place choose corresponding segmentations. -/
namespace Verif.Spec
open Verif.Model

/-! ### Categories -/

section defs
variable {ν : Str → Str}

theorem firsts_map {α β : Type} [DecidableEq α] [DecidableEq β] {f : α → β} (hf : Function.Injective f) : ∀ xs : List α, firsts (xs.map f) = (firsts xs).map f
  | [] => rfl
  | x :: xs => by
    simp only [List.map_cons, firsts, firsts_map hf xs, List.filter_map, List.cons.injEq, true_and]
    congr 1
    apply List.filter_congr
    intro y _
    simp [hf.eq_iff]

theorem definitionsOf_rename (hν : Function.Injective ν) (defs : List DefLine) (name : Str) : definitionsOf (defs.map (DefLine.rename ν)) (ν name) = definitionsOf defs name := by
  unfold definitionsOf
  rw [List.filterMap_map]
  apply List.filterMap_congr
  intro l _
  cases l with
  | category n d => simp [DefLine.rename, hν.eq_iff]
  | range low high names => simp [DefLine.rename]

theorem categoriesOf_rename (hν : Function.Injective ν) (hd : ν "DEFAULT".toList = "DEFAULT".toList) (defs : List DefLine) (c : Nat) :
    categoriesOf (defs.map (DefLine.rename ν)) c = (categoriesOf defs c).map ν := by
  have hd' : ν ['D', 'E', 'F', 'A', 'U', 'L', 'T'] = ['D', 'E', 'F', 'A', 'U', 'L', 'T'] := hd
  have h1 : (defs.map (DefLine.rename ν)).flatMap (DefLine.categoriesOf c) = (defs.flatMap (DefLine.categoriesOf c)).map ν := by
    rw [List.flatMap_map, List.map_flatMap]
    congr 1
    funext l
    cases l with
    | category n d => rfl
    | range low high names => simp only [DefLine.rename, DefLine.categoriesOf]; split <;> rfl
  have h2 : ['D', 'E', 'F', 'A', 'U', 'L', 'T'] ∈ (defs.map (DefLine.rename ν)).flatMap DefLine.names ↔ ['D', 'E', 'F', 'A', 'U', 'L', 'T'] ∈ defs.flatMap DefLine.names := by
    have : (defs.map (DefLine.rename ν)).flatMap DefLine.names = (defs.flatMap DefLine.names).map ν := by
      rw [List.flatMap_map, List.map_flatMap]
      congr 1
      funext l
      cases l <;> rfl
    rw [this]
    constructor
    · intro h
      obtain ⟨n, hn, e⟩ := List.mem_map.mp h
      rw [← hd'] at e
      rw [← hν e]; exact hn
    · intro h
      have := List.mem_map_of_mem (f := ν) h
      rwa [hd'] at this
  unfold categoriesOf
  simp only [h1, h2, firsts_map hν, List.map_eq_nil_iff]
  split
  · simp [hd']
  · rfl

end defs

namespace Renamed
variable {lm rm : UInt16 → UInt16} {ν : Str → Str} {L L' : Lexicon} {mode : Mode} {text : Str}

theorem sameTexts (h : Renamed lm rm ν L L') : SameTexts L.words L'.words := by
  intro s
  have go : ∀ {W W' : List Item}, List.Forall₂ (fun w w' : Item => w'.surface = w.surface ∧ w'.leftId = lm w.leftId ∧ w'.rightId = rm w.rightId ∧ w'.cost = w.cost) W W' →
      ((∃ w ∈ W, w.surface = s) ↔ ∃ w ∈ W', w.surface = s) := by
    intro W W' hW
    induction hW with
    | nil => simp
    | cons h1 _ ih => simp only [List.mem_cons, exists_eq_or_imp, h1.1, ih]
  exact go h.words

theorem knownAny (h : Renamed lm rm ν L L') (rest : Str) : (∃ w, L.KnownAt rest w) ↔ ∃ w, L'.KnownAt rest w := by
  constructor
  · rintro ⟨w, h1, h2, h3⟩
    obtain ⟨w', h4, h5⟩ := (h.sameTexts w.surface).mp ⟨w, h1, rfl⟩
    exact ⟨w', h4, by rw [h5]; exact h2, by rw [h5]; exact h3⟩
  · rintro ⟨w, h1, h2, h3⟩
    obtain ⟨w', h4, h5⟩ := (h.sameTexts w.surface).mpr ⟨w, h1, rfl⟩
    exact ⟨w', h4, by rw [h5]; exact h2, by rw [h5]; exact h3⟩

theorem categories (h : Renamed lm rm ν L L') (c : Nat) : categoriesOf L'.defs c = (categoriesOf L.defs c).map ν := by
  rw [h.defs, categoriesOf_rename h.names h.default]

theorem unknownText (h : Renamed lm rm ν L L') (name : Str) (rank : Nat) (group : Bool) (rest : Str) : L'.unknownText (ν name) rank group rest = L.unknownText name rank group rest := by
  cases rest with
  | nil => rfl
  | cons c cs =>
    simp only [Lexicon.unknownText]
    have : L'.hasCategory (ν name) rank = L.hasCategory name rank := by
      funext d
      simp only [Lexicon.hasCategory, h.categories, List.getElem?_map]
      cases (categoriesOf L.defs d.toNat)[rank]? with
      | none => rfl
      | some n => simp [h.names.eq_iff]
    rw [this]

theorem proposes (h : Renamed lm rm ν L L') (rest name' : Str) (rank : Nat) (s : Str) : L'.Proposes rest name' rank s ↔ ∃ name, name' = ν name ∧ L.Proposes rest name rank s := by
  unfold Lexicon.Proposes
  constructor
  · rintro ⟨c, tail, data, rfl, h1, h2, h3, rfl⟩
    rw [h.categories, List.getElem?_map] at h1
    cases hc : (categoriesOf L.defs c.toNat)[rank]? with
    | none => rw [hc] at h1; cases h1
    | some name =>
      rw [hc] at h1
      cases h1
      rw [h.defs, definitionsOf_rename h.names] at h2
      exact ⟨name, rfl, c, tail, data, rfl, hc, h2, by rw [h.knownAny]; exact h3, h.unknownText ..⟩
  · rintro ⟨name, rfl, c, tail, data, rfl, h1, h2, h3, rfl⟩
    exact ⟨c, tail, data, rfl, by rw [h.categories, List.getElem?_map, h1]; rfl, by rw [h.defs, definitionsOf_rename h.names]; exact h2, by rw [← h.knownAny]; exact h3, (h.unknownText ..).symm⟩

theorem last (h : Renamed lm rm ν L L') (rest : Str) (k : Nat) (o : Option Nat) : L'.LastProposal rest k o ↔ L.LastProposal rest k o := by
  unfold Lexicon.LastProposal
  simp only [h.proposes]
  constructor
  · rintro (⟨-, rank, s, ⟨name, rfl, hp⟩, ho, hm⟩ | ⟨ho, hn⟩)
    · exact .inl ⟨name, rank, s, hp, ho, fun n r t ht => hm _ r t ⟨n, rfl, ht⟩⟩
    · exact .inr ⟨ho, fun ⟨n, r, t, ht⟩ => hn ⟨_, r, t, n, rfl, ht⟩⟩
  · rintro (⟨name, rank, s, hp, ho, hm⟩ | ⟨ho, hn⟩)
    · refine .inl ⟨_, rank, s, ⟨name, rfl, hp⟩, ho, ?_⟩
      rintro _ r t ⟨n, rfl, ht⟩
      exact hm n r t ht
    · refine .inr ⟨ho, ?_⟩
      rintro ⟨_, r, t, n, rfl, ht⟩
      exact hn ⟨n, r, t, ht⟩

end Renamed

/-- Corresponding words. -/
structure Renamed.Rel (lm rm : UInt16 → UInt16) (L : Lexicon) (w w' : Item) : Prop where
  surface : w'.surface = w.surface
  left : w'.leftId = lm w.leftId
  right : w'.rightId = rm w.rightId
  cost : w'.cost = w.cost
  leftUsed : L.LeftUsed w.leftId
  rightUsed : L.RightUsed w.rightId

/-- Corresponding words with the same details. -/
def Renamed.Shown (L L' : Lexicon) (w w' : Item) : Prop := SameDetails L L' → w'.details = w.details

theorem forall₂_filter {α β : Type} {R : α → β → Prop} {p : α → Bool} {q : β → Bool} {xs : List α} {ys : List β} (h : List.Forall₂ R xs ys) (hpq : ∀ x y, R x y → p x = q y) :
    List.Forall₂ R (xs.filter p) (ys.filter q) := by
  induction h with
  | nil => exact .nil
  | cons h1 _ ih =>
    simp only [List.filter_cons, hpq _ _ h1]
    split
    · exact .cons h1 ih
    · exact ih

theorem forall₂_get {α β : Type} {R : α → β → Prop} {xs : List α} {ys : List β} (h : List.Forall₂ R xs ys) (i : Nat) :
    (∀ x, xs[i]? = some x → ∃ y, ys[i]? = some y ∧ R x y) ∧ (∀ y, ys[i]? = some y → ∃ x, xs[i]? = some x ∧ R x y) := by
  induction h generalizing i with
  | nil => simp
  | cons h1 _ ih =>
    cases i with
    | zero => simpa using h1
    | succ i => simpa using ih i

theorem forall₂_details {R : Item → Item → Prop} {xs ys : List Item} (h : List.Forall₂ R xs ys) (hd : ys.map (·.details) = xs.map (·.details)) :
    List.Forall₂ (fun w w' => R w w' ∧ w'.details = w.details) xs ys := by
  induction h with
  | nil => exact .nil
  | cons h1 _ ih =>
    simp only [List.map_cons, List.cons.injEq] at hd
    exact .cons ⟨h1, hd.1⟩ (ih hd.2)

namespace Renamed
variable {lm rm : UInt16 → UInt16} {ν : Str → Str} {L L' : Lexicon} {mode : Mode} {text : Str}

theorem pairs (h : Renamed lm rm ν L L') : List.Forall₂ (fun w w' => (w'.surface = w.surface ∧ w'.leftId = lm w.leftId ∧ w'.rightId = rm w.rightId ∧ w'.cost = w.cost) ∧ Shown L L' w w') L.words L'.words := by
  by_cases hd : SameDetails L L'
  · exact (forall₂_details h.words hd).imp fun _ _ hx => ⟨hx.1, fun _ => hx.2⟩
  · exact h.words.imp fun _ _ hx => ⟨hx, fun h => absurd h hd⟩

theorem slot (h : Renamed lm rm ν L L') {rest : Str} {k : Nat} {latest : Option Nat} {p : Slot} :
    (∀ w, L.WrittenAt mode rest k latest w p → ∃ w', L'.WrittenAt mode rest k latest w' p ∧ Rel lm rm L w w' ∧ Shown L L' w w') ∧
    (∀ w', L'.WrittenAt mode rest k latest w' p → ∃ w, L.WrittenAt mode rest k latest w p ∧ Rel lm rm L w w' ∧ Shown L L' w w') := by
  cases p with
  | known i =>
    have hf : ∀ s, List.Forall₂ (fun w w' => (w'.surface = w.surface ∧ w'.leftId = lm w.leftId ∧ w'.rightId = rm w.rightId ∧ w'.cost = w.cost) ∧ Shown L L' w w')
        (L.words.filter (·.surface = s)) (L'.words.filter (·.surface = s)) := fun s => forall₂_filter h.pairs fun x y hxy => by rw [hxy.1.1]
    constructor
    · rintro w ⟨h1, h2, h3⟩
      obtain ⟨w', h4, ⟨e1, e2, e3, e4⟩, e5⟩ := (forall₂_get (hf w.surface) i).1 w h3
      have hm := List.mem_of_mem_filter (List.mem_of_getElem? h3)
      exact ⟨w', ⟨by rw [e1]; exact h1, by rw [e1]; exact h2, by rw [e1]; exact h4⟩, ⟨e1, e2, e3, e4, .inr (.inl ⟨w, hm, rfl⟩), .inr (.inl ⟨w, hm, rfl⟩)⟩, e5⟩
    · rintro w' ⟨h1, h2, h3⟩
      obtain ⟨w, h4, ⟨e1, e2, e3, e4⟩, e5⟩ := (forall₂_get (hf w'.surface) i).2 w' h3
      have hm := List.mem_of_mem_filter (List.mem_of_getElem? h4)
      rw [e1] at h1 h2 h4
      exact ⟨w, ⟨h1, h2, h4⟩, ⟨e1, e2, e3, e4, .inr (.inl ⟨w, hm, rfl⟩), .inr (.inl ⟨w, hm, rfl⟩)⟩, e5⟩
  | unknown r i =>
    have hu : ∀ name, L'.unk.filter (·.name = ν name) = (L.unk.filter (·.name = name)).map fun l => ⟨ν l.name, lm l.left, rm l.right, l.cost⟩ := by
      intro name
      rw [h.unk, List.filter_map]
      congr 1
      apply List.filter_congr
      intro l _
      simp [h.names.eq_iff]
    constructor
    · rintro w ⟨ho, name, s, l, hp, hl, rfl⟩
      have hm := List.mem_of_mem_filter (List.mem_of_getElem? hl)
      exact ⟨UnkLine.item ⟨ν l.name, lm l.left, rm l.right, l.cost⟩ s, ⟨ho, ν name, s, ⟨ν l.name, lm l.left, rm l.right, l.cost⟩, (h.proposes ..).mpr ⟨name, rfl, hp⟩, by rw [hu, List.getElem?_map, hl]; rfl, rfl⟩,
        ⟨rfl, rfl, rfl, rfl, .inr (.inr ⟨l, hm, rfl⟩), .inr (.inr ⟨l, hm, rfl⟩)⟩, fun _ => rfl⟩
    · rintro w' ⟨ho, name', s, l', hp, hl, rfl⟩
      obtain ⟨name, rfl, hp0⟩ := (h.proposes ..).mp hp
      rw [hu, List.getElem?_map] at hl
      cases hl0 : (L.unk.filter (·.name = name))[i]? with
      | none => rw [hl0] at hl; cases hl
      | some l =>
        rw [hl0] at hl
        cases hl
        have hm := List.mem_of_mem_filter (List.mem_of_getElem? hl0)
        exact ⟨l.item s, ⟨ho, name, s, l, hp0, hl0, rfl⟩, ⟨rfl, rfl, rfl, rfl, .inr (.inr ⟨l, hm, rfl⟩), .inr (.inr ⟨l, hm, rfl⟩)⟩, fun _ => rfl⟩

theorem costFrom (h : Renamed lm rm ν L L') {ws ws' : List Item} (hr : List.Forall₂ (Rel lm rm L) ws ws') : ∀ {right : UInt16}, L.RightUsed right →
    L'.costFrom mode (rm right) ws' = L.costFrom mode right ws := by
  induction hr with
  | nil =>
    intro right hu
    have := h.costs right 0 hu (.inl rfl)
    rw [h.edge.1] at this
    exact this
  | cons h1 _ ih =>
    intro right hu
    simp only [Lexicon.costFrom]
    rw [h1.left, h1.right, h1.cost, h1.surface, h.costs _ _ hu h1.leftUsed, ih h1.rightUsed]

theorem cost (h : Renamed lm rm ν L L') {ws ws' : List Item} (hr : List.Forall₂ (Rel lm rm L) ws ws') : L'.cost mode ws' = L.cost mode ws := by
  have := h.costFrom (mode := mode) hr (.inl rfl : L.RightUsed 0)
  rwa [h.edge.2] at this

theorem corr (h : Renamed lm rm ν L L') (mode : Mode) : Corr (fun w w' => Rel lm rm L w w' ∧ Shown L L' w w') L L' mode mode where
  surface hr := hr.1.surface
  up hw := h.slot.1 _ hw
  down hw := h.slot.2 _ hw
  last := h.last
  unknown _ _ := Iff.rfl
  cost := ⟨1, 0, by decide, fun hr => by rw [h.cost (hr.imp fun _ _ => And.left)]; omega⟩

theorem costBefore (h : Renamed lm rm ν L L') {ws ws' : List Item} (hr : List.Forall₂ (Rel lm rm L) ws ws') : ∀ {right : UInt16}, L.RightUsed right →
    L'.costBefore mode (rm right) ws' = L.costBefore mode right ws := by
  induction hr with
  | nil => intro _ _; rfl
  | cons h1 _ ih =>
    intro right hu
    simp only [Lexicon.costBefore]
    rw [h1.left, h1.right, h1.cost, h1.surface, h.costs _ _ hu h1.leftUsed, ih h1.rightUsed]

/-- The costs of a sentence fit for both. -/
theorem fits (h : Renamed lm rm ν L L') (hf : L.CostsFit mode text) : L'.CostsFit mode text := by
  intro ws' hb
  obtain ⟨ws, h1, h2⟩ := (h.corr mode).begins hb
  have := h.costBefore (mode := mode) (h1.imp fun _ _ => And.left) (.inl rfl : L.RightUsed 0)
  rw [h.edge.2] at this
  rw [this]
  exact hf ws h2

end Renamed
end Verif.Spec
