import Verif.Spec.Scaled
import Verif.Proofs.Renamed
/-! Lexicons with scaled costs choose the same segmentations. -/
namespace Verif.Spec
open Verif.Model

theorem ScaledMode.unknown {k : Int} {mode mode' : Mode} (h : ScaledMode k mode mode') (latest : Option Nat) (b : Nat) : unknownOpen mode' latest b ↔ unknownOpen mode latest b := by
  cases mode <;> cases mode' <;> simp_all [ScaledMode, unknownOpen]

theorem ScaledMode.penalty {k : Int} {mode mode' : Mode} (h : ScaledMode k mode mode') (s : Str) : penalty mode' s = k * Spec.penalty mode s := by
  cases mode <;> cases mode' <;> simp only [ScaledMode] at h
  · simp [Spec.penalty]
  · obtain ⟨h1, h2, h3, h4⟩ := h
    simp only [Spec.penalty, h1, h2, h3, h4]
    split
    · simp
    split
    · rw [Int.mul_left_comm]
    split
    · rw [Int.mul_left_comm]
    · simp

/-- Corresponding words. -/
structure Scaled.Rel (k : Int) (α β : UInt16 → Int) (L : Lexicon) (w w' : Item) : Prop where
  surface : w'.surface = w.surface
  left : w'.leftId = w.leftId
  right : w'.rightId = w.rightId
  details : w'.details = w.details
  cost : w'.cost.toInt = k * w.cost.toInt + α w.leftId + β w.rightId
  leftUsed : L.LeftUsed w.leftId
  rightUsed : L.RightUsed w.rightId

namespace Scaled
variable {k : Int} {α β : UInt16 → Int} {L L' : Lexicon} {mode mode' : Mode}

theorem sameTexts (h : Scaled k α β L L') (s : Str) : (∃ w ∈ L.words, w.surface = s) ↔ ∃ w ∈ L'.words, w.surface = s := by
  have go : ∀ {W W' : List Item}, List.Forall₂ (fun w w' : Item => w'.surface = w.surface) W W' → ((∃ w ∈ W, w.surface = s) ↔ ∃ w ∈ W', w.surface = s) := by
    intro W W' hW
    induction hW with
    | nil => simp
    | cons h1 _ ih => simp only [List.mem_cons, exists_eq_or_imp, h1, ih]
  exact go (h.words.imp fun _ _ hx => hx.1)

theorem knownAny (h : Scaled k α β L L') (rest : Str) : (∃ w, L.KnownAt rest w) ↔ ∃ w, L'.KnownAt rest w := by
  constructor
  · rintro ⟨w, h1, h2, h3⟩
    obtain ⟨w', h4, h5⟩ := (h.sameTexts w.surface).mp ⟨w, h1, rfl⟩
    exact ⟨w', h4, by rw [h5]; exact h2, by rw [h5]; exact h3⟩
  · rintro ⟨w, h1, h2, h3⟩
    obtain ⟨w', h4, h5⟩ := (h.sameTexts w.surface).mpr ⟨w, h1, rfl⟩
    exact ⟨w', h4, by rw [h5]; exact h2, by rw [h5]; exact h3⟩

theorem proposes (h : Scaled k α β L L') (rest name : Str) (rank : Nat) (s : Str) : L'.Proposes rest name rank s ↔ L.Proposes rest name rank s := by
  have hu : ∀ n r g, L'.unknownText n r g = L.unknownText n r g := by
    intro n r g
    funext rest
    cases rest with
    | nil => rfl
    | cons c cs =>
      have : L'.hasCategory n r = L.hasCategory n r := by funext d; simp only [Lexicon.hasCategory, h.defs]
      simp only [Lexicon.unknownText, this]
  unfold Lexicon.Proposes
  simp only [h.defs, ← h.knownAny, hu]

theorem slots (h : Scaled k α β L L') (hm : ScaledMode k mode mode') {rest : Str} {b : Nat} {latest : Option Nat} {p : Slot} :
    (∀ w, L.WrittenAt mode rest b latest w p → ∃ w', L'.WrittenAt mode' rest b latest w' p ∧ Rel k α β L w w') ∧
    (∀ w', L'.WrittenAt mode' rest b latest w' p → ∃ w, L.WrittenAt mode rest b latest w p ∧ Rel k α β L w w') := by
  cases p with
  | known i =>
    have hf := fun s => forall₂_filter (p := fun w : Item => decide (w.surface = s)) (q := fun w : Item => decide (w.surface = s)) h.words fun x y hxy => by rw [hxy.1]
    constructor
    · rintro w ⟨h1, h2, h3⟩
      obtain ⟨w', h4, e1, e2, e3, e4, e5⟩ := (forall₂_get (hf w.surface) i).1 w h3
      have hm := List.mem_of_mem_filter (List.mem_of_getElem? h3)
      exact ⟨w', ⟨by rw [e1]; exact h1, by rw [e1]; exact h2, by rw [e1]; exact h4⟩, ⟨e1, e2, e3, e4, e5, .inr (.inl ⟨w, hm, rfl⟩), .inr (.inl ⟨w, hm, rfl⟩)⟩⟩
    · rintro w' ⟨h1, h2, h3⟩
      obtain ⟨w, h4, e1, e2, e3, e4, e5⟩ := (forall₂_get (hf w'.surface) i).2 w' h3
      have hm := List.mem_of_mem_filter (List.mem_of_getElem? h4)
      rw [e1] at h1 h2 h4
      exact ⟨w, ⟨h1, h2, h4⟩, ⟨e1, e2, e3, e4, e5, .inr (.inl ⟨w, hm, rfl⟩), .inr (.inl ⟨w, hm, rfl⟩)⟩⟩
  | unknown r i =>
    have hf := fun s => forall₂_filter (p := fun l : UnkLine => decide (l.name = s)) (q := fun l : UnkLine => decide (l.name = s)) h.unk fun x y hxy => by rw [hxy.1]
    constructor
    · rintro w ⟨ho, name, s, l, hp, hl, rfl⟩
      obtain ⟨l', h4, e1, e2, e3, e4⟩ := (forall₂_get (hf name) i).1 l hl
      have hu := List.mem_of_mem_filter (List.mem_of_getElem? hl)
      exact ⟨l'.item s, ⟨(hm.unknown ..).mpr ho, name, s, l', (h.proposes ..).mpr hp, h4, rfl⟩, ⟨rfl, e2, e3, rfl, e4, .inr (.inr ⟨l, hu, rfl⟩), .inr (.inr ⟨l, hu, rfl⟩)⟩⟩
    · rintro w' ⟨ho, name, s, l', hp, hl, rfl⟩
      obtain ⟨l, h4, e1, e2, e3, e4⟩ := (forall₂_get (hf name) i).2 l' hl
      have hu := List.mem_of_mem_filter (List.mem_of_getElem? h4)
      exact ⟨l.item s, ⟨(hm.unknown ..).mp ho, name, s, l, (h.proposes ..).mp hp, h4, rfl⟩, ⟨rfl, e2, e3, rfl, e4, .inr (.inr ⟨l, hu, rfl⟩), .inr (.inr ⟨l, hu, rfl⟩)⟩⟩

theorem costFrom (h : Scaled k α β L L') (hm : ScaledMode k mode mode') {ws ws' : List Item} (hr : List.Forall₂ (Rel k α β L) ws ws') : ∀ {right : UInt16}, L.RightUsed right →
    L'.costFrom mode' right ws' = k * L.costFrom mode right ws - β right - α 0 := by
  induction hr with
  | nil => intro right hu; exact h.costs right 0 hu (.inl rfl)
  | cons h1 _ ih =>
    intro right hu
    simp only [Lexicon.costFrom]
    rw [h1.left, h1.right, h1.cost, h1.surface, hm.penalty, h.costs _ _ hu h1.leftUsed, ih h1.rightUsed]
    simp only [Int.mul_add]
    omega

theorem corr (h : Scaled k α β L L') (hm : ScaledMode k mode mode') : Corr (Rel k α β L) L L' mode mode' where
  surface hr := hr.surface
  up hw := (h.slots hm).1 _ hw
  down hw := (h.slots hm).2 _ hw
  last rest b o := by simp only [Lexicon.LastProposal, h.proposes]
  unknown := hm.unknown
  cost := ⟨k, - β 0 - α 0, h.factor, fun hr => by
    have := h.costFrom hm hr (.inl rfl : L.RightUsed 0)
    simp only [Lexicon.cost]
    omega⟩

end Scaled
end Verif.Spec
