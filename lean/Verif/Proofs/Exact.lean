import Verif.Spec.Exact
import Verif.Proofs.Monad
import Verif.Proofs.TokenFilter
/-! Exact conditions for success. -/
namespace Verif.Model
open Verif.Spec

theorem _root_.Verif.Spec.ReturnsIff.congr {α : Type} {x : R α} {c d : Prop} (h : ReturnsIff x c) (hcd : c ↔ d) : ReturnsIff x d := by
  unfold ReturnsIff at *
  rwa [← hcd]

theorem _root_.Verif.Spec.ReturnsIff.bind {α β : Type} {x : R α} {f : α → R β} {c d : Prop} (h : ReturnsIff x c) (hf : ∀ a, x = .ok a → ReturnsIff (f a) d) : ReturnsIff (x >>= f) (c ∧ d) := by
  rcases h with ⟨hc, a, ha⟩ | ⟨hc, he⟩
  · have := hf a ha
    rw [ha, bind_ok]
    rcases this with ⟨hd, b, hb⟩ | ⟨hd, he⟩
    · exact .inl ⟨⟨hc, hd⟩, b, hb⟩
    · exact .inr ⟨fun h => hd h.2, he⟩
  · rw [he]
    exact .inr ⟨fun h => hc h.1, rfl⟩

theorem _root_.Verif.Spec.ReturnsIff.ok {α : Type} {a : α} {c : Prop} (h : c) : ReturnsIff (.ok a : R α) c := .inl ⟨h, a, rfl⟩

theorem _root_.Verif.Spec.ReturnsIff.map {α β : Type} {x : R α} {f : α → β} {c : Prop} (h : ReturnsIff x c) : ReturnsIff (do return f (← x)) c :=
  ReturnsIff.congr (h.bind (d := True) fun a _ => .ok trivial) (by simp)

theorem _root_.Verif.Spec.ReturnsIff.mapM {α β : Type} {f : α → R β} {P : α → Prop} {xs : List α} (h : ∀ x ∈ xs, ReturnsIff (f x) (P x)) : ReturnsIff (xs.mapM f) (∀ x ∈ xs, P x) := by
  induction xs with
  | nil => exact .inl ⟨by simp, [], rfl⟩
  | cons x xs ih =>
    rw [List.mapM_cons]
    refine ReturnsIff.congr ((h x (by simp)).bind (d := ∀ y ∈ xs, P y) fun a _ => ?_) (by simp)
    exact (ih fun y hy => h y (by simp [hy])).map

theorem _root_.Verif.Spec.ReturnsIff.retain {p : FToken → R Bool} {P : FToken → Prop} {ts : List FToken} (h : ∀ t ∈ ts, ReturnsIff (p t) (P t)) : ReturnsIff (retain p ts) (∀ t ∈ ts, P t) := by
  induction ts with
  | nil => exact .inl ⟨by simp, [], rfl⟩
  | cons x xs ih =>
    rw [Model.retain]
    refine ReturnsIff.congr ((h x (by simp)).bind (d := ∀ y ∈ xs, P y) fun a _ => ?_) (by simp)
    exact (ih fun y hy => h y (by simp [hy])).map

theorem _root_.Verif.Spec.ReturnsIff.rewriteText {f : FToken → R Str} {P : FToken → Prop} {ts : List FToken} (h : ∀ t ∈ ts, ReturnsIff (f t) (P t)) : ReturnsIff (rewriteText f ts) (∀ t ∈ ts, P t) :=
  ReturnsIff.mapM fun t ht => (h t ht).map

theorem orPanic_returns {α : Type} (o : Option α) : ReturnsIff (orPanic o) (o ≠ none) := by
  cases o with
  | none => exact .inr ⟨by simp, rfl⟩
  | some a => exact .inl ⟨by simp, a, rfl⟩

theorem tag_returns (t : FToken) : ReturnsIff t.tag (t.details ≠ []) := by
  by_cases h : t.details = []
  · exact .inr ⟨by simpa using h, tag_panic h⟩
  · exact .inl ⟨h, _, tag_ok h⟩

theorem formatTag_returns (tag : Str) : ReturnsIff (formatTag tag) (tag.count ',' ≤ 3) := by
  have hp := tagParts_split tag
  by_cases h : tag.count ',' ≤ 3
  · exact .inl ⟨h, _, formatTag_ok hp (by rw [hp.length_eq]; omega)⟩
  · exact .inr ⟨h, formatTag_panic hp (by rw [hp.length_eq]; omega)⟩

theorem isKatakana_returns (block : Char → Option (Nat × Nat)) (s : Str) :
    ReturnsIff (isKatakana block s) (∀ p c q, s = p ++ c :: q → (∀ d ∈ p, block d = some (0x30A0, 0x30FF)) → block c ≠ none) := by
  by_cases h : ∀ p c q, s = p ++ c :: q → (∀ d ∈ p, block d = some (0x30A0, 0x30FF)) → block c ≠ none
  · refine .inl ⟨h, ?_⟩
    induction s with
    | nil => exact ⟨true, rfl⟩
    | cons c s ih =>
      unfold isKatakana
      cases hb : block c with
      | none => exact absurd hb (h [] c s rfl (by simp))
      | some b =>
        rw [orPanic_some, bind_ok]
        split
        · exact ⟨_, rfl⟩
        · rename_i hk
          refine ih fun p x q hs hp => h (c :: p) x q (by rw [hs]; rfl) ?_
          intro d hd
          rcases List.mem_cons.mp hd with rfl | hd
          · rw [hb]
            exact congrArg some (by simpa using hk)
          · exact hp d hd
  · refine .inr ⟨h, ?_⟩
    simp only [not_forall, not_not] at h
    obtain ⟨p, c, q, rfl, hp, hc⟩ := h
    exact isKatakana_panic hp hc

end Verif.Model
