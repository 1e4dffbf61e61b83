import Verif.Model.Text
import Verif.Proofs.Basic
/-! The order of strings and the stable sort. -/
namespace Verif.Model

theorem bytesLe_refl (a : List UInt8) : bytesLe a a = true := by
  induction a with
  | nil => rfl
  | cons x xs ih => simp [bytesLe, ih]

theorem bytesLe_total (a b : List UInt8) : bytesLe a b = true ∨ bytesLe b a = true := by
  induction a generalizing b with
  | nil => left; cases b <;> rfl
  | cons x xs ih =>
    cases b with
    | nil => right; rfl
    | cons y ys =>
      simp only [bytesLe, Bool.or_eq_true, Bool.and_eq_true, decide_eq_true_eq, beq_iff_eq]
      rcases Nat.lt_trichotomy x.toNat y.toNat with h | h | h
      · left; left; exact UInt8.lt_iff_toNat_lt.mpr h
      · have := UInt8.toNat_inj.mp h
        subst this
        rcases ih ys with h | h
        · left; right; exact ⟨rfl, h⟩
        · right; right; exact ⟨rfl, h⟩
      · right; left; exact UInt8.lt_iff_toNat_lt.mpr h

theorem bytesLe_antisymm {a b : List UInt8} (h : bytesLe a b = true) (h' : bytesLe b a = true) : a = b := by
  induction a generalizing b with
  | nil => cases b with | nil => rfl | cons y ys => simp [bytesLe] at h'
  | cons x xs ih =>
    cases b with
    | nil => simp [bytesLe] at h
    | cons y ys =>
      simp only [bytesLe, Bool.or_eq_true, Bool.and_eq_true, decide_eq_true_eq, beq_iff_eq,
        UInt8.lt_iff_toNat_lt] at h h'
      rcases h with h | ⟨rfl, h⟩
      · rcases h' with h' | ⟨rfl, h'⟩ <;> omega
      · rcases h' with h' | ⟨_, h'⟩
        · omega
        · rw [ih h h']

theorem bytesLe_trans {a b c : List UInt8} (h : bytesLe a b = true) (h' : bytesLe b c = true) :
    bytesLe a c = true := by
  induction a generalizing b c with
  | nil => cases c <;> rfl
  | cons x xs ih =>
    cases b with
    | nil => simp [bytesLe] at h
    | cons y ys =>
      cases c with
      | nil => simp [bytesLe] at h'
      | cons z zs =>
        simp only [bytesLe, Bool.or_eq_true, Bool.and_eq_true, decide_eq_true_eq, beq_iff_eq,
          UInt8.lt_iff_toNat_lt] at h h' ⊢
        rcases h with h | ⟨rfl, h⟩
        · rcases h' with h' | ⟨rfl, h'⟩
          · left; omega
          · left; exact h
        · rcases h' with h' | ⟨rfl, h'⟩
          · left; exact h'
          · right; exact ⟨rfl, ih h h'⟩

theorem strLe_refl (a : Str) : strLe a a = true := bytesLe_refl _
theorem strLe_total (a b : Str) : strLe a b = true ∨ strLe b a = true := bytesLe_total _ _
theorem strLe_antisymm {a b : Str} (h : strLe a b = true) (h' : strLe b a = true) : a = b :=
  utf8_injective (bytesLe_antisymm h h')
theorem strLe_trans {a b c : Str} (h : strLe a b = true) (h' : strLe b c = true) : strLe a c = true :=
  bytesLe_trans h h'

section
variable {α : Type} (key : α → Str)

theorem insertSorted_perm (x : α) (ys : List α) : (insertSorted key x ys).Perm (x :: ys) := by
  induction ys with
  | nil => exact List.Perm.refl _
  | cons y ys ih =>
    simp only [insertSorted]
    split
    · exact List.Perm.refl _
    · exact (ih.cons y).trans (List.Perm.swap x y ys)

theorem sortByKey_perm (xs : List α) : (sortByKey key xs).Perm xs := by
  induction xs with
  | nil => exact List.Perm.refl _
  | cons x xs ih => exact (insertSorted_perm key x _).trans (ih.cons x)

/-- Stability: elements with one key keep their order. -/
theorem insertSorted_filterMap {β : Type} (f : α → Option β) (k : Str)
    (hf : ∀ x, (f x).isSome → key x = k) (x : α) (ys : List α) :
    (insertSorted key x ys).filterMap f = (x :: ys).filterMap f := by
  induction ys with
  | nil => rfl
  | cons y ys ih =>
    simp only [insertSorted]
    split
    · rfl
    · rename_i h
      rw [List.filterMap_cons, ih]
      cases hx : f x with
      | none => simp [List.filterMap_cons, hx]
      | some b =>
        have hy : f y = none := by
          cases hy : f y with
          | none => rfl
          | some c =>
            have h1 := hf x (by simp [hx])
            have h2 := hf y (by simp [hy])
            rw [h1, h2] at h
            exact absurd (strLe_refl k) h
        simp [hx, hy]

theorem sortByKey_filterMap {β : Type} (f : α → Option β) (k : Str)
    (hf : ∀ x, (f x).isSome → key x = k) (xs : List α) :
    (sortByKey key xs).filterMap f = xs.filterMap f := by
  induction xs with
  | nil => rfl
  | cons x xs ih =>
    show (insertSorted key x (sortByKey key xs)).filterMap f = _
    rw [insertSorted_filterMap key f k hf, List.filterMap_cons, List.filterMap_cons, ih]

end

end Verif.Model
