import Verif.Model.Loader
import Verif.Spec.Config
import Verif.Proofs.Details
import Verif.Proofs.TokenFilter
/-! File names and extensions of paths. -/
namespace Verif.Model
open Verif.Spec

theorem splitAll_append {α : Type} {p : α → Bool} (a b : List α) {x : α} (hx : p x = true) :
    splitAll p (a ++ x :: b) = splitAll p a ++ splitAll p b := by
  induction a with
  | nil => simp [splitAll, hx]
  | cons y a ih =>
    rw [List.cons_append, splitAll, splitAll]
    by_cases hy : p y = true
    · simp [hy, ih]
    · simp only [hy, ih]
      cases h : splitAll p a with
      | nil => exact absurd h (splitAll_ne_nil _ _)
      | cons q qs => simp

theorem splitAll_join {α : Type} [DecidableEq α] (sep : α) (s : List α) : ∃ h t, splitAll (· = sep) s = h :: t ∧
    s = h ++ t.flatMap (sep :: ·) ∧ ∀ c ∈ h :: t, sep ∉ c := by
  induction s with
  | nil => exact ⟨[], [], rfl, rfl, by simp⟩
  | cons x s ih =>
    obtain ⟨h, t, h1, h2, h3⟩ := ih
    rw [splitAll]
    by_cases hx : x = sep
    · subst hx
      refine ⟨[], h :: t, by simp [h1], by simp [h2], ?_⟩
      intro c hc
      rcases List.mem_cons.mp hc with rfl | hc
      · simp
      · exact h3 c hc
    · refine ⟨x :: h, t, by simp [hx, h1], by simp [h2], ?_⟩
      intro c hc
      rcases List.mem_cons.mp hc with rfl | hc
      · have := h3 h (by simp)
        simp [this]; exact fun h => hx h.symm
      · exact h3 c (by simp [hc])

/-- The components of a path that count. -/
theorem fileName_of_ext {dir file trail : Path} (hdir : dir = [] ∨ ∃ d, dir = d ++ [slash]) (hf : slash ∉ file) (h1 : file ≠ []) (h2 : file ≠ [dot])
    (h3 : file ≠ [dot, dot]) (ht : Trailing trail) : Path.fileName (dir ++ file ++ trail) = some file := by
  have key : ∀ x : Path, slash ∉ x → ∃ post, splitAll (· = slash) (x ++ trail) = x :: post ∧ ∀ c ∈ post, c = [] ∨ c = [dot] := by
    have hno : ∀ x : Path, slash ∉ x → ∀ y ∈ x, decide (y = slash) = false := by
      intro x hx y hy; rw [decide_eq_false_iff_not]; rintro rfl; exact hx hy
    induction ht with
    | nil => intro x hx; exact ⟨[], by rw [List.append_nil]; exact splitAll_none (hno x hx), by simp⟩
    | slash _ ih =>
      intro x hx
      obtain ⟨post, hp1, hp2⟩ := ih [] (by simp)
      refine ⟨[] :: post, ?_, by simpa using hp2⟩
      rw [splitAll_cons (hno x hx) (by decide)]
      rw [List.nil_append] at hp1
      rw [hp1]
    | dot _ ih =>
      intro x hx
      obtain ⟨post, hp1, hp2⟩ := ih [dot] (by decide)
      refine ⟨[dot] :: post, ?_, by simpa using hp2⟩
      rw [splitAll_cons (hno x hx) (by decide)]
      rw [List.singleton_append] at hp1
      exact congrArg (x :: ·) hp1
  obtain ⟨post, hp1, hp2⟩ := key file hf
  obtain ⟨pre, hpre⟩ : ∃ pre, splitAll (· = slash) (dir ++ file ++ trail) = pre ++ file :: post := by
    rcases hdir with rfl | ⟨d, rfl⟩
    · exact ⟨[], by simpa using hp1⟩
    · refine ⟨splitAll (· = slash) d, ?_⟩
      rw [show d ++ [slash] ++ file ++ trail = d ++ slash :: (file ++ trail) by simp, splitAll_append d _ (by decide), hp1]
  unfold Path.fileName
  rw [hpre]
  have hpost : post.filter (fun c => c ≠ [] && c ≠ [dot]) = [] := by
    rw [List.filter_eq_nil_iff]
    intro c hc
    rcases hp2 c hc with rfl | rfl <;> simp
  rw [List.filter_append, List.filter_cons_of_pos (by simp [h1, h2]), hpost]
  simp [h3]

theorem fileName_eq_some {p file : Path} (h : p.fileName = some file) : ∃ dir trail, p = dir ++ file ++ trail ∧
    (dir = [] ∨ ∃ d, dir = d ++ [slash]) ∧ slash ∉ file ∧ file ≠ [] ∧ file ≠ [dot] ∧ file ≠ [dot, dot] ∧ Trailing trail := by
  unfold Path.fileName at h
  split at h
  case h_2 => cases h
  rename_i c hc
  split at h
  case isTrue => cases h
  rename_i hdd
  have hcf : c = file := by simpa using h
  subst hcf
  obtain ⟨hd, tl, h1, h2, h3⟩ := splitAll_join slash p
  rw [h1] at hc
  obtain ⟨l1, l2, hl, hok, hjunk⟩ : ∃ l1 l2, hd :: tl = l1 ++ c :: l2 ∧ (c ≠ [] ∧ c ≠ [dot]) ∧ ∀ x ∈ l2, x = [] ∨ x = [dot] := by
    clear h1 h2 h3
    generalize hd :: tl = l at hc
    induction l with
    | nil => simp at hc
    | cons x l ih =>
      by_cases hx : l.filter (fun c => c ≠ [] && c ≠ [dot]) = []
      · rw [List.filter_cons] at hc
        split at hc
        · rename_i hok
          rw [hx] at hc
          simp at hc
          subst hc
          refine ⟨[], l, rfl, by simpa using hok, ?_⟩
          intro y hy
          have := (List.filter_eq_nil_iff.mp hx) y hy
          simp at this
          by_cases hy0 : y = []
          · exact .inl hy0
          · exact .inr (this hy0)
        · rw [hx] at hc; simp at hc
      · have : (l.filter (fun c => c ≠ [] && c ≠ [dot])).getLast? = some c := by
          rw [List.filter_cons] at hc
          split at hc
          · rw [List.getLast?_cons] at hc
            cases hg : (l.filter (fun c => c ≠ [] && c ≠ [dot])).getLast? with
            | none => exact absurd (List.getLast?_eq_none_iff.mp hg) hx
            | some z => rw [hg] at hc; simpa using hc
          · exact hc
        obtain ⟨l1, l2, e, a, b⟩ := ih this
        exact ⟨x :: l1, l2, by rw [e]; rfl, a, b⟩
  have hslash : slash ∉ c := h3 c (by rw [hl]; simp)
  have htrail : Trailing (l2.flatMap (slash :: ·)) := by
    clear hl
    induction l2 with
    | nil => exact .nil
    | cons x l ih =>
      have ih := ih (fun y hy => hjunk y (by simp [hy]))
      rcases hjunk x (by simp) with rfl | rfl
      · exact .slash ih
      · exact .dot ih
  have hdd' : c ≠ [dot, dot] := hdd
  cases l1 with
  | nil =>
    simp at hl
    obtain ⟨rfl, rfl⟩ := hl
    exact ⟨[], _, by rw [h2]; simp, .inl rfl, hslash, hok.1, hok.2, hdd', htrail⟩
  | cons y l1 =>
    simp at hl
    obtain ⟨rfl, rfl⟩ := hl
    refine ⟨hd ++ l1.flatMap (slash :: ·) ++ [slash], _, ?_, .inr ⟨_, rfl⟩, hslash, hok.1, hok.2, hdd', htrail⟩
    rw [h2]; simp

theorem takeWhile_ne {α : Type} [DecidableEq α] {a : α} {xs ys : List α} (h : a ∉ xs) : (xs ++ a :: ys).takeWhile (· ≠ a) = xs := by
  induction xs with
  | nil => simp
  | cons x xs ih =>
    simp only [List.mem_cons, not_or] at h
    rw [List.cons_append, List.takeWhile_cons_of_pos (by simpa using fun e => h.1 e.symm), ih h.2]

theorem dropWhile_ne {α : Type} [DecidableEq α] {a : α} {xs ys : List α} (h : a ∉ xs) : (xs ++ a :: ys).dropWhile (· ≠ a) = a :: ys := by
  induction xs with
  | nil => simp
  | cons x xs ih =>
    simp only [List.mem_cons, not_or] at h
    rw [List.cons_append, List.dropWhile_cons_of_pos (by simpa using fun e => h.1 e.symm), ih h.2]

theorem mem_split_last {α : Type} [DecidableEq α] {a : α} {xs : List α} (h : a ∈ xs) : ∃ l r, xs = l ++ a :: r ∧ a ∉ r := by
  induction xs with
  | nil => simp at h
  | cons x xs ih =>
    by_cases hx : a ∈ xs
    · obtain ⟨l, r, e, hr⟩ := ih hx
      exact ⟨x :: l, r, by rw [e]; rfl, hr⟩
    · rcases List.mem_cons.mp h with rfl | h
      · exact ⟨[], xs, rfl, hx⟩
      · exact absurd h hx

theorem rsplit_stem {stem ext : Path} (h1 : stem ≠ []) (h2 : dot ∉ ext) (h3 : stem ++ dot :: ext ≠ [dot, dot]) :
    rsplitAtDot (stem ++ dot :: ext) = (stem, some ext) := by
  unfold rsplitAtDot
  have hrev : (stem ++ dot :: ext).reverse = ext.reverse ++ dot :: stem.reverse := by simp
  rw [if_neg h3, if_neg (by simp), hrev, takeWhile_ne (by simpa using h2), dropWhile_ne (by simpa using h2)]
  simp [h1]

theorem extension_iff {p ext : Path} (hext : ext ≠ []) : p.extension = some ext ↔ HasExtension p ext := by
  unfold Path.extension
  constructor
  · intro h
    rw [Option.bind_eq_some_iff] at h
    obtain ⟨file, hf, he⟩ := h
    obtain ⟨dir, trail, h1, h2, h3, _, _, h6, h7⟩ := fileName_eq_some hf
    have hdot : dot ∈ file := by
      unfold rsplitAtDot at he
      by_contra hc
      rw [if_neg h6, if_pos hc] at he
      cases he
    obtain ⟨stem, r, rfl, hr⟩ := mem_split_last hdot
    have hstem : stem ≠ [] := by
      rintro rfl
      unfold rsplitAtDot at he
      have hrev : ([] ++ dot :: r).reverse = r.reverse ++ dot :: [] := by simp
      rw [if_neg h6, if_neg (by simp), hrev, dropWhile_ne (by simpa using hr)] at he
      simp at he
    rw [rsplit_stem hstem hr h6] at he
    cases he
    refine ⟨dir, stem, trail, h1, h2, hstem, ?_, ?_, hr, h7⟩
    · exact fun h => h3 (by simp [show slash ∈ stem from h])
    · exact fun h => h3 (by simp [show slash ∈ ext from h])
  · rintro ⟨dir, stem, trail, rfl, h2, hstem, hs, hes, hed, ht⟩
    have hdd : stem ++ dot :: ext ≠ [dot, dot] := by
      intro h
      have hl : stem.length + (ext.length + 1) = 2 := by have := congrArg List.length h; simpa using this
      have h1 : 0 < stem.length := List.length_pos_iff.mpr hstem
      have h2 : 0 < ext.length := List.length_pos_iff.mpr hext
      omega
    have hf := fileName_of_ext (file := stem ++ dot :: ext) (trail := trail) h2
      (by simp only [List.mem_append, List.mem_cons, not_or]; exact ⟨hs, by decide, hes⟩)
      (by simp) (by
        intro h
        have hl : stem.length + (ext.length + 1) = 1 := by have := congrArg List.length h; simpa using this
        have h1 : 0 < stem.length := List.length_pos_iff.mpr hstem
        omega) hdd ht
    have hf' : Path.fileName (dir ++ (stem ++ 0x2E :: ext) ++ trail) = some (stem ++ dot :: ext) := hf
    rw [hf', Option.bind_some, rsplit_stem hstem hed hdd]

end Verif.Model
