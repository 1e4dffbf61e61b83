import Mathlib.Data.List.Induction
import Verif.Model.Text
import Verif.Spec.Text
import Verif.Proofs.Details
import Verif.Proofs.TokenFilter
/-! The text functions of the model read texts as `Verif.Spec.Text` says. -/
namespace Verif.Model
open Verif.Spec

/-! ### White space -/

theorem isWhitespace_iff {c : Char} : isWhitespace c = true ↔ IsSpace c := by
  simp only [isWhitespace, IsSpace, whiteSpace, Bool.or_eq_true, Bool.and_eq_true, decide_eq_true_eq, beq_iff_eq, List.mem_cons, List.not_mem_nil, or_false]
  omega

theorem isAsciiWhitespace_iff {c : Char} : isAsciiWhitespace c = true ↔ IsAsciiSpace c := by
  simp only [isAsciiWhitespace, IsAsciiSpace, Bool.or_eq_true, beq_iff_eq, List.mem_cons, List.not_mem_nil, or_false]
  omega

theorem dropWhile_split {α : Type} (p : α → Bool) (s : List α) : ∃ a, s = a ++ s.dropWhile p ∧ (∀ c ∈ a, p c) ∧ ∀ c, (s.dropWhile p).head? = some c → p c = false := by
  induction s with
  | nil => exact ⟨[], rfl, by simp, by simp⟩
  | cons x s ih =>
    by_cases hx : p x = true
    · obtain ⟨a, h1, h2, h3⟩ := ih
      rw [List.dropWhile_cons_of_pos hx]
      refine ⟨x :: a, by rw [List.cons_append, ← h1], ?_, h3⟩
      simpa [hx] using h2
    · rw [List.dropWhile_cons_of_neg hx]
      exact ⟨[], rfl, by simp, by simp; simpa using hx⟩

/-- `Trimmed` with the predicate of the model. -/
private theorem trimmed_iff {s t : Str} : Trimmed s t ↔ ∃ a b, s = a ++ t ++ b ∧ (∀ c ∈ a, isWhitespace c) ∧ (∀ c ∈ b, isWhitespace c) ∧
    (∀ c, t.head? = some c → isWhitespace c = false) ∧ (∀ c, t.getLast? = some c → isWhitespace c = false) := by
  simp only [Trimmed, ← isWhitespace_iff, Bool.not_eq_true]

theorem trim_trimmed (s : Str) : Trimmed s (trim s) := by
  rw [trimmed_iff]
  obtain ⟨a, h1, h2, h3⟩ := dropWhile_split isWhitespace s
  obtain ⟨b, h4, h5, h6⟩ := dropWhile_split isWhitespace (s.dropWhile isWhitespace).reverse
  refine ⟨a, b.reverse, ?_, h2, by simpa using h5, ?_, ?_⟩
  · have := congrArg List.reverse h4
    rw [List.reverse_reverse, List.reverse_append] at this
    rw [List.append_assoc, show trim s ++ b.reverse = s.dropWhile isWhitespace from this.symm]
    exact h1
  · intro c hc
    have := congrArg List.reverse h4
    rw [List.reverse_reverse, List.reverse_append] at this
    apply h3
    rw [this]
    unfold trim at hc
    cases hx : (List.dropWhile isWhitespace (List.dropWhile isWhitespace s).reverse).reverse with
    | nil => rw [hx] at hc; cases hc
    | cons y ys => rw [hx] at hc; simpa using hc
  · intro c hc
    unfold trim at hc
    rw [List.getLast?_reverse] at hc
    exact h6 c hc

theorem trimmed_unique {s t u : Str} (ht : Trimmed s t) (hu : Trimmed s u) : t = u := by
  -- both are `trim s`
  have key : ∀ {t : Str}, Trimmed s t → t = trim s := by
    intro t ht
    obtain ⟨a, b, rfl, ha, hb, h1, h2⟩ := trimmed_iff.mp ht
    have hd : ∀ {a x : Str}, (∀ c ∈ a, isWhitespace c) → (∀ c, x.head? = some c → isWhitespace c = false) → (a ++ x).dropWhile isWhitespace = x := by
      intro a x ha hx
      induction a with
      | nil =>
        cases x with
        | nil => rfl
        | cons y ys => exact List.dropWhile_cons_of_neg (by simp [hx y rfl])
      | cons y ys ih =>
        rw [List.cons_append, List.dropWhile_cons_of_pos (ha y (by simp))]
        exact ih fun c hc => ha c (by simp [hc])
    unfold trim
    cases ht : t with
    | nil =>
      have : (a ++ [] ++ b).dropWhile isWhitespace = [] := by
        have := hd (a := a ++ b) (x := []) (by simp; rintro c (h | h); exacts [ha c h, hb c h]) (by simp)
        simpa using this
      rw [this]; rfl
    | cons y ys =>
      have e1 : (a ++ (y :: ys) ++ b).dropWhile isWhitespace = (y :: ys) ++ b := by
        rw [List.append_assoc]
        exact hd ha (by intro c hc; exact h1 c (by rw [ht]; simpa using hc))
      rw [e1, List.reverse_append, hd (by simpa using hb) (by intro c hc; rw [List.head?_reverse] at hc; exact h2 c (by rw [ht]; exact hc)), List.reverse_reverse]
  rw [key ht, key hu]

theorem trim_iff {s t : Str} : trim s = t ↔ Trimmed s t :=
  ⟨fun h => h ▸ trim_trimmed s, fun h => trimmed_unique (trim_trimmed s) h⟩

/-! ### Columns and words -/

theorem columns_split {α : Type} {p : α → Bool} {sep : α → Prop} (hp : ∀ c, p c = true ↔ sep c) {s : List α} {ps : List (List α)}
    (h : Columns sep s ps) : splitAll p s = ps := by
  have hn : ∀ {l : List α}, (∀ c ∈ l, ¬ sep c) → ∀ c ∈ l, p c = false := by
    intro l hl c hc
    rw [← Bool.not_eq_true, hp]
    exact hl c hc
  induction h with
  | last hl => exact splitAll_none (hn hl)
  | cons hl hx _ ih => rw [splitAll_cons (hn hl) ((hp _).mpr hx), ih]

theorem columns_splitAll {α : Type} {p : α → Bool} {sep : α → Prop} (hp : ∀ c, p c = true ↔ sep c) (s : List α) :
    Columns sep s (splitAll p s) := by
  induction s with
  | nil => exact .last (by simp)
  | cons x s ih =>
    rw [splitAll]
    by_cases hx : p x = true
    · rw [if_pos hx]
      exact .cons (l := []) (by simp) ((hp x).mp hx) ih
    · rw [if_neg hx]
      have hx' : ¬ sep x := fun h => hx ((hp x).mpr h)
      generalize splitAll p s = ps at ih
      cases ih with
      | last hl => exact .last (by simpa [hx'] using hl)
      | cons hl hy hr => exact .cons (l := x :: _) (by simpa [hx'] using hl) hy hr

theorem splitAll_iff {α : Type} {p : α → Bool} {sep : α → Prop} (hp : ∀ c, p c = true ↔ sep c) {s : List α} {ps : List (List α)} :
    splitAll p s = ps ↔ Columns sep s ps :=
  ⟨fun h => h ▸ columns_splitAll hp s, columns_split hp⟩

theorem splitWhitespace_iff {s : Str} {ws : List Str} : splitWhitespace s = ws ↔ Words IsSpace s ws := by
  constructor
  · rintro rfl
    exact ⟨_, columns_splitAll (fun c => isWhitespace_iff) s, rfl⟩
  · rintro ⟨ps, h, rfl⟩
    rw [splitWhitespace, columns_split (fun c => isWhitespace_iff) h]

theorem splitAsciiWhitespace_iff {s : Str} {ws : List Str} : splitAsciiWhitespace s = ws ↔ Words IsAsciiSpace s ws := by
  constructor
  · rintro rfl
    exact ⟨_, columns_splitAll (fun c => isAsciiWhitespace_iff) s, rfl⟩
  · rintro ⟨ps, h, rfl⟩
    rw [splitAsciiWhitespace, columns_split (fun c => isAsciiWhitespace_iff) h]

/-! ### Lines -/

private theorem dropCr_other {l : Str} (h : l.getLast? ≠ some '\r') : dropCr l = l := by simp [dropCr, h]
private theorem dropCr_cr (l : Str) : dropCr (l ++ ['\r']) = l := by simp [dropCr]

private theorem lines_nl {l : Str} (rest : Str) (h : '\n' ∉ l) : lines (l ++ '\n' :: rest) = dropCr l :: lines rest := by
  have hl : ∀ c ∈ l, decide (c = '\n') = false := by
    intro c hc; rw [decide_eq_false_iff_not]; rintro rfl; exact h hc
  unfold lines
  rw [splitAll_cons hl (by decide)]
  cases hs : splitAll (fun x => decide (x = '\n')) rest with
  | nil => exact absurd hs (splitAll_ne_nil _ _)
  | cons q qs => rfl

theorem lines_of {s : Str} {ls : List Str} (h : TextLines s ls) : lines s = ls := by
  induction h with
  | nil => rfl
  | @last l h1 h2 =>
    have hl : ∀ c ∈ l, decide (c = '\n') = false := by
      intro c hc; rw [decide_eq_false_iff_not]; rintro rfl; exact h2 hc
    unfold lines
    rw [splitAll_none hl]
    simp [linesOf, h1]
  | lf h1 h2 _ ih => rw [List.append_assoc, List.singleton_append, lines_nl _ h1, dropCr_other h2, ih]
  | @crlf l rest ls h1 _ ih =>
    have : l ++ ['\r', '\n'] ++ rest = (l ++ ['\r']) ++ '\n' :: rest := by simp
    rw [this, lines_nl _ (by simp [h1]), dropCr_cr, ih]

theorem textLines_exists (s : Str) : ∃ ls, TextLines s ls := by
  induction h : s.length using Nat.strongRecOn generalizing s with
  | _ n ih =>
    by_cases hm : '\n' ∈ s
    · obtain ⟨a, b, rfl, ha⟩ := List.eq_append_cons_of_mem hm
      obtain ⟨ls, hls⟩ := ih b.length (by simp at h; omega) b rfl
      by_cases hr : a.getLast? = some '\r'
      · rw [List.getLast?_eq_some_iff] at hr
        obtain ⟨l, rfl⟩ := hr
        refine ⟨l :: ls, ?_⟩
        have : (l ++ ['\r']) ++ '\n' :: b = l ++ ['\r', '\n'] ++ b := by simp
        rw [this]
        exact .crlf (by simp at ha; exact ha) hls
      · refine ⟨a :: ls, ?_⟩
        have : a ++ '\n' :: b = a ++ ['\n'] ++ b := by simp
        rw [this]
        exact .lf ha hr hls
    · cases s with
      | nil => exact ⟨[], .nil⟩
      | cons x xs => exact ⟨_, .last (by simp) hm⟩

theorem lines_iff {s : Str} {ls : List Str} : lines s = ls ↔ TextLines s ls := by
  refine ⟨?_, lines_of⟩
  rintro rfl
  obtain ⟨ls, h⟩ := textLines_exists s
  rwa [lines_of h]

/-! ### Numbers -/

private theorem digit_iff {c : Char} {w : Nat} : (['0', '1', '2', '3', '4', '5', '6', '7', '8', '9', 'a', 'b', 'c', 'd', 'e', 'f'][w]? = some c ∨
    ['0', '1', '2', '3', '4', '5', '6', '7', '8', '9', 'A', 'B', 'C', 'D', 'E', 'F'][w]? = some c) ↔
    w < 16 ∧ ((c.toNat = 48 + w ∧ w < 10) ∨ (c.toNat = 87 + w ∧ 10 ≤ w) ∨ (c.toNat = 55 + w ∧ 10 ≤ w)) := by
  have hc : ∀ d : Char, d = c ↔ c.toNat = d.toNat := by
    intro d; rw [← Char.toNat_inj]; exact eq_comm
  by_cases hw : w < 16
  · have : w = 0 ∨ w = 1 ∨ w = 2 ∨ w = 3 ∨ w = 4 ∨ w = 5 ∨ w = 6 ∨ w = 7 ∨ w = 8 ∨ w = 9 ∨ w = 10 ∨ w = 11 ∨ w = 12 ∨ w = 13 ∨ w = 14 ∨ w = 15 := by omega
    rcases this with rfl | rfl | rfl | rfl | rfl | rfl | rfl | rfl | rfl | rfl | rfl | rfl | rfl | rfl | rfl | rfl <;>
      simp [hc]
  · rw [List.getElem?_eq_none (by simp; omega), List.getElem?_eq_none (by simp; omega)]
    simp [hw]

theorem digitVal_iff {radix : Nat} (hr : radix ≤ 16) {c : Char} {v : Nat} : digitVal radix c = some v ↔ DigitOf radix c v := by
  rw [DigitOf, digit_iff, digitVal]
  generalize c.toNat = n
  constructor
  · intro h
    generalize hw : (if 48 ≤ n ∧ n ≤ 57 then n - 48 else if 97 ≤ n ∧ n ≤ 102 then n - 87 else if 65 ≤ n ∧ n ≤ 70 then n - 55 else radix) = w at h
    by_cases hlt : w < radix
    · rw [if_pos hlt] at h
      cases h
      refine ⟨hlt, ?_⟩
      by_cases h1 : 48 ≤ n ∧ n ≤ 57
      · rw [if_pos h1] at hw; omega
      · rw [if_neg h1] at hw
        by_cases h2 : 97 ≤ n ∧ n ≤ 102
        · rw [if_pos h2] at hw; omega
        · rw [if_neg h2] at hw
          by_cases h3 : 65 ≤ n ∧ n ≤ 70
          · rw [if_pos h3] at hw; omega
          · rw [if_neg h3] at hw; omega
    · rw [if_neg hlt] at h
      cases h
  · rintro ⟨h1, h2, h3 | h3 | h3⟩
    · have e : (if 48 ≤ n ∧ n ≤ 57 then n - 48 else if 97 ≤ n ∧ n ≤ 102 then n - 87 else if 65 ≤ n ∧ n ≤ 70 then n - 55 else radix) = v := by
        rw [if_pos (by omega)]; omega
      rw [e, if_pos h1]
    · have e : (if 48 ≤ n ∧ n ≤ 57 then n - 48 else if 97 ≤ n ∧ n ≤ 102 then n - 87 else if 65 ≤ n ∧ n ≤ 70 then n - 55 else radix) = v := by
        rw [if_neg (by omega), if_pos (by omega)]; omega
      rw [e, if_pos h1]
    · have e : (if 48 ≤ n ∧ n ≤ 57 then n - 48 else if 97 ≤ n ∧ n ≤ 102 then n - 87 else if 65 ≤ n ∧ n ≤ 70 then n - 55 else radix) = v := by
        rw [if_neg (by omega), if_neg (by omega), if_pos (by omega)]; omega
      rw [e, if_pos h1]

theorem digits_ne {radix : Nat} {s : Str} {n : Nat} (h : Digits radix s n) : s ≠ [] := by
  cases h <;> simp

theorem parseNat_iff {radix : Nat} (hr : radix ≤ 16) {s : Str} {n : Nat} : parseNat radix s = some n ↔ Digits radix s n := by
  constructor
  · intro h
    unfold parseNat at h
    split at h
    · cases h
    next hne =>
      induction s using List.reverseRecOn generalizing n with
      | nil => exact absurd rfl hne
      | append_singleton s c ih =>
        rw [List.foldlM_append, Option.bind_eq_bind, Option.bind_eq_some_iff] at h
        obtain ⟨m, h1, h2⟩ := h
        simp only [List.foldlM_cons, List.foldlM_nil, Option.bind_eq_bind, Option.pure_def, Option.bind_eq_some_iff, Option.map_eq_some_iff, Option.some.injEq,
          exists_eq_right] at h2
        obtain ⟨v, hv, rfl⟩ := h2
        rw [digitVal_iff hr] at hv
        by_cases hs : s = []
        · subst hs
          simp only [List.foldlM_nil, Option.pure_def, Option.some.injEq] at h1
          subst h1
          rw [Nat.zero_mul, Nat.zero_add]
          exact .one hv
        · exact .more (ih hs h1) hv
  · intro h
    unfold parseNat
    rw [if_neg (digits_ne h)]
    induction h with
    | one hv => simp [(digitVal_iff hr).mpr hv]
    | more _ hv ih => simp [List.foldlM_append, ih, (digitVal_iff hr).mpr hv]

theorem digit_sign {radix : Nat} {c : Char} {v : Nat} (h : DigitOf radix c v) : c ≠ '+' ∧ c ≠ '-' := by
  have h := digit_iff.mp h.2
  constructor
  · rintro rfl
    have : '+'.toNat = 43 := rfl
    omega
  · rintro rfl
    have : '-'.toNat = 45 := rfl
    omega

theorem digits_head {radix : Nat} {s : Str} {n : Nat} (h : Digits radix s n) : ∃ c v t, s = c :: t ∧ DigitOf radix c v := by
  induction h with
  | one hv => exact ⟨_, _, _, rfl, hv⟩
  | more _ _ ih =>
    obtain ⟨c, v, t, rfl, hv⟩ := ih
    exact ⟨c, v, _, rfl, hv⟩

/-- The value read, by cases on the sign. -/
theorem parseInt_iff {signed : Bool} {lo hi : Int} {s : Str} {z : Int} : parseInt 10 signed lo hi s = some z ↔
    ((∃ n : Nat, Unsigned s n ∧ z = n) ∨ (signed = true ∧ ∃ t, ∃ n : Nat, s = '-' :: t ∧ Digits 10 t n ∧ z = -n)) ∧ lo ≤ z ∧ z ≤ hi := by
  have hstep : ∀ v : Option Int, (v.bind fun n => if lo ≤ n ∧ n ≤ hi then some n else none) = some z ↔ v = some z ∧ lo ≤ z ∧ z ≤ hi := by
    intro v
    cases v with
    | none => simp
    | some w =>
      simp only [Option.bind_some]
      constructor
      · intro h
        split at h
        · cases h; exact ⟨rfl, by assumption⟩
        · cases h
      · rintro ⟨h, h1⟩
        cases h
        rw [if_pos h1]
  unfold parseInt
  dsimp only
  rw [hstep]
  apply and_congr_left
  intro _
  split
  next ds =>
    rw [Option.map_eq_some_iff]
    constructor
    · rintro ⟨n, h, rfl⟩
      exact .inl ⟨n, .plus ((parseNat_iff (by omega)).mp h), rfl⟩
    · rintro (⟨n, h, rfl⟩ | ⟨_, t, n, h, -⟩)
      · cases h with
        | digits h =>
          obtain ⟨c, v, t, h1, h2⟩ := digits_head h
          cases h1
          exact absurd rfl (digit_sign h2).1
        | plus h => exact ⟨n, (parseNat_iff (by omega)).mpr h, rfl⟩
      · exact absurd (List.cons.inj h).1 (by decide)
  next ds =>
    have hno : ∀ n, ¬ Unsigned ('-' :: ds) n := by
      intro n h
      cases h with
      | digits h =>
        obtain ⟨c, v, t, h1, h2⟩ := digits_head h
        cases h1
        exact (digit_sign h2).2 rfl
    cases signed with
    | false =>
      simp only [Bool.false_eq_true, if_false, false_and, or_false]
      constructor
      · intro h; cases h
      · rintro ⟨n, h, -⟩; exact absurd h (hno n)
    | true =>
      rw [if_pos rfl, Option.map_eq_some_iff]
      constructor
      · rintro ⟨n, h, rfl⟩
        exact .inr ⟨rfl, ds, n, rfl, (parseNat_iff (by omega)).mp h, rfl⟩
      · rintro (⟨n, h, -⟩ | ⟨_, t, n, h, h1, rfl⟩)
        · exact absurd h (hno n)
        · cases h
          exact ⟨n, (parseNat_iff (by omega)).mpr h1, rfl⟩
  next h1 h2 =>
    rw [Option.map_eq_some_iff]
    constructor
    · rintro ⟨n, h, rfl⟩
      exact .inl ⟨n, .digits ((parseNat_iff (by omega)).mp h), rfl⟩
    · rintro (⟨n, h, rfl⟩ | ⟨_, t, n, rfl, -⟩)
      · cases h with
        | digits h => exact ⟨n, (parseNat_iff (by omega)).mpr h, rfl⟩
        | plus => exact absurd rfl (h1 _)
      · exact absurd rfl (h2 _)

theorem parseInt_signed {lo hi : Int} {s : Str} {z : Int} : parseInt 10 true lo hi s = some z ↔ Signed s z ∧ lo ≤ z ∧ z ≤ hi := by
  rw [parseInt_iff]
  apply and_congr_left
  intro _
  constructor
  · rintro (⟨n, h, rfl⟩ | ⟨-, t, n, rfl, h, rfl⟩)
    · exact .unsigned h
    · exact .minus h
  · rintro (h | h)
    · exact .inl ⟨_, h, rfl⟩
    · exact .inr ⟨rfl, _, _, rfl, h, rfl⟩

theorem parseInt_unsigned {hi : Nat} {s : Str} {z : Int} : parseInt 10 false 0 hi s = some z ↔ ∃ n : Nat, z = n ∧ Unsigned s n ∧ n ≤ hi := by
  rw [parseInt_iff]
  constructor
  · rintro ⟨⟨n, h, rfl⟩ | ⟨h, -⟩, h1, h2⟩
    · exact ⟨n, rfl, h, by omega⟩
    · cases h
  · rintro ⟨n, rfl, h, h1⟩
    exact ⟨.inl ⟨n, h, rfl⟩, by omega, by omega⟩

theorem parseU16_iff {s : Str} {v : UInt16} : parseU16 s = some v ↔ Unsigned s v.toNat := by
  unfold parseU16
  rw [Option.map_eq_some_iff]
  constructor
  · rintro ⟨z, h, rfl⟩
    obtain ⟨n, rfl, h1, h2⟩ := parseInt_unsigned (hi := 65535).mp h
    rw [Int.toNat_natCast, UInt16.toNat_ofNat', Nat.mod_eq_of_lt (by omega)]
    exact h1
  · intro h
    have := v.toNat_lt
    exact ⟨v.toNat, parseInt_unsigned (hi := 65535).mpr ⟨_, rfl, h, by omega⟩, by simp⟩

theorem parseU32_iff {s : Str} {v : UInt32} : parseU32 s = some v ↔ Unsigned s v.toNat := by
  unfold parseU32
  rw [Option.map_eq_some_iff]
  constructor
  · rintro ⟨z, h, rfl⟩
    obtain ⟨n, rfl, h1, h2⟩ := parseInt_unsigned (hi := 4294967295).mp h
    rw [Int.toNat_natCast, UInt32.toNat_ofNat', Nat.mod_eq_of_lt (by omega)]
    exact h1
  · intro h
    have := v.toNat_lt
    exact ⟨v.toNat, parseInt_unsigned (hi := 4294967295).mpr ⟨_, rfl, h, by omega⟩, by simp⟩

theorem parseI16_iff {s : Str} {v : Int16} : parseI16 s = some v ↔ Signed s v.toInt := by
  unfold parseI16
  rw [Option.map_eq_some_iff]
  constructor
  · rintro ⟨z, h, rfl⟩
    obtain ⟨h1, h2, h3⟩ := parseInt_signed.mp h
    rw [Int16.toInt_ofInt_of_le (by omega) (by omega)]
    exact h1
  · intro h
    have := v.le_toInt
    have := v.toInt_lt
    exact ⟨v.toInt, parseInt_signed.mpr ⟨h, by omega, by omega⟩, by simp⟩

theorem parseI32_iff {s : Str} {v : Int32} : parseI32 s = some v ↔ Signed s v.toInt := by
  unfold parseI32
  rw [Option.map_eq_some_iff]
  constructor
  · rintro ⟨z, h, rfl⟩
    obtain ⟨h1, h2, h3⟩ := parseInt_signed.mp h
    rw [Int32.toInt_ofInt_of_le (by omega) (by omega)]
    exact h1
  · intro h
    have := v.le_toInt
    have := v.toInt_lt
    exact ⟨v.toInt, parseInt_signed.mpr ⟨h, by omega, by omega⟩, by simp⟩

end Verif.Model
