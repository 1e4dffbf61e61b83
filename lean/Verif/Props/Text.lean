import Verif.Proofs.Readers
import Verif.Spec.UserDict
/-! Properties of the reading of source texts: C58. -/
namespace Verif.Props
open Verif.Model Verif.Spec

/-- C58: the lines of a text. -/
theorem c58_lines (text : Str) (ls : List Str) : lines text = ls ↔ TextLines text ls := lines_iff

/-- C58: the columns of a line. -/
theorem c58_columns (sep : Char) (line : Str) (ps : List Str) : splitAll (· = sep) line = ps ↔ Columns (· = sep) line ps :=
  splitAll_iff fun _ => decide_eq_true_iff

/-- C58: the words of a line, and the text without outer white space. -/
theorem c58_words (s : Str) : (∀ ws, splitWhitespace s = ws ↔ Words IsSpace s ws) ∧ (∀ ws, splitAsciiWhitespace s = ws ↔ Words IsAsciiSpace s ws) ∧
    ∀ t, trim s = t ↔ Trimmed s t :=
  ⟨fun _ => splitWhitespace_iff, fun _ => splitAsciiWhitespace_iff, fun _ => trim_iff⟩

/-- C58: a number is read exactly if the text is a decimal number that fits the type, and then as its value. -/
theorem c58_numbers (s : Str) :
    (∀ v : UInt16, parseU16 s = some v ↔ Unsigned s v.toNat) ∧ (∀ v : UInt32, parseU32 s = some v ↔ Unsigned s v.toNat) ∧
    (∀ v : Int16, parseI16 s = some v ↔ Signed s v.toInt) ∧ (∀ v : Int32, parseI32 s = some v ↔ Signed s v.toInt) :=
  ⟨fun _ => parseU16_iff, fun _ => parseU32_iff, fun _ => parseI16_iff, fun _ => parseI32_iff⟩

example : Signed "-12".toList (-12) ∧ Unsigned "+007".toList 7 :=
  ⟨parseI32_iff (v := -12) |>.mp (by decide +kernel), parseU16_iff (v := 7) |>.mp (by decide +kernel)⟩

/-- C58: keys, words and members of documents are compared by their bytes. -/
theorem c58_order : (∀ a b : List UInt8, bytesLe a b = true ↔ ByteOrder a b) ∧ ∀ a b : Str, strLe a b = true ↔ ByteOrder (utf8 a) (utf8 b) := by
  have h : ∀ a b : List UInt8, bytesLe a b = true ↔ ByteOrder a b := by
    intro a
    induction a with
    | nil => intro b; exact ⟨fun _ => .inl ⟨b, rfl⟩, fun _ => by cases b <;> rfl⟩
    | cons x a ih =>
      intro b
      cases b with
      | nil =>
        refine ⟨fun h => by simp [bytesLe] at h, ?_⟩
        rintro (⟨r, h⟩ | ⟨p, u, v, r, s, -, h, -⟩)
        · cases h
        · exact absurd h (by simp)
      | cons y b =>
        simp only [bytesLe, Bool.or_eq_true, Bool.and_eq_true, decide_eq_true_eq, beq_iff_eq, ih b]
        constructor
        · rintro (h | ⟨rfl, ⟨r, rfl⟩ | ⟨p, u, v, r, s, rfl, rfl, h⟩⟩)
          · exact .inr ⟨[], x, y, a, b, rfl, rfl, h⟩
          · exact .inl ⟨r, rfl⟩
          · exact .inr ⟨x :: p, u, v, r, s, rfl, rfl, h⟩
        · rintro (⟨r, h⟩ | ⟨p, u, v, r, s, h1, h2, h⟩)
          · cases h; exact .inr ⟨rfl, .inl ⟨r, rfl⟩⟩
          · cases p with
            | nil => cases h1; cases h2; exact .inl h
            | cons z p =>
              cases h1; cases h2
              exact .inr ⟨rfl, .inr ⟨p, u, v, r, s, rfl, rfl, h⟩⟩
  exact ⟨h, fun a b => h _ _⟩

example : ByteOrder (utf8 "ab".toList) (utf8 "ab猫".toList) ∧ ByteOrder (utf8 "az".toList) (utf8 "b".toList) ∧ ¬ ByteOrder (utf8 "b".toList) (utf8 "az".toList) :=
  ⟨.inl ⟨_, rfl⟩, (c58_order.1 _ _).mp (by decide +kernel), fun h => absurd ((c58_order.1 _ _).mpr h) (by decide +kernel)⟩

/-- C58: a text has at most one value, and every number has a text: what `to_string` writes is read back. -/
theorem c58_unique (s : Str) : (∀ n m, Unsigned s n → Unsigned s m → n = m) ∧ ∀ z w, Signed s z → Signed s w → z = w := by
  have hd : ∀ {s : Str} {n m : Nat}, Digits 10 s n → Digits 10 s m → n = m := by
    intro s n m h1 h2
    have h1 := (parseNat_iff (by omega)).mpr h1
    have h2 := (parseNat_iff (by omega)).mpr h2
    rw [h1] at h2
    exact Option.some.inj h2
  have hs : ∀ {s : Str} {n : Nat}, Digits 10 s n → ∀ t, s ≠ '+' :: t ∧ s ≠ '-' :: t := by
    intro s n h t
    obtain ⟨c, v, u, rfl, hv⟩ := digits_head h
    constructor
    · intro e; cases e; exact (digit_sign hv).1 rfl
    · intro e; cases e; exact (digit_sign hv).2 rfl
  have hu : ∀ {s : Str} {n m : Nat}, Unsigned s n → Unsigned s m → n = m := by
    intro s n m h1 h2
    cases h1 with
    | digits h1 =>
      cases h2 with
      | digits h2 => exact hd h1 h2
      | plus => exact absurd rfl (hs h1 _).1
    | plus h1 =>
      cases h2 with
      | digits h2 => exact absurd rfl (hs h2 _).1
      | plus h2 => exact hd h1 h2
  have hm : ∀ {s : Str} {n : Nat}, ¬ Unsigned ('-' :: s) n := by
    intro s n h
    cases h with
    | digits h => exact (hs h _).2 rfl
  refine ⟨fun n m => hu, fun z w h1 h2 => ?_⟩
  cases h1 with
  | unsigned h1 =>
    cases h2 with
    | unsigned h2 => rw [hu h1 h2]
    | minus => exact absurd h1 hm
  | minus h1 =>
    cases h2 with
    | unsigned h2 => exact absurd h2 hm
    | minus h2 => rw [hd h1 h2]

theorem digits_toDigits (n : Nat) : Digits 10 (Nat.toDigits 10 n) n := by
  induction n using Nat.strongRecOn with
  | _ n ih =>
    have hdig : ∀ v, v < 10 → DigitOf 10 v.digitChar v := by
      intro v hv
      refine ⟨hv, .inl ?_⟩
      have : v = 0 ∨ v = 1 ∨ v = 2 ∨ v = 3 ∨ v = 4 ∨ v = 5 ∨ v = 6 ∨ v = 7 ∨ v = 8 ∨ v = 9 := by omega
      rcases this with rfl | rfl | rfl | rfl | rfl | rfl | rfl | rfl | rfl | rfl <;> rfl
    by_cases h : n < 10
    · rw [Nat.toDigits_of_lt_base h]
      exact .one (hdig n h)
    · have h1 := ih (n / 10) (by omega)
      have h2 : Nat.toDigits 10 n = Nat.toDigits 10 (n / 10) ++ [(n % 10).digitChar] := by
        rw [Nat.toDigits_of_base_le (by omega) (by omega)]
      rw [h2]
      have h3 := Digits.more h1 (hdig (n % 10) (by omega))
      rwa [show n / 10 * 10 + n % 10 = n by omega] at h3

/-- The decimal text of an integer, as `to_string` writes it. -/
def decimal : Int → Str
  | .ofNat n => Nat.toDigits 10 n
  | .negSucc n => '-' :: Nat.toDigits 10 (n + 1)

theorem c58_decimal (z : Int) : Signed (decimal z) z ∧ ∀ n : Nat, z = n → Unsigned (decimal z) n := by
  constructor
  · cases z with
    | ofNat n => exact .unsigned (.digits (digits_toDigits n))
    | negSucc n =>
      have := Signed.minus (digits_toDigits (n + 1))
      rwa [show -((n + 1 : Nat) : Int) = Int.negSucc n from rfl] at this
  · rintro n rfl
    exact .digits (digits_toDigits n)

/-- C58: what the rows of a dictionary source say. -/
theorem c58_row (norm : Bool) (row : Row) (w : SourceWord) : readRow norm row = some w ↔
    ∃ surface left right cost details l r c, row.fields = surface :: left :: right :: cost :: details ∧
      Trimmed left l ∧ Unsigned l w.leftId.toNat ∧ Trimmed right r ∧ Unsigned r w.rightId.toNat ∧ Trimmed cost c ∧ Signed c w.cost.toInt ∧
      w.surface = fieldText norm surface ∧ w.details = details.map (fieldText norm) := by
  unfold readRow
  constructor
  · intro h
    split at h
    next surface left right cost details hf =>
      split at h
      next l r c hl hr hc =>
        cases h
        exact ⟨surface, left, right, cost, details, _, _, _, hf, trim_iff.mp rfl, parseU16_iff.mp hl, trim_iff.mp rfl, parseU16_iff.mp hr,
          trim_iff.mp rfl, parseI16_iff.mp hc, rfl, rfl⟩
      next => cases h
    next => cases h
  · rintro ⟨surface, left, right, cost, details, l, r, c, hf, h1, h2, h3, h4, h5, h6, h7, h8⟩
    rw [hf]
    dsimp only
    rw [trim_iff.mpr h1, trim_iff.mpr h3, trim_iff.mpr h5, parseU16_iff.mpr h2, parseU16_iff.mpr h4, parseI16_iff.mpr h6]
    dsimp only
    rw [← h7, ← h8]

/-- C58: what the rows of a user dictionary source say. -/
theorem c58_user_row (kind : DictionaryKind) (row : Row) (w : SourceWord) : readUserRow kind row = some w ↔
    (∃ surface pos reading, row.fields = [surface, pos, reading] ∧ w = ⟨surface, -10000, 0, 0, simpleDetails kind surface pos reading⟩) ∨
    (∃ left right cost, row.fields = w.surface :: left :: right :: cost :: w.details ∧ detailedColumns kind ≤ row.fields.length ∧
      Unsigned left w.leftId.toNat ∧ Unsigned right w.rightId.toNat ∧ Signed cost w.cost.toInt) := by
  unfold readUserRow
  split
  next surface pos reading hf =>
    constructor
    · intro h; cases h; exact .inl ⟨_, _, _, hf, rfl⟩
    · rintro (⟨s, p, r, h, rfl⟩ | ⟨l, r, c, h, -⟩)
      · rw [hf] at h; cases h; rfl
      · rw [hf] at h; cases h
  next surface left right cost details hf =>
    constructor
    · intro h
      split at h
      next hlen =>
        split at h
        next l r c hl hr hc =>
          cases h
          refine .inr ⟨left, right, cost, hf, ?_, parseU16_iff.mp hl, parseU16_iff.mp hr, parseI16_iff.mp hc⟩
          rw [hf]; simp only [List.length_cons]; omega
        next => cases h
      next => cases h
    · rintro (⟨s, p, r, h, rfl⟩ | ⟨l, r, c, h, hlen, h1, h2, h3⟩)
      · rw [hf] at h; cases h
      · rw [hf] at h hlen
        cases h
        simp only [List.length_cons] at hlen
        rw [if_pos (by omega), parseU16_iff.mpr h1, parseU16_iff.mpr h2, parseI16_iff.mpr h3]
  next h1 h2 =>
    constructor
    · intro h; cases h
    · rintro (⟨s, p, r, h, rfl⟩ | ⟨l, r, c, h, -⟩)
      · exact absurd h (h1 _ _ _)
      · exact absurd h (h2 _ _ _ _ _)

end Verif.Props
