import Verif.Model.Basic
/-! Lemmas about byte lengths, byte slicing, UTF-8 and little-endian integers. -/
namespace Verif.Model

@[simp] theorem blen_nil : blen [] = 0 := rfl
@[simp] theorem blen_cons (c : Char) (s : Str) : blen (c :: s) = c.utf8Size + blen s := rfl

@[simp] theorem blen_append (a b : Str) : blen (a ++ b) = blen a + blen b := by
  induction a with
  | nil => simp
  | cons c cs ih => simp [ih]; omega

theorem blen_eq_zero {s : Str} : blen s = 0 ↔ s = [] := by
  cases s with
  | nil => simp
  | cons c cs => have := Char.utf8Size_pos c; simp; omega

theorem blen_pos {s : Str} (h : s ≠ []) : 0 < blen s := by
  have := mt blen_eq_zero.mp h; omega

theorem length_le_blen (s : Str) : s.length ≤ blen s := by
  induction s with
  | nil => simp
  | cons c cs ih => have := Char.utf8Size_pos c; simp; omega

theorem dropBytes_eq_some {s : Str} {n : Nat} {r : Str} :
    dropBytes s n = some r ↔ ∃ p, s = p ++ r ∧ blen p = n := by
  induction s generalizing n with
  | nil =>
    cases n with
    | zero =>
      simp only [dropBytes, Option.some.injEq]
      constructor
      · rintro rfl; exact ⟨[], by simp⟩
      · rintro ⟨p, h, -⟩; simp at h; exact h.2.symm
    | succ n =>
      simp only [dropBytes]
      constructor
      · intro h; cases h
      · rintro ⟨p, h, hb⟩; simp at h; simp [h.1] at hb
  | cons c cs ih =>
    have hc := Char.utf8Size_pos c
    cases n with
    | zero =>
      simp only [dropBytes, Option.some.injEq]
      constructor
      · rintro rfl; exact ⟨[], by simp⟩
      · rintro ⟨p, h, hb⟩
        rw [blen_eq_zero] at hb; subst hb; simpa using h
    | succ n =>
      simp only [dropBytes]
      split
      · rename_i hle
        rw [ih]
        constructor
        · rintro ⟨p, rfl, hb⟩
          exact ⟨c :: p, by simp, by simp; omega⟩
        · rintro ⟨p, h, hb⟩
          cases p with
          | nil => simp at hb
          | cons d p =>
            simp at h hb
            obtain ⟨rfl, rfl⟩ := h
            exact ⟨p, rfl, by omega⟩
      · rename_i hle
        constructor
        · intro h; cases h
        · rintro ⟨p, h, hb⟩
          cases p with
          | nil => simp at hb
          | cons d p => simp at h hb; obtain ⟨rfl, rfl⟩ := h; omega

theorem takeBytes_eq_some {s : Str} {n : Nat} {p : Str} :
    takeBytes s n = some p ↔ ∃ r, s = p ++ r ∧ blen p = n := by
  induction s generalizing n p with
  | nil =>
    cases n with
    | zero =>
      simp only [takeBytes, Option.some.injEq]
      constructor
      · rintro rfl; exact ⟨[], by simp⟩
      · rintro ⟨r, h, -⟩; simp at h; exact h.1.symm
    | succ n =>
      simp only [takeBytes]
      constructor
      · intro h; cases h
      · rintro ⟨r, h, hb⟩; simp at h; simp [h.1] at hb
  | cons c cs ih =>
    have hc := Char.utf8Size_pos c
    cases n with
    | zero =>
      simp only [takeBytes, Option.some.injEq]
      constructor
      · rintro rfl; exact ⟨c :: cs, by simp⟩
      · rintro ⟨r, h, hb⟩
        rw [blen_eq_zero] at hb; exact hb.symm
    | succ n =>
      simp only [takeBytes]
      split
      · rename_i hle
        constructor
        · intro h
          simp only [Option.map_eq_some_iff] at h
          obtain ⟨q, hq, rfl⟩ := h
          rw [ih] at hq
          obtain ⟨r, rfl, hb⟩ := hq
          exact ⟨r, by simp, by simp; omega⟩
        · rintro ⟨r, h, hb⟩
          cases p with
          | nil => simp at hb
          | cons d p =>
            simp at h hb
            obtain ⟨rfl, rfl⟩ := h
            simp only [Option.map_eq_some_iff]
            exact ⟨p, ih.mpr ⟨r, rfl, by omega⟩, rfl⟩
      · rename_i hle
        constructor
        · intro h; cases h
        · rintro ⟨r, h, hb⟩
          cases p with
          | nil => simp at hb
          | cons d p => simp at h hb; obtain ⟨rfl, rfl⟩ := h; omega

theorem sliceBytes_eq_some {s : Str} {a b : Nat} {m : Str} :
    sliceBytes s a b = some m ↔ ∃ p r, s = p ++ m ++ r ∧ blen p = a ∧ blen p + blen m = b := by
  unfold sliceBytes
  split
  · rename_i hle
    simp only [Option.bind_eq_some_iff, dropBytes_eq_some, takeBytes_eq_some]
    constructor
    · rintro ⟨x, ⟨p, rfl, hp⟩, r, rfl, hm⟩
      exact ⟨p, r, by simp, hp, by omega⟩
    · rintro ⟨p, r, rfl, hp, hm⟩
      exact ⟨m ++ r, ⟨p, by simp, hp⟩, r, rfl, by omega⟩
  · constructor
    · intro h; cases h
    · rintro ⟨p, r, rfl, hp, hm⟩; omega

theorem dropBytes_append (p r : Str) : dropBytes (p ++ r) (blen p) = some r :=
  dropBytes_eq_some.mpr ⟨p, rfl, rfl⟩

theorem takeBytes_append (p r : Str) : takeBytes (p ++ r) (blen p) = some p :=
  takeBytes_eq_some.mpr ⟨r, rfl, rfl⟩

theorem sliceBytes_append (p m r : Str) :
    sliceBytes (p ++ m ++ r) (blen p) (blen p + blen m) = some m :=
  sliceBytes_eq_some.mpr ⟨p, r, rfl, rfl, rfl⟩

/-- Two prefixes of the same string with the same byte length are equal. -/
theorem prefix_unique {p q r t : Str} (h : p ++ r = q ++ t) (hb : blen p = blen q) : p = q ∧ r = t := by
  have h1 := dropBytes_append p r
  have h2 := dropBytes_append q t
  rw [h, hb, h2] at h1
  have hrt : t = r := by simpa using h1
  subst hrt
  exact ⟨List.append_cancel_right h, rfl⟩

/-! ### UTF-8 -/

@[simp] theorem utf8_nil : utf8 [] = [] := rfl
@[simp] theorem utf8_append (a b : Str) : utf8 (a ++ b) = utf8 a ++ utf8 b := by simp [utf8]

@[simp] theorem length_utf8 (s : Str) : (utf8 s).length = blen s := by
  induction s with
  | nil => rfl
  | cons c cs ih => simp [utf8, String.length_utf8EncodeChar] at ih ⊢; exact ih

theorem utf8_toByteArray (s : Str) : (utf8 s).toByteArray = s.utf8Encode := rfl

/-- UTF-8 is a prefix code: a byte prefix that is itself a string is a character prefix. -/
theorem prefix_of_utf8_prefix {a b : Str} (h : utf8 a <+: utf8 b) : a <+: b := by
  obtain ⟨t, ht⟩ := h
  apply List.isPrefix_of_utf8Encode_append_eq_utf8Encode t.toByteArray
  rw [← utf8_toByteArray, ← utf8_toByteArray, ← ht]
  simp

theorem utf8_prefix_iff {a b : Str} : utf8 a <+: utf8 b ↔ a <+: b := by
  refine ⟨prefix_of_utf8_prefix, ?_⟩
  rintro ⟨t, rfl⟩
  simp

theorem utf8_injective {a b : Str} (h : utf8 a = utf8 b) : a = b := by
  have h1 : a <+: b := prefix_of_utf8_prefix (by rw [h]; exact List.prefix_refl _)
  have h2 : b <+: a := prefix_of_utf8_prefix (by rw [h]; exact List.prefix_refl _)
  exact List.IsPrefix.eq_of_length_le h1 h2.length_le

/-! ### Little-endian integers -/

@[simp] theorem length_leU16 (x : UInt16) : (leU16 x).length = 2 := rfl
@[simp] theorem length_leU32 (x : UInt32) : (leU32 x).length = 4 := rfl
@[simp] theorem length_leI16 (x : Int16) : (leI16 x).length = 2 := rfl

theorem readU16_leU16 (x : UInt16) (r : List UInt8) : readU16 (leU16 x ++ r) = some x := by
  have h := x.toNat_lt
  simp only [leU16, readU16, List.cons_append, List.nil_append, Option.some.injEq]
  apply UInt16.toNat_inj.mp
  simp
  omega

theorem readU32_leU32 (x : UInt32) (r : List UInt8) : readU32 (leU32 x ++ r) = some x := by
  have h := x.toNat_lt
  simp only [leU32, readU32, List.cons_append, List.nil_append, Option.some.injEq]
  apply UInt32.toNat_inj.mp
  simp
  omega

theorem readI16_leI16 (x : Int16) (r : List UInt8) : readI16 (leI16 x ++ r) = some x := by
  simp [readI16, leI16, readU16_leU16]

end Verif.Model
