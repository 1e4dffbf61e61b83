import Verif.Proofs.Details
import Verif.Model.Bincode
/-! Round trip and truncation for the bincode codecs. -/
namespace Verif.Model

/-- Decoding an encoded value gives it back and leaves the rest; decoding more input gives the same value. -/
structure Codec.Good {α : Type} (c : Codec α) (P : α → Prop) : Prop where
  roundtrip : ∀ a, P a → ∀ r, c.dec (c.enc a ++ r) = some (a, r)
  mono : ∀ bs a r q, c.dec bs = some (a, r) → c.dec (bs ++ q) = some (a, r ++ q)

theorem readLe_leNat (k n : Nat) (h : n < 256 ^ k) (r : List UInt8) : readLe k (leNat k n ++ r) = some (n, r) := by
  induction k generalizing n with
  | zero =>
    have : n = 0 := by simpa using h
    subst this
    rfl
  | succ k ih =>
    have h' : n / 256 < 256 ^ k := by
      rw [Nat.div_lt_iff_lt_mul (by decide)]
      rw [Nat.pow_succ] at h
      exact h
    rw [leNat, List.cons_append, readLe, ih _ h']
    simp only [Option.map_some, Option.some.injEq, Prod.mk.injEq, and_true, UInt8.toNat_ofNat']
    omega

theorem readLe_mono (k : Nat) (bs : List UInt8) (n : Nat) (r q : List UInt8) (h : readLe k bs = some (n, r)) :
    readLe k (bs ++ q) = some (n, r ++ q) := by
  induction k generalizing bs n with
  | zero =>
    simp only [readLe, Option.some.injEq, Prod.mk.injEq] at h
    obtain ⟨rfl, rfl⟩ := h
    rfl
  | succ k ih =>
    cases bs with
    | nil => simp [readLe] at h
    | cons b bs =>
      simp only [readLe, Option.map_eq_some_iff, Prod.mk.injEq] at h
      obtain ⟨⟨m, r'⟩, h, rfl, rfl⟩ := h
      simp only [List.cons_append, readLe, ih bs m h, Option.map_some]

namespace Codec

theorem Good.weaken {α : Type} {c : Codec α} {P Q : α → Prop} (h : c.Good P) (hq : ∀ a, Q a → P a) : c.Good Q :=
  ⟨fun a ha => h.roundtrip a (hq a ha), h.mono⟩

theorem good_uint (k : Nat) : (uint k).Good fun n => n < 256 ^ k :=
  ⟨fun n h r => readLe_leNat k n h r, fun bs n r q h => readLe_mono k bs n r q h⟩

theorem Good.via {α β : Type} {c : Codec α} {P : α → Prop} (h : c.Good P) {g : β → α} {f : α → Option β} {Q : β → Prop}
    (hq : ∀ b, Q b → P (g b) ∧ f (g b) = some b) : (c.via g f).Good Q where
  roundtrip b hb r := by
    obtain ⟨h1, h2⟩ := hq b hb
    simp [Codec.via, h.roundtrip _ h1, h2]
  mono bs b r q hd := by
    simp only [Codec.via, Option.bind_eq_some_iff, Option.map_eq_some_iff, Prod.mk.injEq] at hd
    obtain ⟨⟨a, r'⟩, h1, b', h2, rfl, rfl⟩ := hd
    simp only [Codec.via, h.mono _ _ _ q h1, Option.bind_some]
    rw [h2]
    rfl

theorem Good.pair {α β : Type} {c : Codec α} {d : Codec β} {P : α → Prop} {Q : β → Prop} (hc : c.Good P) (hd : d.Good Q) :
    (c.pair d).Good fun p => P p.1 ∧ Q p.2 where
  roundtrip p hp r := by
    simp [Codec.pair, hc.roundtrip _ hp.1, hd.roundtrip _ hp.2]
  mono bs p r q h := by
    simp only [Codec.pair, Option.bind_eq_some_iff, Option.map_eq_some_iff, Prod.mk.injEq] at h
    obtain ⟨⟨a, r'⟩, h1, ⟨b, r''⟩, h2, rfl, rfl⟩ := h
    simp only [Codec.pair, hc.mono _ _ _ q h1, Option.bind_some]
    rw [hd.mono _ _ _ q h2]
    rfl

theorem Good.decN_roundtrip {α : Type} {c : Codec α} {P : α → Prop} (hc : c.Good P) (xs : List α) (hx : ∀ x ∈ xs, P x) (r : List UInt8) :
    c.decN xs.length (xs.flatMap c.enc ++ r) = some (xs, r) := by
  induction xs with
  | nil => rfl
  | cons x xs ih =>
    rw [List.flatMap_cons, List.append_assoc, List.length_cons, decN, hc.roundtrip x (hx x (by simp)), Option.bind_some,
      ih fun y hy => hx y (by simp [hy])]
    rfl

theorem Good.decN_mono {α : Type} {c : Codec α} {P : α → Prop} (hc : c.Good P) (n : Nat) (bs : List UInt8) (xs : List α) (r q : List UInt8)
    (h : c.decN n bs = some (xs, r)) : c.decN n (bs ++ q) = some (xs, r ++ q) := by
  induction n generalizing bs xs with
  | zero =>
    simp only [decN, Option.some.injEq, Prod.mk.injEq] at h
    obtain ⟨rfl, rfl⟩ := h
    rfl
  | succ n ih =>
    simp only [decN, Option.bind_eq_some_iff, Option.map_eq_some_iff, Prod.mk.injEq] at h
    obtain ⟨⟨a, r'⟩, h1, ⟨as, r''⟩, h2, rfl, rfl⟩ := h
    rw [decN, hc.mono _ _ _ q h1, Option.bind_some, ih _ _ h2]
    rfl

theorem Good.vec {α : Type} {c : Codec α} {P : α → Prop} (hc : c.Good P) :
    (vec c).Good fun xs => xs.length < 2 ^ 64 ∧ ∀ x ∈ xs, P x where
  roundtrip xs hx r := by
    simp only [Codec.vec]
    rw [List.append_assoc, readLe_leNat 8 xs.length (by have := hx.1; omega), Option.bind_some]
    exact hc.decN_roundtrip xs hx.2 r
  mono bs xs r q h := by
    simp only [Codec.vec, Option.bind_eq_some_iff] at h
    obtain ⟨⟨n, r'⟩, h1, h2⟩ := h
    simp only [Codec.vec, readLe_mono _ _ _ _ q h1, Option.bind_some]
    exact hc.decN_mono n _ _ _ q h2

theorem good_u8 : u8.Good fun _ => True :=
  (good_uint 1).via fun b _ => ⟨by have := b.toNat_lt; omega, by simp⟩
theorem good_u16 : u16.Good fun _ => True :=
  (good_uint 2).via fun b _ => ⟨by have := b.toNat_lt; omega, by simp⟩
theorem good_u32 : u32.Good fun _ => True :=
  (good_uint 4).via fun b _ => ⟨by have := b.toNat_lt; omega, by simp⟩
theorem good_i16 : i16.Good fun _ => True :=
  good_u16.via fun b _ => ⟨trivial, by simp⟩
theorem good_u32Nat : u32Nat.Good fun n => n < 2 ^ 32 := good_uint 4
theorem good_usize : usize.Good fun n => n < 2 ^ 64 := good_uint 8
theorem good_bool : bool.Good fun _ => True :=
  (good_uint 1).via fun b _ => by cases b <;> simp
theorem good_string : string.Good fun s => blen s < 2 ^ 64 :=
  good_u8.vec.via fun s h => ⟨⟨by rw [length_utf8]; exact h, by simp⟩, decodeUtf8_utf8 s⟩

theorem good_categoryData : categoryData.Good fun _ => True :=
  (good_bool.pair (good_bool.pair good_u32)).via fun _ _ => ⟨⟨trivial, trivial, trivial⟩, rfl⟩

theorem good_lookupTable : lookupTable.Good fun t => (t.boundaries.length < 2 ^ 64 ∧ ∀ b ∈ t.boundaries, b < 2 ^ 32) ∧
    t.values.length < 2 ^ 64 ∧ ∀ v ∈ t.values, v.length < 2 ^ 64 ∧ ∀ c ∈ v, c < 2 ^ 64 :=
  (good_u32Nat.vec.pair good_usize.vec.vec).via fun _ h => ⟨h, rfl⟩

theorem good_charDefs : charDefs.Good fun d => (d.definitions.length < 2 ^ 64) ∧ (d.names.length < 2 ^ 64 ∧ ∀ n ∈ d.names, blen n < 2 ^ 64) ∧
    (d.mapping.boundaries.length < 2 ^ 64 ∧ ∀ b ∈ d.mapping.boundaries, b < 2 ^ 32) ∧
    d.mapping.values.length < 2 ^ 64 ∧ ∀ v ∈ d.mapping.values, v.length < 2 ^ 64 ∧ ∀ c ∈ v, c < 2 ^ 64 :=
  (good_categoryData.vec.pair (good_string.vec.pair good_lookupTable)).via fun _ h => ⟨⟨⟨h.1, by simp⟩, h.2.1, h.2.2⟩, rfl⟩

theorem good_wordEntry : wordEntry.Good fun _ => True :=
  ((good_u32.pair good_bool).pair (good_i16.pair (good_u16.pair good_u16))).via fun _ _ =>
    ⟨⟨⟨trivial, trivial⟩, trivial, trivial, trivial⟩, rfl⟩

theorem good_unkDict : unkDict.Good fun u => (u.categoryReferences.length < 2 ^ 64 ∧ ∀ v ∈ u.categoryReferences, v.length < 2 ^ 64) ∧
    u.costs.length < 2 ^ 64 :=
  (good_u32.vec.vec.pair good_wordEntry.vec).via fun _ h => ⟨⟨⟨h.1.1, fun v hv => ⟨h.1.2 v hv, by simp⟩⟩, h.2, by simp⟩, rfl⟩

theorem good_userDict : userDict.Good fun u => u.daBytes.length < 2 ^ 64 ∧ u.valsData.length < 2 ^ 64 ∧ u.wordsIdxData.length < 2 ^ 64 ∧
    u.wordsData.length < 2 ^ 64 :=
  ((good_u8.vec.pair (good_u8.vec.pair good_bool)).pair (good_u8.vec.pair good_u8.vec)).via fun _ h =>
    ⟨⟨⟨⟨h.1, by simp⟩, ⟨h.2.1, by simp⟩, trivial⟩, ⟨h.2.2.1, by simp⟩, h.2.2.2, by simp⟩, rfl⟩

/-- Loading the serialized value, with anything after it. -/
theorem Good.load {α : Type} {c : Codec α} {P : α → Prop} (hc : c.Good P) {a : α} (ha : P a) (r : List UInt8) :
    c.load (c.enc a ++ r) = .ok a := by
  unfold Codec.load
  rw [hc.roundtrip a ha r]

/-- Loading a strict prefix of the serialized value. -/
theorem Good.truncated {α : Type} {c : Codec α} {P : α → Prop} (hc : c.Good P) {a : α} (ha : P a) {p q : List UInt8} (h : c.enc a = p ++ q)
    (hq : q ≠ []) : c.load p = .error (.err .deserialize) := by
  unfold Codec.load
  cases hd : c.dec p with
  | none => rfl
  | some x =>
    exfalso
    have h1 := hc.mono p x.1 x.2 q hd
    have h2 := hc.roundtrip a ha []
    rw [List.append_nil, h, h1] at h2
    simp only [Option.some.injEq, Prod.mk.injEq, List.append_eq_nil_iff] at h2
    exact hq h2.2.2

end Codec
end Verif.Model
