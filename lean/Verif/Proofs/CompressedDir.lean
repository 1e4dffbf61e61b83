import Verif.Model.Compress
import Verif.Model.Loader
/-!
Compressed data is never taken for character definitions.
-/
namespace Verif.Model

theorem readLe_shorter : ∀ (k : Nat) {bs : List UInt8} {p : Nat × List UInt8}, readLe k bs = some p → p.2.length + k = bs.length
  | 0, bs, p, h => by simp only [readLe, Option.some.injEq] at h; subst h; rfl
  | k + 1, [], p, h => by simp [readLe] at h
  | k + 1, b :: bs, p, h => by
    simp only [readLe, Option.map_eq_some_iff] at h
    obtain ⟨q, hq, rfl⟩ := h
    have := readLe_shorter k hq
    simp only [List.length_cons]
    omega

theorem categoryData_shorter {bs : List UInt8} {p : CategoryData × List UInt8} (h : Codec.categoryData.dec bs = some p) : p.2.length < bs.length := by
  simp only [Codec.categoryData, Codec.via, Codec.pair, Codec.bool, Codec.u32, Codec.uint, Option.bind_eq_some_iff, Option.map_eq_some_iff] at h
  obtain ⟨q, ⟨a, ⟨x, hx, b, hb, rfl⟩, c, ⟨d, ⟨y, hy, _, _, rfl⟩, e, ⟨z, hz, _, _, rfl⟩, rfl⟩, rfl⟩, r, _, rfl⟩ := h
  have h1 := readLe_shorter _ hx
  have h2 := readLe_shorter _ hy
  have h3 := readLe_shorter _ hz
  dsimp only at h1 h2 h3 ⊢
  omega

theorem decN_shorter {α : Type} {c : Codec α} (hc : ∀ {bs p}, c.dec bs = some p → p.2.length < bs.length) :
    ∀ (n : Nat) {bs : List UInt8} {p : List α × List UInt8}, c.decN n bs = some p → n ≤ bs.length
  | 0, _, _, _ => Nat.zero_le _
  | n + 1, bs, p, h => by
    simp only [Codec.decN, Option.bind_eq_some_iff, Option.map_eq_some_iff] at h
    obtain ⟨q, hq, r, hr, _⟩ := h
    have := hc hq
    have := decN_shorter hc n hr
    omega

/-- Compressed data is never taken for character definitions. -/
theorem compressed_not_charDefs (data : List UInt8) (h : data.length < 2 ^ 32) : CharDefs.load (Codec.compressedData.enc ⟨.deflate, data⟩) = .error (.err .deserialize) := by
  have hb : Codec.compressedData.enc ⟨.deflate, data⟩ = 0 :: 0 :: 0 :: 0 :: (leNat 8 data.length ++ data) := by
    show (leNat 4 0 ++ (leNat 8 data.length ++ data.flatMap (leNat 1 ·.toNat))) = _
    have : data.flatMap (leNat 1 ·.toNat) = data := by
      induction data with
      | nil => rfl
      | cons b bs ih =>
        rw [List.flatMap_cons, ih (by simp at h; omega)]
        simp [leNat]
    rw [this]
    rfl
  rw [hb]
  unfold CharDefs.load Codec.load
  have hd : Codec.charDefs.dec (0 :: 0 :: 0 :: 0 :: (leNat 8 data.length ++ data)) = none := by
    rw [Option.eq_none_iff_forall_ne_some]
    intro p hp
    simp only [Codec.charDefs, Codec.via, Codec.pair, Codec.vec, Option.bind_eq_some_iff, Option.map_eq_some_iff, leNat, List.cons_append, List.nil_append, readLe, Option.some.injEq] at hp
    obtain ⟨q, ⟨a, ⟨len, ⟨_, ⟨_, ⟨_, ⟨_, ⟨_, ⟨_, ⟨_, ⟨_, rfl, rfl⟩, rfl⟩, rfl⟩, rfl⟩, rfl⟩, rfl⟩, rfl⟩, rfl⟩, ha⟩, b, ⟨c, ⟨l2, h2, _⟩, _⟩, _⟩, _⟩ := hp
    have h1 := decN_shorter categoryData_shorter _ ha
    simp only [List.length_cons, UInt8.toNat_ofNat', UInt8.toNat_ofNat, Nat.reducePow, Nat.reduceMod] at h1 ha
    have hz : data.length = 0 := by omega
    simp only [hz, Nat.reduceDiv, Nat.reduceMod, Nat.reduceMul, Nat.reduceAdd, Codec.decN, Option.some.injEq] at ha
    subst ha
    have h3 := readLe_shorter _ h2
    simp only [List.length_cons, hz] at h3
    omega
  rw [hd]
end Verif.Model
