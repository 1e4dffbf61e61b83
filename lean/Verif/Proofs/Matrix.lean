import Verif.Model.MatrixBuilder
import Verif.Spec.Matrix
import Verif.Proofs.Readers
import Verif.Proofs.Basic
import Verif.Proofs.Monad
import Mathlib.Tactic.Ring
/-! The connection matrix compiler. -/
namespace Verif.Model
open Verif.Spec

theorem flatMap_leI16_length (xs : List Int16) : (xs.flatMap leI16).length = 2 * xs.length := by
  induction xs with
  | nil => rfl
  | cons x xs ih => simp [ih]; omega

theorem flatMap_leI16_drop (xs : List Int16) (i : Nat) : (xs.flatMap leI16).drop (2 * i) = (xs.drop i).flatMap leI16 := by
  induction xs generalizing i with
  | nil => simp
  | cons x xs ih =>
    cases i with
    | zero => simp
    | succ i =>
      have h2 : 2 * (i + 1) = (leI16 x).length + 2 * i := by simp; omega
      rw [List.flatMap_cons, List.drop_succ_cons, ← ih i, h2, List.drop_append]
      simp

theorem lastCost_append (ls : List CostLine) (l : CostLine) (f b : Nat) :
    lastCost (ls ++ [l]) f b = if l.forward = f ∧ l.backward = b then l.cost else lastCost ls f b := by
  induction ls with
  | nil => simp [lastCost]
  | cons x ls ih =>
    simp only [List.cons_append, lastCost, List.any_append, List.any_cons, List.any_nil, Bool.or_false]
    by_cases h : l.forward = f ∧ l.backward = b
    · rw [ih]
      simp [h]
    · rw [ih]
      simp [h]

theorem index_inj {B f b f' b' : Nat} (hb : b < B) (hb' : b' < B) (h : b + f * B = b' + f' * B) : f = f' ∧ b = b' := by
  have h1 : (b + f * B) / B = (b' + f' * B) / B := by rw [h]
  rw [Nat.add_mul_div_right _ _ (by omega), Nat.add_mul_div_right _ _ (by omega), Nat.div_eq_of_lt hb, Nat.div_eq_of_lt hb'] at h1
  have hf : f = f' := by omega
  subst hf
  exact ⟨rfl, by omega⟩

theorem index_lt {F B f b : Nat} (hf : f < F) (hb : b < B) : b + f * B < F * B := by
  have h1 : (f + 1) * B ≤ F * B := Nat.mul_le_mul_right B hf
  have h2 : (f + 1) * B = f * B + B := by ring
  omega

theorem toUInt32_ofNat {n : Nat} (h : n < 2 ^ 31) : (Int32.ofNat n).toUInt32.toNat = n := by
  have : (Int32.ofNat n).toUInt32 = UInt32.ofNat n := rfl
  rw [this]
  simp
  omega

theorem int16_cast (c : Int16) : c.toInt32.toUInt32.toUInt16.toInt16 = c := by
  have h : ∀ x : Int32, x.toUInt32.toUInt16.toInt16 = x.toInt16 := by
    intro x
    apply Int16.toBitVec.inj
    show x.toBitVec.setWidth 16 = x.toBitVec.signExtend 16
    rw [BitVec.signExtend_eq_setWidth_of_le _ (by decide)]
  rw [h, Int16.toInt16_toInt32]

/-- Low 16 bits of a size, read back as a signed number and sign extended. -/
theorem size_cast {n : Nat} (h : n < 2 ^ 15) :
    ((Int32.ofNat n).toUInt32.toUInt16.toInt16).toInt32.toUInt32.toNat = n := by
  have h1 : (Int32.ofNat n).toUInt32.toUInt16.toInt16 = Int16.ofNat n := by
    apply Int16.toBitVec.inj
    show (BitVec.ofNat 32 n).setWidth 16 = BitVec.ofNat 16 n
    rw [BitVec.setWidth_ofNat_of_le (by decide)]
  rw [h1]
  have h2 : (Int16.ofNat n).toInt32 = Int32.ofNat n := by
    apply Int32.toInt.inj
    rw [Int16.toInt_toInt32, Int16.toInt_ofNat', Int32.toInt_ofNat']
    show (n : Int).bmod 65536 = (n : Int).bmod 4294967296
    rw [Int.bmod_eq_of_le (by omega) (by omega), Int.bmod_eq_of_le (by omega) (by omega)]
  rw [h2]
  exact toUInt32_ofNat (by omega)

/-- The state of the cost array after some lines. -/
structure CostsOk (F B : Nat) (done : List CostLine) (costs : List Int16) : Prop where
  len : costs.length = 2 + F * B
  head : costs.take 2 = [(Int32.ofNat F).toUInt32.toUInt16.toInt16, (Int32.ofNat B).toUInt32.toUInt16.toInt16]
  get : ∀ f b, f < F → b < B → costs[2 + (b + f * B)]? = some (lastCost done f b)

theorem matrix_fold {F B : Nat} (hsz : F * B < 2 ^ 31) (hB : B < 2 ^ 31) (hF : F < 2 ^ 31) (ls done : List CostLine)
    (hls : ∀ l ∈ ls, l.forward < F ∧ l.backward < B) (costs : List Int16) (h : CostsOk F B done costs) :
    ∃ costs', (ls.map fun l => [Int32.ofNat l.forward, Int32.ofNat l.backward, l.cost.toInt32]).foldlM (init := costs)
        (matrixStep (Int32.ofNat B).toUInt32) = .ok costs' ∧ CostsOk F B (done ++ ls) costs' := by
  induction ls generalizing done costs with
  | nil => exact ⟨costs, rfl, by simpa using h⟩
  | cons l ls ih =>
    obtain ⟨hf, hb⟩ := hls l (by simp)
    have hlt := index_lt hf hb
    have hi : (( Int32.ofNat l.backward).toUInt32 + (Int32.ofNat l.forward).toUInt32 * (Int32.ofNat B).toUInt32).toNat =
        l.backward + l.forward * B := by
      rw [UInt32.toNat_add, UInt32.toNat_mul, toUInt32_ofNat (by omega), toUInt32_ofNat (by omega),
        toUInt32_ofNat (by omega)]
      rw [Nat.mod_eq_of_lt (a := l.forward * B) (by omega), Nat.mod_eq_of_lt (by omega)]
    have hstep : matrixStep (Int32.ofNat B).toUInt32 costs [Int32.ofNat l.forward, Int32.ofNat l.backward, l.cost.toInt32] =
        .ok (costs.set (2 + (l.backward + l.forward * B)) l.cost) := by
      simp only [matrixStep, List.getElem?_cons_zero, List.getElem?_cons_succ, orPanic_some, bind_ok, hi, int16_cast]
      rw [if_pos (by rw [h.len]; omega)]
      rfl
    have hok : CostsOk F B (done ++ [l]) (costs.set (2 + (l.backward + l.forward * B)) l.cost) := by
      refine ⟨by simp [h.len], ?_, ?_⟩
      · rw [List.take_set_of_le (by omega)]; exact h.head
      · intro f b hf' hb'
        rw [lastCost_append, List.getElem?_set]
        by_cases he : l.forward = f ∧ l.backward = b
        · obtain ⟨rfl, rfl⟩ := he
          have : 2 + (l.backward + l.forward * B) < costs.length := by rw [h.len]; omega
          simp [this]
        · rw [if_neg he, if_neg, h.get f b hf' hb']
          intro e
          exact he (index_inj hb hb' (by omega))
    obtain ⟨costs', h1, h2⟩ := ih (done ++ [l]) (fun x hx => hls x (by simp [hx])) _ hok
    refine ⟨costs', ?_, by simpa using h2⟩
    rw [List.map_cons, List.foldlM_cons, hstep]
    exact h1

/-- A size as it is read back from 16 bits. -/
def readSize (B : Nat) : UInt32 := ((Int32.ofNat B).toUInt32.toUInt16.toInt16).toInt32.toUInt32

/-- Compiling and loading a matrix of any size, and any lookup. -/
theorem matrix_any {F B : Nat} (hsz : F * B < 2 ^ 31) (hB : B < 2 ^ 31) (hF : F < 2 ^ 31) (ls : List CostLine)
    (hls : ∀ l ∈ ls, l.forward < F ∧ l.backward < B) :
    ∃ bytes m, matrixBytes (matrixRows F B ls) = .ok bytes ∧ ConnMatrix.load bytes = .ok m ∧
      m.backwardSize = readSize B ∧ m.costsData.length = 2 * (F * B) ∧
      ∀ f b : UInt32, m.cost f b =
        if (b + f * readSize B).toNat < F * B then .ok (lastCost ls ((b + f * readSize B).toNat / B) ((b + f * readSize B).toNat % B)).toInt32 else .error .panic := by
  have hsz' : ((Int32.ofNat F).toUInt32 * (Int32.ofNat B).toUInt32).toNat = F * B := by
    rw [UInt32.toNat_mul, toUInt32_ofNat hF, toUInt32_ofNat (by omega), Nat.mod_eq_of_lt (by omega)]
  obtain ⟨costs, hc, hok⟩ := matrix_fold hsz (by omega) hF ls [] hls
    ((Int32.ofNat F).toUInt32.toUInt16.toInt16 :: (Int32.ofNat B).toUInt32.toUInt16.toInt16 :: List.replicate (F * B) 32767) (by
      refine ⟨by simp; omega, rfl, ?_⟩
      intro f b hf hb
      have := index_lt hf hb
      rw [show 2 + (b + f * B) = (b + f * B) + 1 + 1 by omega, List.getElem?_cons_succ, List.getElem?_cons_succ,
        List.getElem?_replicate, if_pos this]
      rfl)
  have hbytes : matrixBytes (matrixRows F B ls) = .ok (costs.flatMap leI16) := by
    simp only [matrixRows, matrixBytes, List.getElem?_cons_zero, List.getElem?_cons_succ, orPanic_some, bind_ok, hsz',
      Nat.add_sub_cancel_left, hc]
    rfl
  obtain ⟨c0, c1, cs, rfl⟩ : ∃ c0 c1 cs, costs = c0 :: c1 :: cs := by
    match costs, hok.len with
    | c0 :: c1 :: cs, _ => exact ⟨c0, c1, cs, rfl⟩
    | [], h => simp at h; omega
    | [_], h => simp at h; omega
  have hhead := hok.head
  simp only [List.take_succ_cons, List.take_zero, List.cons.injEq, and_true] at hhead
  obtain ⟨rfl, rfl⟩ := hhead
  have hlen : cs.length = F * B := by
    have := hok.len
    simp at this
    omega
  have hload : ConnMatrix.load (((Int32.ofNat F).toUInt32.toUInt16.toInt16 :: (Int32.ofNat B).toUInt32.toUInt16.toInt16 :: cs).flatMap leI16) =
      .ok ⟨cs.flatMap leI16, ((Int32.ofNat B).toUInt32.toUInt16.toInt16).toInt32.toUInt32⟩ := by
    unfold ConnMatrix.load
    generalize (Int32.ofNat F).toUInt32.toUInt16.toInt16 = x
    generalize (Int32.ofNat B).toUInt32.toUInt16.toInt16 = y
    have s1 : byteSlice ((x :: y :: cs).flatMap leI16) 2 4 = some (leI16 y) := by
      simp [byteSlice, leI16, leU16]
    have s2 : byteDrop ((x :: y :: cs).flatMap leI16) 4 = some (cs.flatMap leI16) := by
      simp [byteDrop, leI16, leU16]
    have := readI16_leI16 y []
    rw [List.append_nil] at this
    rw [s1, orPanic_some, bind_ok, this, orPanic_some, bind_ok, s2, orPanic_some, bind_ok]
    rfl
  refine ⟨_, _, hbytes, hload, rfl, by rw [flatMap_leI16_length, hlen], ?_⟩
  intro f b
  unfold ConnMatrix.cost
  simp only [show ((Int32.ofNat B).toUInt32.toUInt16.toInt16).toInt32.toUInt32 = readSize B from rfl]
  generalize (b + f * readSize B).toNat = i
  split
  · rename_i hi
    have hB0 : 0 < B := by
      rcases Nat.eq_zero_or_pos B with rfl | h
      · simp at hi
      · exact h
    have hget := hok.get (i / B) (i % B) (Nat.div_lt_of_lt_mul (by rwa [Nat.mul_comm] at hi)) (Nat.mod_lt _ hB0)
    rw [show 2 + (i % B + i / B * B) = i + 1 + 1 by have := Nat.mod_add_div i B; rw [Nat.mul_comm] at this; omega, List.getElem?_cons_succ, List.getElem?_cons_succ] at hget
    have hd : byteDrop (cs.flatMap leI16) (i * 2) = some ((cs.drop i).flatMap leI16) := by
      unfold byteDrop
      rw [if_pos (by rw [flatMap_leI16_length]; omega), Nat.mul_comm, flatMap_leI16_drop]
    obtain ⟨hi', he⟩ := List.getElem?_eq_some_iff.mp hget
    rw [hd, orPanic_some, bind_ok, List.drop_eq_getElem_cons hi', he, List.flatMap_cons, readI16_leI16, orPanic_some, bind_ok]
    rfl
  · rename_i hi
    by_cases hle : i * 2 ≤ (cs.flatMap leI16).length
    · have hd : byteDrop (cs.flatMap leI16) (i * 2) = some ((cs.drop i).flatMap leI16) := by
        unfold byteDrop
        rw [if_pos hle, Nat.mul_comm, flatMap_leI16_drop]
      rw [hd, orPanic_some, bind_ok, List.drop_eq_nil_of_le (by omega)]
      rfl
    · have hd : byteDrop (cs.flatMap leI16) (i * 2) = none := by
        unfold byteDrop
        rw [if_neg hle]
      rw [hd]
      rfl

theorem readSize_small {B : Nat} (h : B < 2 ^ 15) : (readSize B).toNat = B := size_cast h

/-- Compiling and loading a well-formed matrix. -/
theorem matrix_spec {F B : Nat} (hsz : F * B < 2 ^ 31) (hB : B < 2 ^ 15) (hF : F < 2 ^ 31) (ls : List CostLine)
    (hls : ∀ l ∈ ls, l.forward < F ∧ l.backward < B) :
    ∃ bytes m, matrixBytes (matrixRows F B ls) = .ok bytes ∧ ConnMatrix.load bytes = .ok m ∧
      m.backwardSize.toNat = B ∧ m.costsData.length = 2 * (F * B) ∧
      ∀ f b, f < F → b < B → m.cost (UInt32.ofNat f) (UInt32.ofNat b) = .ok (lastCost ls f b).toInt32 := by
  obtain ⟨bytes, m, h1, h2, h3, h4, h5⟩ := matrix_any hsz (by omega) hF ls hls
  refine ⟨bytes, m, h1, h2, by rw [h3, readSize_small hB], h4, fun f b hf hb => ?_⟩
  have hlt := index_lt hf hb
  have hfB : f * B ≤ F * B := Nat.mul_le_mul_right B (by omega)
  have hi : (UInt32.ofNat b + UInt32.ofNat f * readSize B).toNat = b + f * B := by
    rw [UInt32.toNat_add, UInt32.toNat_mul, readSize_small hB]
    simp only [UInt32.toNat_ofNat']
    rw [Nat.mod_eq_of_lt (a := b) (by omega), Nat.mod_eq_of_lt (a := f) (by omega),
      Nat.mod_eq_of_lt (a := f * B) (by omega), Nat.mod_eq_of_lt (by omega)]
  rw [h5, hi, if_pos hlt, Nat.add_mul_div_right _ _ (by omega), Nat.div_eq_of_lt hb, Nat.add_mul_mod_self_right, Nat.mod_eq_of_lt hb, Nat.zero_add]

/-- The size as it is read back: a signed number of 16 bits. -/
theorem readSize_eq (B : Nat) : (readSize B).toNat = if B % 2 ^ 16 < 2 ^ 15 then B % 2 ^ 16 else 2 ^ 32 - 2 ^ 16 + B % 2 ^ 16 := by
  have h1 : (Int32.ofNat B).toUInt32.toUInt16.toInt16 = Int16.ofNat B := by
    apply Int16.toBitVec.inj
    show (BitVec.ofNat 32 B).setWidth 16 = BitVec.ofNat 16 B
    rw [BitVec.setWidth_ofNat_of_le (by decide)]
  have h2 : (Int16.ofNat B).toInt32 = Int32.ofInt ((B : Int).bmod 65536) := by
    apply Int32.toInt.inj
    rw [Int16.toInt_toInt32, Int16.toInt_ofNat', Int32.toInt_ofInt]
    show (B : Int).bmod 65536 = ((B : Int).bmod 65536).bmod 4294967296
    have := Int.bmod_lt (x := (B : Int)) (m := 65536) (by omega)
    have := Int.le_bmod (x := (B : Int)) (m := 65536) (by omega)
    rw [Int.bmod_eq_of_le (n := (B : Int).bmod 65536) (by omega) (by omega)]
  unfold readSize
  rw [h1, h2]
  have h3 : ∀ z : Int, (Int32.ofInt z).toUInt32.toNat = (z % 2 ^ 32).toNat := by
    intro z
    show (BitVec.ofInt 32 z).toNat = _
    rw [BitVec.toNat_ofInt]
    rfl
  rw [h3, Int.bmod_def]
  split <;> split <;> omega

/-- With the size as it is read back, a lookup is at the right place for the first row only, if the size does not fit. -/
theorem readSize_place {F B f b : Nat} (hsz : F * B < 2 ^ 31) (hf : f < F) (hb : b < B) :
    (UInt32.ofNat b + UInt32.ofNat f * readSize B).toNat = b + f * B ↔ f = 0 ∨ B < 2 ^ 15 := by
  have hlt := index_lt hf hb
  have hFB : F ≤ F * B := Nat.le_mul_of_pos_right F (by omega)
  have hBF : B ≤ F * B := Nat.le_mul_of_pos_left B (by omega)
  have hfB : f * B ≤ F * B := Nat.mul_le_mul_right B (by omega)
  rw [UInt32.toNat_add, UInt32.toNat_mul]
  simp only [UInt32.toNat_ofNat']
  rw [Nat.mod_eq_of_lt (a := b) (by omega), Nat.mod_eq_of_lt (a := f) (by omega), Nat.add_mod_mod, readSize_eq]
  constructor
  · intro h
    by_contra hc
    simp only [not_or, Nat.not_lt] at hc
    obtain ⟨hf0, hB⟩ := hc
    obtain ⟨q, r, hq, hr⟩ : ∃ q r, B = 65536 * q + r ∧ r < 65536 := ⟨B / 65536, B % 65536, by omega, by omega⟩
    have hm : B % 2 ^ 16 = r := by omega
    rw [hm] at h
    have hfq : f * B = 65536 * (f * q) + f * r := by rw [hq]; ring
    split at h
    · rename_i hr15
      have hq1 : 1 ≤ q := by omega
      have h1 : 1 ≤ f * q := Nat.mul_pos (by omega) hq1
      rw [Nat.mod_eq_of_lt (by omega)] at h
      omega
    · rename_i hr15
      have h1 : f * (2 ^ 32 - 2 ^ 16 + r) = f * (2 ^ 32 - 2 ^ 16) + f * r := by ring
      have h2 : f * r < 65536 * f := by
        rw [Nat.mul_comm 65536 f]
        exact Nat.mul_lt_mul_of_pos_left hr (by omega)
      have h3 : 32768 * f ≤ f * r := by
        rw [Nat.mul_comm 32768 f]
        exact Nat.mul_le_mul_left f (by omega)
      omega
  · rintro (rfl | hB)
    · simp; omega
    · rw [if_pos (by omega), Nat.mod_eq_of_lt (a := B) (by omega), Nat.mod_eq_of_lt (by omega)]

end Verif.Model
