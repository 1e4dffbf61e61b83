import Verif.Proofs.Matrix
import Verif.Props.Sample
/-! Properties of the connection matrix compiler: C20. -/
namespace Verif.Props
open Verif.Model Verif.Spec

/-- C20: if the file is a header with two sizes and cost lines for ids within these sizes, then compiling and loading succeeds and the
cost of each pair is the value of the last line for it, or `i16::MAX`. The backward size must be below 2^15. -/
theorem c20_matrix (text : Str) (forwardSize backwardSize : Nat) (costLines : List CostLine)
    (htext : MatrixText text forwardSize backwardSize costLines)
    (hids : ∀ l ∈ costLines, l.forward < forwardSize ∧ l.backward < backwardSize)
    (hF : forwardSize < 2 ^ 31) (hB : backwardSize < 2 ^ 15) (hsize : forwardSize * backwardSize < 2 ^ 31) :
    ∃ bytes m, buildMatrix text = .ok bytes ∧ ConnMatrix.load bytes = .ok m ∧
      ∀ f b, f < forwardSize → b < backwardSize →
        m.cost (UInt32.ofNat f) (UInt32.ofNat b) = .ok (lastCost costLines f b).toInt32 := by
  obtain ⟨bytes, m, h1, h2, -, -, h3⟩ := matrix_spec hsize hB hF costLines hids
  refine ⟨bytes, m, ?_, h2, h3⟩
  unfold buildMatrix
  rw [parseMatrix_of hF (by omega) (fun l hl => by have := hids l hl; omega) htext, bind_ok, h1]

/-- `lastCost` is the value on the last line for the pair. -/
theorem lastCost_last (before after : List CostLine) (l : CostLine)
    (h : ∀ x ∈ after, ¬ (x.forward = l.forward ∧ x.backward = l.backward)) :
    lastCost (before ++ l :: after) l.forward l.backward = l.cost := by
  induction before with
  | nil =>
    rw [List.nil_append, lastCost, if_neg, if_pos ⟨rfl, rfl⟩]
    simp only [List.any_eq_true, decide_eq_true_eq, not_exists, not_and]
    intro x hx h1 h2
    exact h x hx ⟨h1, h2⟩
  | cons b before ih =>
    rw [List.cons_append, lastCost, if_pos, ih]
    simp

theorem lastCost_none (ls : List CostLine) (f b : Nat) (h : ∀ x ∈ ls, ¬ (x.forward = f ∧ x.backward = b)) :
    lastCost ls f b = 32767 := by
  cases ls with
  | nil => rfl
  | cons l ls =>
    rw [lastCost, if_neg, if_neg (h l (by simp))]
    simp only [List.any_eq_true, decide_eq_true_eq, not_exists, not_and]
    intro x hx h1 h2
    exact h x (by simp [hx]) ⟨h1, h2⟩

/-- Non-vacuity: `"2 3\n0 1 -5\r\n1 2 700\n0 1 9"` with a repeated pair. -/
def matrixText : Str := ['2', ' ', '3', '\n', '0', ' ', '1', '\t', '-', '5', '\r', '\n', '1', ' ', '2', ' ', '7', '0', '0', '\n', '0', ' ', '1', ' ', '9']
example : MatrixText matrixText 2 3 [⟨0, 1, -5⟩, ⟨1, 2, 700⟩, ⟨0, 1, 9⟩] :=
  ⟨_, _, lines_iff.mp rfl, numberLine_iff (vs := [2, 3]).mp (by decide +kernel),
    .cons (numberLine_iff (vs := [0, 1, -5]).mp (by decide +kernel)) (.cons (numberLine_iff (vs := [1, 2, 700]).mp (by decide +kernel))
      (.cons (numberLine_iff (vs := [0, 1, 9]).mp (by decide +kernel)) .nil))⟩
example : (do
    let bytes ← buildMatrix matrixText
    let m ← ConnMatrix.load bytes
    let a ← m.cost 0 1
    let b ← m.cost 1 2
    let c ← m.cost 1 1
    return [a, b, c]) = (.ok [9, 700, 32767] : R _) := by decide +kernel

private theorem large_bytes : matrixBytes (matrixRows 2 32768 []) =
    .ok (((2 : Int16) :: (-32768 : Int16) :: List.replicate 65536 32767).flatMap leI16) := by
  have hlen : ((Int32.ofNat 2).toUInt32 * (Int32.ofNat 32768).toUInt32).toNat = 65536 := by decide
  have h2 : (Int32.ofNat 2).toUInt32.toUInt16.toInt16 = 2 := by decide
  have h32768 : (Int32.ofNat 32768).toUInt32.toUInt16.toInt16 = -32768 := by decide
  simp only [matrixRows, matrixBytes, List.getElem?_cons_zero, List.getElem?_cons_succ, orPanic_some, bind_ok, hlen,
    List.map_nil, List.foldlM_nil, Nat.add_sub_cancel_left, h2, h32768]
  generalize (List.replicate 65536 32767 : List Int16) = rep
  rfl

private theorem large_load (rep : List Int16) : ConnMatrix.load (((2 : Int16) :: (-32768 : Int16) :: rep).flatMap leI16) =
    .ok ⟨rep.flatMap leI16, (-32768 : Int16).toInt32.toUInt32⟩ := by
  have s1 : byteSlice (((2 : Int16) :: (-32768 : Int16) :: rep).flatMap leI16) 2 4 = some (leI16 (-32768)) := by
    simp [byteSlice, leI16, leU16]
  have s2 : byteDrop (((2 : Int16) :: (-32768 : Int16) :: rep).flatMap leI16) 4 = some (rep.flatMap leI16) := by
    simp [byteDrop, leI16, leU16]
  unfold ConnMatrix.load
  have := readI16_leI16 (-32768) []
  rw [List.append_nil] at this
  rw [s1, orPanic_some, bind_ok, this, orPanic_some, bind_ok, s2, orPanic_some, bind_ok]
  rfl

private theorem large_cost (data : List UInt8) (h : data.length < 4294934528) :
    (ConnMatrix.mk data (-32768 : Int16).toInt32.toUInt32).cost 1 0 = .error .panic := by
  unfold ConnMatrix.cost
  have hi : ((0 : UInt32) + 1 * (-32768 : Int16).toInt32.toUInt32).toNat = 4294934528 := by decide
  simp only [hi, byteDrop]
  rw [if_neg (by omega)]
  rfl

/-- C20 fails for backward sizes from 2^15: the size is stored in 16 bits and read back as a signed number, so that a lookup inside the declared
sizes panics. -/
theorem c20_large_backward_fails : ∃ bytes m, matrixBytes (matrixRows 2 32768 []) = .ok bytes ∧ ConnMatrix.load bytes = .ok m ∧
    m.cost 1 0 = .error .panic := by
  refine ⟨_, _, large_bytes, large_load _, large_cost _ ?_⟩
  rw [flatMap_leI16_length, List.length_replicate]
  omega

/-- C20 and C54, exactly, for matrices of every size: compiling and loading succeeds; lookups with forward id 0, and all lookups if the backward size is below 2^15, give the cost of the pair; every other lookup
panics or gives the cost of another pair. -/
theorem c20_any (text : Str) (forwardSize backwardSize : Nat) (costLines : List CostLine)
    (htext : MatrixText text forwardSize backwardSize costLines)
    (hids : ∀ l ∈ costLines, l.forward < forwardSize ∧ l.backward < backwardSize)
    (hF : forwardSize < 2 ^ 31) (hB : backwardSize < 2 ^ 31) (hsize : forwardSize * backwardSize < 2 ^ 31) :
    ∃ bytes m, buildMatrix text = .ok bytes ∧ ConnMatrix.load bytes = .ok m ∧
      ∀ f b, f < forwardSize → b < backwardSize →
        ((f = 0 ∨ backwardSize < 2 ^ 15) → m.cost (UInt32.ofNat f) (UInt32.ofNat b) = .ok (lastCost costLines f b).toInt32) ∧
        (¬ (f = 0 ∨ backwardSize < 2 ^ 15) → m.cost (UInt32.ofNat f) (UInt32.ofNat b) = .error .panic ∨
          ∃ f' b', f' < forwardSize ∧ b' < backwardSize ∧ ¬ (f' = f ∧ b' = b) ∧ m.cost (UInt32.ofNat f) (UInt32.ofNat b) = .ok (lastCost costLines f' b').toInt32) := by
  obtain ⟨bytes, m, h1, h2, -, -, h3⟩ := matrix_any hsize hB hF costLines hids
  refine ⟨bytes, m, ?_, h2, fun f b hf hb => ⟨fun h => ?_, fun h => ?_⟩⟩
  · unfold buildMatrix
    rw [parseMatrix_of hF (by omega) (fun l hl => by have := hids l hl; omega) htext, bind_ok, h1]
  · rw [h3, (readSize_place hsize hf hb).mpr h, if_pos (index_lt hf hb), Nat.add_mul_div_right _ _ (by omega), Nat.div_eq_of_lt hb, Nat.add_mul_mod_self_right,
      Nat.mod_eq_of_lt hb, Nat.zero_add]
  · rw [h3]
    have hne := mt (readSize_place hsize hf hb).mp h
    generalize (UInt32.ofNat b + UInt32.ofNat f * readSize backwardSize).toNat = i at hne
    split
    · rename_i hi
      right
      refine ⟨_, _, Nat.div_lt_of_lt_mul (by rwa [Nat.mul_comm] at hi), Nat.mod_lt _ (by omega), ?_, rfl⟩
      rintro ⟨rfl, rfl⟩
      have := Nat.mod_add_div i backwardSize
      rw [Nat.mul_comm] at this
      omega
    · exact .inl rfl

/-- The conditions of `c20_any` hold for a file with the sizes 2 and 40000 and one cost. -/
example : MatrixText "2 40000\n1 0 5\n".toList 2 40000 [⟨1, 0, 5⟩] :=
  ⟨_, _, lines_iff.mp rfl, numberLine_iff (vs := [2, 40000]).mp (by decide +kernel), .cons (numberLine_iff (vs := [1, 0, 5]).mp (by decide +kernel)) .nil⟩

/-- C20 fails for a file with a blank line: the compiler panics. -/
theorem c20_blank_line_fails : buildMatrix ['1', ' ', '1', '\n', '\n', '0', ' ', '0', ' ', '0'] = .error .panic := by
  decide +kernel

/-- C20: a word that is not an integer of 32 bits is reported, wherever it is. -/
theorem c20_bad_number (text : Str) (ls : List Str) (hls : TextLines text ls) (line : Str) (hl : line ∈ ls) (ws : List Str) (hws : Words IsSpace line ws)
    (tok : Str) (ht : tok ∈ ws) (hbad : ∀ z, Signed tok z → z < -2 ^ 31 ∨ 2 ^ 31 ≤ z) : buildMatrix text = .error (.err .parse) := by
  rw [← lines_iff.mpr hls] at hl
  rw [← splitWhitespace_iff.mpr hws] at ht
  replace hbad : parseI32 tok = none := by
    cases hp : parseI32 tok with
    | none => rfl
    | some v =>
      have h1 := hbad _ (parseI32_iff.mp hp)
      have := v.le_toInt
      have := v.toInt_lt
      omega
  have h1 : parseMatrixLine line = .error (.err .parse) := by
    unfold parseMatrixLine
    have : (splitWhitespace line).mapM parseI32 = none := by
      generalize splitWhitespace line = ts at ht
      induction ts with
      | nil => simp at ht
      | cons t ts ih =>
        rcases List.mem_cons.mp ht with rfl | ht
        · simp [List.mapM_cons, hbad]
        · simp only [List.mapM_cons, ih ht]
          cases parseI32 t <;> rfl
    rw [this]
  have h2 : ∀ ls : List Str, line ∈ ls → ls.mapM parseMatrixLine = .error (.err .parse) := by
    intro ls hm
    induction ls with
    | nil => simp at hm
    | cons l ls ih =>
      rw [List.mapM_cons]
      have h3 : parseMatrixLine l = .error (.err .parse) ∨ ∃ v, parseMatrixLine l = .ok v := by
        unfold parseMatrixLine
        cases (splitWhitespace l).mapM parseI32 with
        | none => left; rfl
        | some v => right; exact ⟨v, rfl⟩
      rcases List.mem_cons.mp hm with rfl | hm
      · rw [h1]; rfl
      · rcases h3 with h3 | ⟨v, h3⟩
        · rw [h3]; rfl
        · rw [h3, bind_ok, ih hm]; rfl
  unfold buildMatrix parseMatrix
  rw [h2 _ hl]
  rfl

example : (∃ ws, Words IsSpace ['0', ' ', 'x'] ws ∧ ['x'] ∈ ws) ∧ ∀ z, Signed ['x'] z → z < -2 ^ 31 ∨ 2 ^ 31 ≤ z := by
  refine ⟨⟨_, splitWhitespace_iff.mp rfl, by decide +kernel⟩, fun z hz => ?_⟩
  rcases hz with hz | _
  rcases hz with hz | _
  have h := (parseNat_iff (by omega)).mpr hz
  simp [parseNat, digitVal] at h

end Verif.Props
