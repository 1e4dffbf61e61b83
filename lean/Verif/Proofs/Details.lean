import Verif.Spec.Builder
import Verif.Proofs.EntryMap
/-! The stored detail columns and their retrieval. -/
namespace Verif.Model
open Verif.Spec

theorem zero_mem_utf8EncodeChar {c : Char} (h : (0 : UInt8) ∈ String.utf8EncodeChar c) : c = '\x00' := by
  obtain ⟨i, hi, h0⟩ := List.mem_iff_getElem.mp h
  have hf : ((String.utf8EncodeChar c)[i]).IsUTF8FirstByte := by rw [h0]; decide
  rw [UInt8.isUTF8FirstByte_getElem_utf8EncodeChar] at hf
  subst hf
  have hp : utf8 ['\x00'] <+: utf8 [c] := by
    cases he : String.utf8EncodeChar c with
    | nil => exact absurd he String.utf8EncodeChar_ne_nil
    | cons b bs =>
      simp only [he, List.getElem_cons_zero] at h0
      subst h0
      exact ⟨bs, by simp [utf8, he]; rfl⟩
  have := prefix_of_utf8_prefix hp
  rw [List.cons_prefix_cons] at this
  exact this.1.symm

theorem zero_mem_utf8 {s : Str} : (0 : UInt8) ∈ utf8 s ↔ '\x00' ∈ s := by
  simp only [utf8, List.mem_flatMap]
  constructor
  · rintro ⟨c, hc, h⟩
    rw [← zero_mem_utf8EncodeChar h]; exact hc
  · intro h
    exact ⟨_, h, by decide⟩

theorem splitAll_none {α : Type} {p : α → Bool} {xs : List α} (h : ∀ x ∈ xs, p x = false) :
    splitAll p xs = [xs] := by
  induction xs with
  | nil => rfl
  | cons x xs ih =>
    simp only [List.mem_cons, forall_eq_or_imp] at h
    simp [splitAll, h.1, ih h.2]

theorem splitAll_cons {α : Type} {p : α → Bool} {xs ys : List α} {x : α} (h : ∀ x ∈ xs, p x = false)
    (hx : p x = true) : splitAll p (xs ++ x :: ys) = xs :: splitAll p ys := by
  induction xs with
  | nil => simp [splitAll, hx]
  | cons y xs ih =>
    simp only [List.mem_cons, forall_eq_or_imp] at h
    simp [splitAll, h.1, ih h.2]

theorem decodeUtf8_utf8 (s : Str) : decodeUtf8 (utf8 s) = some s := by
  unfold decodeUtf8
  rw [utf8_toByteArray, List.utf8Decode?_utf8Encode]
  simp

theorem utf8_joinNul_split {ds : List Str} (hne : ds ≠ []) (h : ∀ d ∈ ds, '\x00' ∉ d) :
    splitAll (· == 0) (utf8 (joinNul ds)) = ds.map utf8 := by
  have hno : ∀ {d : Str}, '\x00' ∉ d → ∀ x ∈ utf8 d, (x == (0 : UInt8)) = false := by
    intro d hd x hx
    rw [beq_eq_false_iff_ne]
    rintro rfl
    exact hd (zero_mem_utf8.mp hx)
  induction ds with
  | nil => exact absurd rfl hne
  | cons d ds ih =>
    cases ds with
    | nil =>
      simp only [joinNul, List.map_cons, List.map_nil]
      exact splitAll_none (hno (h d (by simp)))
    | cons d' ds =>
      have : utf8 (joinNul (d :: d' :: ds)) = utf8 d ++ 0 :: utf8 (joinNul (d' :: ds)) := by
        have h0 : utf8 ('\x00' :: joinNul (d' :: ds)) = 0 :: utf8 (joinNul (d' :: ds)) := by
          show String.utf8EncodeChar '\x00' ++ _ = _
          rfl
        rw [joinNul, utf8_append, h0]
      rw [this, splitAll_cons (hno (h d (by simp))) rfl, ih (by simp) (fun x hx => h x (by simp [hx]))]
      rfl

theorem mapM_decodeUtf8 (ds : List Str) : (ds.map utf8).mapM decodeUtf8 = some ds := by
  induction ds with
  | nil => rfl
  | cons d ds ih => simp [List.mapM_cons, decodeUtf8_utf8, ih]

theorem decodeDetails_join {ds : List Str} (h : ∀ d ∈ ds, '\x00' ∉ d) :
    decodeDetails (utf8 (joinNul ds)) = some (shown ds) := by
  unfold decodeDetails shown
  by_cases hne : ds = []
  · subst hne
    have : decodeUtf8 [] = some [] := decodeUtf8_utf8 []
    simp [joinNul, splitAll, this]
  · rw [utf8_joinNul_split hne h, mapM_decodeUtf8, if_neg hne]

/-- The stored details of a row are where its index entry points. -/
theorem pushDetails_lookup {cfg : DictCfg} {rows : List Row} {st st' : List UInt8 × List UInt8}
    (h : rows.foldlM cfg.pushDetails st = .ok st') :
    ∃ W X, st'.1 = st.1 ++ W ∧ st'.2 = st.2 ++ X ∧ X.length = 4 * rows.length ∧
      W.length = (rows.map fun r => 4 + blen (cfg.joinedDetails r)).sum ∧
      ∀ i (hi : i < rows.length), ∃ (A B xs ys : List UInt8),
        X = xs ++ leU32 (UInt32.ofNat (st.1.length + A.length)) ++ ys ∧ xs.length = 4 * i ∧
        W = A ++ (leU32 (UInt32.ofNat (blen (cfg.joinedDetails rows[i]))) ++ utf8 (cfg.joinedDetails rows[i])) ++ B ∧
        blen (cfg.joinedDetails rows[i]) < 2 ^ 32 := by
  induction rows generalizing st with
  | nil =>
    simp at h
    subst h
    exact ⟨[], [], by simp, by simp, by simp, by simp, by simp⟩
  | cons r rows ih =>
    rw [List.foldlM_cons, bind_eq_ok] at h
    obtain ⟨st1, h1, h2⟩ := h
    obtain ⟨W, X, hW, hX, hXl, hWl, hi⟩ := ih h2
    unfold DictCfg.pushDetails at h1
    simp only [length_utf8] at h1
    split at h1
    · rename_i hlt
      simp only [Except.ok.injEq] at h1
      subst h1
      refine ⟨leU32 (UInt32.ofNat (blen (cfg.joinedDetails r))) ++ utf8 (cfg.joinedDetails r) ++ W,
        leU32 (UInt32.ofNat st.1.length) ++ X, by simp [hW], by simp [hX], by simp [hXl]; omega, by simp [hWl]; omega, ?_⟩
      intro i hlt'
      cases i with
      | zero => exact ⟨[], W, [], X, by simp, by simp, by simp, by simpa using hlt⟩
      | succ i =>
        obtain ⟨A, B, xs, ys, e1, e2, e3, e4⟩ := hi i (by simpa using hlt')
        refine ⟨leU32 (UInt32.ofNat (blen (cfg.joinedDetails r))) ++ utf8 (cfg.joinedDetails r) ++ A, B,
          leU32 (UInt32.ofNat st.1.length) ++ xs, ys, ?_, by simp [e2]; omega, ?_, by simpa using e4⟩
        · rw [e1]
          simp only [List.length_append, length_leU32, length_utf8, List.append_assoc, Nat.add_assoc]
        · rw [e3]
          simp [List.append_assoc]
    · simp at h1

theorem pushDetails_total {cfg : DictCfg} {rows : List Row} (h : ∀ r ∈ rows, blen (cfg.joinedDetails r) < 2 ^ 32)
    (st : List UInt8 × List UInt8) : ∃ st', rows.foldlM cfg.pushDetails st = .ok st' := by
  induction rows generalizing st with
  | nil => exact ⟨st, rfl⟩
  | cons r rows ih =>
    rw [List.foldlM_cons]
    have h1 := h r (by simp)
    have : ∃ st1, cfg.pushDetails st r = .ok st1 := by
      unfold DictCfg.pushDetails
      simp only [length_utf8]
      rw [if_pos h1]
      exact ⟨_, rfl⟩
    obtain ⟨st1, e⟩ := this
    rw [e, bind_ok]
    exact ih (fun r hr => h r (by simp [hr])) st1

theorem readU32_leU32' (x : UInt32) : readU32 (leU32 x) = some x := by
  have := readU32_leU32 x []
  rwa [List.append_nil] at this

/-- Retrieval of a record that is where the index says. -/
theorem wordDetails_at {A B xs ys bytes : List UInt8} {i : Nat} (hx : xs.length = 4 * i)
    (hA : A.length < 2 ^ 32) (hb : bytes.length < 2 ^ 32) :
    wordDetails (xs ++ leU32 (UInt32.ofNat A.length) ++ ys)
      (A ++ (leU32 (UInt32.ofNat bytes.length) ++ bytes) ++ B) i = .ok (decodeDetails bytes) := by
  unfold wordDetails
  have hl : (UInt32.ofNat bytes.length).toNat = bytes.length := by simp; omega
  have hlA : (UInt32.ofNat A.length).toNat = A.length := by simp; omega
  rw [if_neg (by simp; omega)]
  have s1 : byteSlice (xs ++ leU32 (UInt32.ofNat A.length) ++ ys) (4 * i) (4 * i + 4) =
      some (leU32 (UInt32.ofNat A.length)) := by
    unfold byteSlice
    rw [if_pos ⟨by omega, by simp; omega⟩, ← hx, List.append_assoc, List.drop_left,
      show xs.length + 4 - xs.length = (leU32 (UInt32.ofNat A.length)).length by simp, List.take_left]
  have s2 : byteDrop (A ++ (leU32 (UInt32.ofNat bytes.length) ++ bytes) ++ B) A.length =
      some (leU32 (UInt32.ofNat bytes.length) ++ (bytes ++ B)) := by
    unfold byteDrop
    rw [if_pos (by simp), List.append_assoc, List.drop_left, List.append_assoc]
  have s3 : byteSlice (A ++ (leU32 (UInt32.ofNat bytes.length) ++ bytes) ++ B) (A.length + 4)
      (A.length + 4 + bytes.length) = some bytes := by
    unfold byteSlice
    rw [if_pos ⟨by omega, by simp; omega⟩]
    have : A ++ (leU32 (UInt32.ofNat bytes.length) ++ bytes) ++ B =
        (A ++ leU32 (UInt32.ofNat bytes.length)) ++ (bytes ++ B) := by simp
    rw [this, show A.length + 4 = (A ++ leU32 (UInt32.ofNat bytes.length)).length by simp, List.drop_left,
      Nat.add_sub_cancel_left, List.take_left]
  rw [s1, orPanic_some, bind_ok, readU32_leU32', orPanic_some, bind_ok, hlA, s2, orPanic_some, bind_ok,
    readU32_leU32, orPanic_some, bind_ok, hl, s3, orPanic_some, bind_ok]
  rfl

end Verif.Model
