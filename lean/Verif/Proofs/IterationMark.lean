import Verif.Spec.CharFilter
import Verif.Proofs.Basic
import Mathlib.Data.List.Basic
import Mathlib.Tactic.IntervalCases
/-! The iteration mark filter. -/
namespace Verif.Model
open Verif.Spec

/-! ### Voicing -/

theorem char_ofNat_toNat (c : Char) : Char.ofNat c.toNat = c := Char.ofNat_toNat c

/-- A statement about all characters of a code point range, from the statements about the numbers. -/
theorem forall_char_of_range {P : Char → Prop} {lo n : Nat} (hin : ∀ i, i < n → P (Char.ofNat (lo + i)))
    (hout : ∀ c : Char, c.toNat < lo ∨ lo + n ≤ c.toNat → P c) (c : Char) : P c := by
  by_cases h : c.toNat < lo ∨ lo + n ≤ c.toNat
  · exact hout c h
  · have := hin (c.toNat - lo) (by omega)
    rw [show lo + (c.toNat - lo) = c.toNat by omega, char_ofNat_toNat] at this
    exact this

theorem voice_out {table : List (Char × Char)} {lo hi : Nat} (ht : ∀ p ∈ table, lo ≤ p.1.toNat ∧ p.1.toNat < hi) {c : Char}
    (hc : c.toNat < lo ∨ hi ≤ c.toNat) : voice table c = c := by
  unfold voice
  rw [List.find?_eq_none.mpr]; · rfl
  intro p hp h
  simp at h
  subst h
  have := ht p hp
  omega

theorem unvoice_out {table : List (Char × Char)} {lo hi : Nat} (ht : ∀ p ∈ table, lo ≤ p.2.toNat ∧ p.2.toNat < hi) {c : Char}
    (hc : c.toNat < lo ∨ hi ≤ c.toNat) : unvoice table c = c := by
  unfold unvoice
  rw [List.find?_eq_none.mpr]; · rfl
  intro p hp h
  simp at h
  subst h
  have := ht p hp
  omega

theorem hiraganaAddDakuon_eq (c : Char) : hiraganaAddDakuon c = voice voicedHiragana c := by
  refine forall_char_of_range (P := fun c => hiraganaAddDakuon c = voice voicedHiragana c) (lo := 0x304b) (n := 51) (by decide +kernel) ?_ c
  intro c hc
  rw [voice_out (lo := 0x304b) (hi := 0x304b + 51) (by decide) hc]
  unfold hiraganaAddDakuon
  dsimp only
  rw [if_neg (by omega), if_neg (by omega), if_neg (by omega)]

theorem hiraganaRemoveDakuon_eq (c : Char) : hiraganaRemoveDakuon c = unvoice voicedHiragana c := by
  refine forall_char_of_range (P := fun c => hiraganaRemoveDakuon c = unvoice voicedHiragana c) (lo := 0x304b) (n := 51) (by decide +kernel) ?_ c
  intro c hc
  rw [unvoice_out (lo := 0x304b) (hi := 0x304b + 51) (by decide) hc]
  unfold hiraganaRemoveDakuon
  dsimp only
  rw [if_neg (by omega), if_neg (by omega), if_neg (by omega)]

theorem katakanaAddDakuon_eq (c : Char) : katakanaAddDakuon c = voice voicedKatakana c := by
  refine forall_char_of_range (P := fun c => katakanaAddDakuon c = voice voicedKatakana c) (lo := 0x30ab) (n := 51) (by decide +kernel) ?_ c
  intro c hc
  rw [voice_out (lo := 0x30ab) (hi := 0x30ab + 51) (by decide) hc]
  unfold katakanaAddDakuon
  dsimp only
  rw [if_neg (by omega), if_neg (by omega), if_neg (by omega)]

theorem katakanaRemoveDakuon_eq (c : Char) : katakanaRemoveDakuon c = unvoice voicedKatakana c := by
  refine forall_char_of_range (P := fun c => katakanaRemoveDakuon c = unvoice voicedKatakana c) (lo := 0x30ab) (n := 51) (by decide +kernel) ?_ c
  intro c hc
  rw [unvoice_out (lo := 0x30ab) (hi := 0x30ab + 51) (by decide) hc]
  unfold katakanaRemoveDakuon
  dsimp only
  rw [if_neg (by omega), if_neg (by omega), if_neg (by omega)]

theorem utf8Size_voice {table : List (Char × Char)} (ht : ∀ p ∈ table, p.1.utf8Size = p.2.utf8Size) (c : Char) :
    (voice table c).utf8Size = c.utf8Size := by
  unfold voice
  cases h : table.find? (·.1 = c) with
  | none => rfl
  | some p =>
    have h1 := List.find?_some h
    simp at h1
    rw [← h1]
    exact (ht p (List.mem_of_find?_eq_some h)).symm

theorem utf8Size_unvoice {table : List (Char × Char)} (ht : ∀ p ∈ table, p.1.utf8Size = p.2.utf8Size) (c : Char) :
    (unvoice table c).utf8Size = c.utf8Size := by
  unfold unvoice
  cases h : table.find? (·.2 = c) with
  | none => rfl
  | some p =>
    have h1 := List.find?_some h
    simp at h1
    rw [← h1]
    exact (ht p (List.mem_of_find?_eq_some h))

theorem utf8Size_repeated (mark c : Char) : (repeated mark c).utf8Size = c.utf8Size := by
  have h1 : ∀ p ∈ voicedHiragana, p.1.utf8Size = p.2.utf8Size := by decide
  have h2 : ∀ p ∈ voicedKatakana, p.1.utf8Size = p.2.utf8Size := by decide
  unfold repeated
  split
  · exact utf8Size_unvoice h1 c
  split
  · exact utf8Size_voice h1 c
  split
  · exact utf8Size_unvoice h2 c
  split
  · exact utf8Size_voice h2 c
  · rfl

/-! ### The scan -/

theorem collects_iff (f : IterationMark) (c : Char) : f.collects c = true ↔ IsMark f c := by
  obtain ⟨a, b⟩ := f
  unfold IterationMark.collects IsMark
  cases a <;> cases b <;> simp [or_assoc]

theorem replaceMark_eq (f : IterationMark) {text : Str} {d pos : Nat} {mark c : Char} (hm : IsMark f mark) (hc : text[pos - d]? = some c) :
    f.replaceMark text d pos mark = repeated mark c := by
  unfold IterationMark.replaceMark repeated
  rw [hc]
  dsimp only [Option.getD_some]
  rw [hiraganaAddDakuon_eq, hiraganaRemoveDakuon_eq, katakanaAddDakuon_eq, katakanaRemoveDakuon_eq]
  obtain ⟨a, b⟩ := f
  rcases hm with ⟨ha, rfl⟩ | ⟨hb, hm⟩
  · dsimp only at ha; subst ha
    simp
  · dsimp only at hb; subst hb
    simp only [List.mem_cons, List.not_mem_nil, or_false] at hm
    rcases hm with rfl | rfl | rfl | rfl <;> simp

/-- What the filter must put at position `q`. -/
def Expanded (f : IterationMark) (text : Str) (q : Nat) (out : Option Char) : Prop :=
  (∀ c, text[q]? = some c → ¬ IsMark f c → out = some c) ∧
  ∀ s k m c, MarkGroup f text s k → s ≤ q → q < s + k → text[q]? = some m → text[q - min s k]? = some c → out = some (repeated m c)

theorem MarkGroup.unique {f : IterationMark} {text : Str} {s k s' k' q : Nat} (h : MarkGroup f text s k) (h' : MarkGroup f text s' k')
    (h1 : s ≤ q) (h2 : q < s + k) (h1' : s' ≤ q) (h2' : q < s' + k') : s = s' ∧ k = k' := by
  have key : ∀ {s k s' k' : Nat}, MarkGroup f text s k → MarkGroup f text s' k' → s ≤ q → q < s + k → s' ≤ q → q < s' + k' → ¬ s' < s := by
    intro s k s' k' h h' h1 h2 h1' h2' hlt
    obtain ⟨c, hc, hm⟩ := h'.inside (s - 1 - s') (by omega)
    rw [show s' + (s - 1 - s') = s - 1 by omega] at hc
    exact h.before c (by omega) hc hm
  have e : s = s' := by
    have a := key h h' h1 h2 h1' h2'
    have b := key h' h h1' h2' h1 h2
    omega
  subst e
  refine ⟨rfl, ?_⟩
  have key2 : ∀ {k k' : Nat}, MarkGroup f text s k → MarkGroup f text s k' → ¬ k < k' := by
    intro k k' h h' hlt
    obtain ⟨c, hc, hm⟩ := h'.inside k hlt
    exact h.after c hc hm
  have a := key2 h h'
  have b := key2 h' h
  omega

structure MarkInv (f : IterationMark) (text : Str) (i : Nat) (st : Str × List (Nat × Char)) : Prop where
  len : st.1.length + st.2.length = i
  marks : ∀ j, j < st.2.length → ∃ c, st.2[j]? = some (st.1.length + j, c) ∧ text[st.1.length + j]? = some c ∧ IsMark f c
  before : ∀ c, 0 < st.1.length → text[st.1.length - 1]? = some c → ¬ IsMark f c
  out : ∀ q, q < st.1.length → Expanded f text q st.1[q]?

/-- Flushing a maximal group. -/
theorem MarkInv.flush {f : IterationMark} {text : Str} {i : Nat} {st : Str × List (Nat × Char)} (h : MarkInv f text i st)
    (hne : st.2 ≠ []) (hafter : ∀ c, text[i]? = some c → ¬ IsMark f c) :
    (st.1 ++ f.normalize st.2 text).length = i ∧ ∀ q, q < i → Expanded f text q (st.1 ++ f.normalize st.2 text)[q]? := by
  obtain ⟨r, marks⟩ := st
  obtain ⟨hlen, hm, hb, ho⟩ := h
  dsimp only at *
  have hk : 0 < marks.length := List.length_pos_iff.mpr hne
  have hg : MarkGroup f text r.length marks.length :=
    ⟨hk, fun j hj => by obtain ⟨c, _, h2, h3⟩ := hm j hj; exact ⟨c, h2, h3⟩, hb, by rw [hlen]; exact hafter⟩
  have hnl : (f.normalize marks text).length = marks.length := by simp [IterationMark.normalize]
  refine ⟨by rw [List.length_append, hnl, hlen], ?_⟩
  intro q hq
  by_cases hqr : q < r.length
  · rw [List.getElem?_append_left hqr]; exact ho q hqr
  · obtain ⟨c, h1, h2, h3⟩ := hm (q - r.length) (by omega)
    rw [show r.length + (q - r.length) = q by omega] at h2
    refine ⟨fun c' hc' hn => ?_, ?_⟩
    · rw [h2] at hc'; cases hc'; exact absurd h3 hn
    · intro s k m c' hgr hs1 hs2 hm' hc'
      obtain ⟨rfl, rfl⟩ := MarkGroup.unique hgr hg hs1 hs2 (by omega) (by omega)
      rw [h2] at hm'; cases hm'
      rw [List.getElem?_append_right (by omega)]
      unfold IterationMark.normalize
      dsimp only
      rw [List.getElem?_map, h1]
      have hfirst : (marks.head?.map (·.1)).getD 0 = r.length := by
        obtain ⟨c0, h0, _⟩ := hm 0 hk
        rw [List.head?_eq_getElem?, h0]; rfl
      rw [hfirst]
      have hd : (if r.length < marks.length then r.length else marks.length) = min r.length marks.length := by
        split <;> omega
      rw [hd]
      simp only [Option.map_some]
      rw [show r.length + (q - r.length) = q by omega, replaceMark_eq f h3 hc']

theorem MarkInv.step {f : IterationMark} {text : Str} {i : Nat} {st : Str × List (Nat × Char)} (h : MarkInv f text i st) {c : Char}
    (hc : text[i]? = some c) : MarkInv f text (i + 1) (f.step text st (c, i)) := by
  unfold IterationMark.step
  dsimp only
  by_cases hm : IsMark f c
  · rw [if_pos ((collects_iff f c).mpr hm)]
    refine ⟨by have := h.len; simp; omega, ?_, h.before, h.out⟩
    intro j hj
    dsimp only at hj ⊢
    rw [List.length_append, List.length_singleton] at hj
    have hl := h.len
    by_cases hj' : j < st.2.length
    · rw [List.getElem?_append_left hj']; exact h.marks j hj'
    · have : j = st.2.length := by omega
      subst this
      rw [List.getElem?_append_right (Nat.le_refl _), Nat.sub_self, hl]
      exact ⟨c, rfl, hc, hm⟩
  · rw [if_neg (fun h => hm ((collects_iff f c).mp h))]
    have hafter : ∀ c', text[i]? = some c' → ¬ IsMark f c' := by
      intro c' hc'; rw [hc] at hc'; cases hc'; exact hm
    have hnew : ∀ r : Str, r.length = i → (∀ q, q < i → Expanded f text q r[q]?) → MarkInv f text (i + 1) (r ++ [c], []) := by
      intro r hr hq
      refine ⟨by simp [hr], by simp, ?_, ?_⟩
      · intro c' _ hc'
        simp only [List.length_append, List.length_singleton, Nat.add_sub_cancel, hr] at hc'
        exact hafter c' hc'
      · intro q hqlt
        simp only [List.length_append, List.length_singleton, hr] at hqlt
        by_cases hqi : q < i
        · rw [List.getElem?_append_left (by omega)]; exact hq q hqi
        · have : q = i := by omega
          subst this
          dsimp only
          rw [List.getElem?_append_right (by omega), hr, Nat.sub_self]
          refine ⟨fun c' hc' _ => by rw [hc] at hc'; cases hc'; rfl, ?_⟩
          intro s k m c' hgr hs1 hs2 hm' _
          obtain ⟨c1, h1, h2⟩ := hgr.inside (q - s) (by omega)
          rw [show s + (q - s) = q by omega] at h1
          exact absurd h2 (hafter c1 h1)
    by_cases he : st.2.isEmpty
    · rw [if_pos he]
      have he' : st.2 = [] := by simpa using he
      have hl := h.len
      rw [he'] at hl
      simp at hl
      exact hnew st.1 hl (fun q hq => h.out q (by omega))
    · rw [if_neg he]
      obtain ⟨h1, h2⟩ := h.flush (by simpa using he) hafter
      exact hnew _ h1 h2

theorem iterationMark_apply (f : IterationMark) (text : Str) :
    ∃ out, f.apply text = .ok (out, .empty) ∧ out.length = text.length ∧ ∀ q, q < text.length → Expanded f text q out[q]? := by
  have key : ∀ (rest : Str) (i : Nat) (st : Str × List (Nat × Char)), MarkInv f text i st → text.drop i = rest →
      MarkInv f text (i + rest.length) ((rest.zipIdx i).foldl (f.step text) st) := by
    intro rest
    induction rest with
    | nil => intro i st h _; simpa using h
    | cons c rest ih =>
      intro i st h hd
      have hc : text[i]? = some c := by
        have := List.getElem?_drop (xs := text) (i := i) (j := 0)
        rw [hd] at this
        simpa using this.symm
      rw [List.zipIdx_cons, List.foldl_cons]
      have := ih (i + 1) _ (h.step hc) (by rw [← List.tail_drop, hd]; rfl)
      rw [List.length_cons, show i + (rest.length + 1) = i + 1 + rest.length by omega]
      exact this
  have h0 : MarkInv f text 0 ([], []) := ⟨rfl, by simp, by simp, by simp⟩
  have h := key text 0 _ h0 rfl
  rw [Nat.zero_add] at h
  unfold IterationMark.apply
  dsimp only
  generalize text.zipIdx.foldl (f.step text) ([], []) = st at h
  by_cases he : st.2.isEmpty
  · have he' : st.2 = [] := by simpa using he
    have hl := h.len
    rw [he'] at hl
    simp at hl
    refine ⟨st.1, by rw [if_pos he], hl, fun q hq => h.out q (by omega)⟩
  · obtain ⟨h1, h2⟩ := h.flush (by simpa using he) (by simp)
    exact ⟨_, by rw [if_neg he], h1, h2⟩

end Verif.Model
