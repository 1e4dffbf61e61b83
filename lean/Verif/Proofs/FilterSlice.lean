import Verif.Model.FilterSlice
import Verif.Spec.FilterSlice
import Verif.Proofs.JsonText
/-!
The reader of configurations accepts the texts of the grammar.
-/
namespace Verif.Model
open Verif.Spec

/-! ### Skipped strings and numbers -/

theorem skipEscape_sound {s r : Str} (h : skipEscape s = some r) : ∃ t, s = t ++ r ∧ Skipped.StrChar ('\\' :: t) := by
  unfold skipEscape at h
  split at h
  · simp only [Option.map_eq_some_iff] at h
    obtain ⟨⟨n, r'⟩, h1, rfl⟩ := h
    obtain ⟨t, rfl, ht⟩ := jsonHex4_sound h1
    exact ⟨'u' :: t, by simp, .unit ht⟩
  · rename_i c s' _
    split at h
    · rename_i hc
      cases h
      exact ⟨[c], rfl, .short hc⟩
    · cases h
  · cases h

theorem skipString_sound {n : Nat} {s r : Str} (h : skipString n s = some r) : ∃ body, s = body ++ '"' :: r ∧ Skipped.Chars body := by
  induction n generalizing s with
  | zero => simp [skipString] at h
  | succ n ih =>
    cases s with
    | nil => simp [skipString] at h
    | cons c s =>
      unfold skipString at h
      split at h
      · rename_i hc
        cases h
        exact ⟨[], by simp [hc], .nil⟩
      · rename_i hq
        split at h
        · rename_i hb
          simp only [Option.bind_eq_some_iff] at h
          obtain ⟨s1, h1, h2⟩ := h
          obtain ⟨body, rfl, hbody⟩ := ih h2
          obtain ⟨t, rfl, ht⟩ := skipEscape_sound h1
          exact ⟨'\\' :: t ++ body, by simp [hb], .cons ht hbody⟩
        · rename_i hb
          split at h
          · cases h
          · rename_i hctl
            obtain ⟨body, rfl, hbody⟩ := ih h
            exact ⟨[c] ++ body, by simp, .cons (.plain hq hb (by omega)) hbody⟩

theorem skipped_escape {t r : Str} (h : Skipped.StrChar t) : (∃ c, t = [c] ∧ c ≠ '"' ∧ c ≠ '\\' ∧ 0x20 ≤ c.toNat) ∨ (∃ u, t = '\\' :: u ∧ skipEscape (u ++ r) = some r) := by
  cases h with
  | plain h1 h2 h3 => exact Or.inl ⟨_, rfl, h1, h2, h3⟩
  | short h =>
    right
    rename_i e
    refine ⟨[e], rfl, ?_⟩
    simp only [List.mem_cons, List.not_mem_nil, or_false] at h
    rcases h with rfl | rfl | rfl | rfl | rfl | rfl | rfl | rfl <;> simp [skipEscape]
  | unit h =>
    right
    rename_i hx n
    refine ⟨'u' :: hx, rfl, ?_⟩
    simp only [List.cons_append, skipEscape, jsonHex4_complete h, Option.map_some]

theorem skipString_complete {body r : Str} (h : Skipped.Chars body) : ∀ {n : Nat}, body.length < n → skipString n (body ++ '"' :: r) = some r := by
  induction h with
  | nil =>
    intro n hn
    cases n with
    | zero => simp at hn
    | succ n => simp [skipString]
  | cons ht hs ih =>
    rename_i t s
    intro n hn
    cases n with
    | zero => simp at hn
    | succ n =>
      rcases skipped_escape (r := s ++ '"' :: r) ht with ⟨c, rfl, h1, h2, h3⟩ | ⟨u, rfl, hu⟩
      · simp only [List.cons_append, List.nil_append, skipString, if_neg h1, if_neg h2]
        rw [if_neg (by omega), ih (by simp at hn; omega)]
      · simp only [List.cons_append, List.append_assoc, skipString, hu]
        rw [if_neg (by decide), if_pos trivial, Option.bind_some, ih (by simp at hn; omega)]

theorem skipNumber_sound {s rest : Str} (h : skipNumber s = some rest) :
    ∃ ip fp ep, s = ip ++ fp ++ ep ++ rest ∧ JsonText.IntPart ip ∧ JsonText.Frac fp ∧ JsonText.Exp ep := by
  unfold skipNumber at h
  dsimp only at h
  split at h
  · cases h
  · rename_i hds
    simp only [not_or, not_and, not_not] at hds
    obtain ⟨hd, hs⟩ := splitDigits s
    have hip : JsonText.IntPart (s.takeWhile isJsonDigit) := ⟨⟨hds.1, hd⟩, hds.2⟩
    simp only [Option.bind_eq_some_iff, Option.map_eq_some_iff] at h
    obtain ⟨⟨fp, s1⟩, hf, ⟨ep, rest'⟩, he, rfl⟩ := h
    obtain ⟨e1, hfp⟩ := jsonFraction_sound hf
    obtain ⟨e2, hep⟩ := jsonExponent_sound he
    refine ⟨_, fp, ep, ?_, hip, hfp, hep⟩
    rw [List.append_assoc, List.append_assoc, ← e2, ← e1]
    exact hs

theorem skipNumber_complete {ip fp ep rest : Str} (hi : JsonText.IntPart ip) (hf : JsonText.Frac fp) (he : JsonText.Exp ep) (hr : JsonStop rest) :
    skipNumber (ip ++ fp ++ ep ++ rest) = some rest := by
  obtain ⟨hn1, hn2⟩ := exp_noDigit he hr
  have hn3 := frac_noDigit hf hn1
  obtain ⟨t1, t2⟩ := takeDigits hi.1.2 hn3
  unfold skipNumber
  dsimp only
  rw [List.append_assoc, List.append_assoc, t1, t2, if_neg (intPart_not hi), jsonFraction_complete hf hn1 (fun _ => hn2), Option.bind_some]
  dsimp only
  rw [jsonExponent_complete he hr]
  rfl

/-! ### Skipped values -/

theorem closing {s : Str} {c : Char} (h : (skipSpace s).head? = some c) : ∃ w y, s = w ++ c :: y ∧ JsonText.Space w ∧ (skipSpace s).tail = y := by
  obtain ⟨w, hw, hs⟩ := skipSpace_split s
  cases hsk : skipSpace s with
  | nil => simp [hsk] at h
  | cons x y =>
    rw [hsk] at h hs
    simp only [List.head?_cons, Option.some.injEq] at h
    subst h
    exact ⟨w, y, hs, hw, rfl⟩

theorem skip_sound (n : Nat) :
    (∀ s r, skipValue n s = some r → ∃ w t, s = w ++ t ++ r ∧ JsonText.Space w ∧ Skipped.Value t) ∧
    (∀ s r, skipElements n s = some r → ∃ t, s = t ++ ']' :: r ∧ Skipped.Elements t) ∧
    (∀ s r, skipMembers n s = some r → ∃ t, s = t ++ '}' :: r ∧ Skipped.Members t) := by
  induction n with
  | zero => simp [skipValue, skipElements, skipMembers]
  | succ n ih =>
    obtain ⟨ihV, ihE, ihM⟩ := ih
    refine ⟨?_, ?_, ?_⟩
    · intro s r h
      obtain ⟨w, hw, hs⟩ := skipSpace_split s
      suffices hsuff : ∃ t, skipSpace s = t ++ r ∧ Skipped.Value t by
        obtain ⟨t, ht, hv⟩ := hsuff
        exact ⟨w, t, by rw [List.append_assoc, ← ht]; exact hs, hw, hv⟩
      unfold skipValue at h
      split at h
      · rename_i heq; cases h; exact ⟨_, heq, .null⟩
      · rename_i heq; cases h; exact ⟨_, heq, .true⟩
      · rename_i heq; cases h; exact ⟨_, heq, .false⟩
      · rename_i r' heq
        obtain ⟨body, rfl, hb⟩ := skipString_sound h
        exact ⟨'"' :: body ++ ['"'], by simp [heq], .string ⟨body, rfl, hb⟩⟩
      · rename_i r' heq
        split at h
        · rename_i hc
          cases h
          obtain ⟨w', y, rfl, hw', hy⟩ := closing hc
          exact ⟨'[' :: w' ++ [']'], by rw [hy, heq]; simp, .emptyArray hw'⟩
        · obtain ⟨t, rfl, ht⟩ := ihE _ _ h
          exact ⟨'[' :: t ++ [']'], by simp [heq], .array ht⟩
      · rename_i r' heq
        split at h
        · rename_i hc
          cases h
          obtain ⟨w', y, rfl, hw', hy⟩ := closing hc
          exact ⟨'{' :: w' ++ ['}'], by rw [hy, heq]; simp, .emptyObject hw'⟩
        · obtain ⟨t, rfl, ht⟩ := ihM _ _ h
          exact ⟨'{' :: t ++ ['}'], by simp [heq], .object ht⟩
      · rename_i r' heq
        obtain ⟨ip, fp, ep, rfl, hi, hf, he⟩ := skipNumber_sound h
        exact ⟨['-'] ++ (ip ++ fp ++ ep), by simp [heq], .number ⟨['-'], ip, fp, ep, rfl, .inr rfl, hi, hf, he⟩⟩
      · obtain ⟨ip, fp, ep, h1, hi, hf, he⟩ := skipNumber_sound h
        exact ⟨ip ++ fp ++ ep, h1, .number ⟨[], ip, fp, ep, rfl, .inl rfl, hi, hf, he⟩⟩
    · intro s r h
      unfold skipElements at h
      split at h
      · cases h
      · rename_i s1 hj
        obtain ⟨w, t, rfl, hw, ht⟩ := ihV _ _ hj
        obtain ⟨w', hw', hs'⟩ := skipSpace_split s1
        split at h
        · rename_i s2 heq
          obtain ⟨t', rfl, ht'⟩ := ihE _ _ h
          refine ⟨w ++ t ++ w' ++ ',' :: t', ?_, .more hw ht hw' ht'⟩
          rw [hs', heq]; simp
        · rename_i s2 heq
          cases h
          refine ⟨w ++ t ++ w', ?_, .one hw ht hw'⟩
          rw [hs', heq]; simp
        · cases h
    · intro s r h
      unfold skipMembers at h
      obtain ⟨w, hw, hs⟩ := skipSpace_split s
      split at h
      · rename_i r1 heq
        split at h
        · cases h
        · rename_i s1 hk
          obtain ⟨body, rfl, hb⟩ := skipString_sound hk
          have hkey : Skipped.String ('"' :: body ++ ['"']) := ⟨body, rfl, hb⟩
          obtain ⟨w1, hw1, hs1⟩ := skipSpace_split s1
          split at h
          · rename_i s2 heq2
            split at h
            · cases h
            · rename_i s3 hj
              obtain ⟨w2, t, rfl, hw2, ht⟩ := ihV _ _ hj
              obtain ⟨w', hw', hs'⟩ := skipSpace_split s3
              split at h
              · rename_i s4 heq4
                obtain ⟨t', rfl, ht'⟩ := ihM _ _ h
                refine ⟨_, ?_, .more hw hkey hw1 hw2 ht hw' ht'⟩
                rw [hs, heq, hs1, heq2, hs', heq4]; simp
              · rename_i s4 heq4
                cases h
                refine ⟨_, ?_, .one hw hkey hw1 hw2 ht hw'⟩
                rw [hs, heq, hs1, heq2, hs', heq4]; simp
              · cases h
          · cases h
      · cases h

theorem skipped_start {t : Str} (h : Skipped.Value t) : ∃ c u, t = c :: u ∧ ValueStart c := by
  cases h with
  | null => exact ⟨'n', _, rfl, by simp [ValueStart]⟩
  | true => exact ⟨'t', _, rfl, by simp [ValueStart]⟩
  | false => exact ⟨'f', _, rfl, by simp [ValueStart]⟩
  | number h =>
    obtain ⟨sign, ip, fp, ep, rfl, hs, hi, -, -⟩ := h
    cases ip with
    | nil => exact absurd rfl hi.1.1
    | cons c ip =>
      rcases hs with rfl | rfl
      · exact ⟨c, ip ++ fp ++ ep, by simp, by have := hi.1.2 c (by simp); simp [ValueStart, this]⟩
      · exact ⟨'-', c :: ip ++ fp ++ ep, by simp, by simp [ValueStart]⟩
  | string h => obtain ⟨body, rfl, -⟩ := h; exact ⟨'"', _, rfl, by simp [ValueStart]⟩
  | emptyArray h => exact ⟨'[', _, rfl, by simp [ValueStart]⟩
  | array h => exact ⟨'[', _, rfl, by simp [ValueStart]⟩
  | emptyObject h => exact ⟨'{', _, rfl, by simp [ValueStart]⟩
  | object h => exact ⟨'{', _, rfl, by simp [ValueStart]⟩

theorem skip_skipped {w t r : Str} (hw : JsonText.Space w) (h : Skipped.Value t) : skipSpace (w ++ (t ++ r)) = t ++ r := by
  obtain ⟨c, u, rfl, hc⟩ := skipped_start h
  rw [List.cons_append]
  exact skip_cons hw (valueStart_notSpace hc).1

theorem skipElements_start {t : Str} (h : Skipped.Elements t) : ∃ w c u, t = w ++ c :: u ∧ JsonText.Space w ∧ ValueStart c := by
  cases h with
  | one hw ht hw' =>
    rename_i w t w'
    obtain ⟨c, u, rfl, hc⟩ := skipped_start ht
    exact ⟨w, c, u ++ w', by simp, hw, hc⟩
  | more hw ht hw' hs =>
    rename_i w t w' s
    obtain ⟨c, u, rfl, hc⟩ := skipped_start ht
    exact ⟨w, c, u ++ w' ++ ',' :: s, by simp, hw, hc⟩

theorem skipMembers_start {t : Str} (h : Skipped.Members t) : ∃ w u, t = w ++ '"' :: u ∧ JsonText.Space w := by
  cases h with
  | one hw hk hw1 hw2 ht hw' =>
    rename_i w k w1 w2 t w'
    obtain ⟨body, rfl, -⟩ := hk
    exact ⟨w, body ++ ['"'] ++ w1 ++ ':' :: w2 ++ t ++ w', by simp, hw⟩
  | more hw hk hw1 hw2 ht hw' hs =>
    rename_i w k w1 w2 t w' s
    obtain ⟨body, rfl, -⟩ := hk
    exact ⟨w, body ++ ['"'] ++ w1 ++ ':' :: w2 ++ t ++ w' ++ ',' :: s, by simp, hw⟩

theorem skipValue_digit {n : Nat} {s : Str} {c : Char} {u : Str} (hs : skipSpace s = c :: u) (hc : JsonText.Digit c) : skipValue (n + 1) s = skipNumber (c :: u) := by
  have e : ∀ x, isJsonDigit x = false → c ≠ x := fun x hx => digit_ne hc hx
  unfold skipValue
  rw [hs]
  split
  all_goals first
    | rfl
    | (rename_i heq; simp only [List.cons.injEq] at heq; exact absurd heq.1 (e _ (by decide)))

mutual
theorem skipValue_complete {t : Str} (h : Skipped.Value t) {w r : Str} {n : Nat} (hw : JsonText.Space w) (hr : AfterValue r) (hn : t.length + 1 ≤ n) : skipValue n (w ++ (t ++ r)) = some r := by
  obtain ⟨n, rfl⟩ : ∃ m, n = m + 1 := ⟨n - 1, by omega⟩
  have hsk := skip_skipped (r := r) hw h
  match h with
  | .null => unfold skipValue; rw [hsk]; rfl
  | .true => unfold skipValue; rw [hsk]; rfl
  | .false => unfold skipValue; rw [hsk]; rfl
  | .number ⟨sign, ip, fp, ep, htt, hs, hi, hf, he⟩ =>
    subst htt
    have hread := skipNumber_complete hi hf he (afterValue_stop hr)
    obtain ⟨c, u, hcu⟩ : ∃ c u, ip = c :: u := by
      cases ip with
      | nil => exact absurd rfl hi.1.1
      | cons c u => exact ⟨c, u, rfl⟩
    rcases hs with rfl | rfl
    · rw [skipValue_digit (c := c) (u := u ++ fp ++ ep ++ r) (by rw [hsk, hcu]; simp) (hi.1.2 c (by simp [hcu]))]
      rw [hcu] at hread
      simpa using hread
    · unfold skipValue
      rw [hsk]
      simpa using hread
  | .string ⟨body, hbt, hb⟩ =>
    subst hbt
    unfold skipValue
    rw [hsk]
    simp only [List.cons_append, List.append_assoc, List.nil_append]
    rw [skipString_complete hb (by simp; omega)]
  | .emptyArray (w := w') hw' =>
    unfold skipValue
    rw [hsk]
    simp only [List.cons_append, List.append_assoc, List.nil_append]
    rw [skip_cons hw' (by decide)]
    rfl
  | .array (t := t') ht =>
    obtain ⟨w0, c, u, e0, hw0, hc⟩ := skipElements_start ht
    unfold skipValue
    rw [hsk]
    simp only [List.cons_append, List.append_assoc, List.nil_append]
    have hne := valueStart_notSpace hc
    have hs0 : skipSpace (t' ++ ']' :: r) = c :: (u ++ ']' :: r) := by
      rw [e0, List.append_assoc, List.cons_append]
      exact skip_cons hw0 hne.1
    rw [hs0, if_neg (by simpa using hne.2.1), skipElements_complete ht (by simp at hn; omega)]
  | .emptyObject (w := w') hw' =>
    unfold skipValue
    rw [hsk]
    simp only [List.cons_append, List.append_assoc, List.nil_append]
    rw [skip_cons hw' (by decide)]
    rfl
  | .object (t := t') ht =>
    obtain ⟨w0, u, e0, hw0⟩ := skipMembers_start ht
    unfold skipValue
    rw [hsk]
    simp only [List.cons_append, List.append_assoc, List.nil_append]
    have hs0 : skipSpace (t' ++ '}' :: r) = '"' :: (u ++ '}' :: r) := by
      rw [e0, List.append_assoc, List.cons_append]
      exact skip_cons hw0 (by decide)
    rw [hs0, if_neg (by simp), skipMembers_complete ht (by simp at hn; omega)]
theorem skipElements_complete {t : Str} (h : Skipped.Elements t) {r : Str} {n : Nat} (hn : t.length + 2 ≤ n) : skipElements n (t ++ ']' :: r) = some r := by
  obtain ⟨n, rfl⟩ : ∃ m, n = m + 1 := ⟨n - 1, by omega⟩
  match h with
  | .one (w := w) (t := t) (w' := w') hw ht hw' =>
    simp only [List.length_append] at hn
    have := skipValue_complete ht (r := w' ++ ']' :: r) (n := n) hw (afterValue_space hw' (afterValue_cons (by simp))) (by omega)
    unfold skipElements
    simp only [List.append_assoc] at this ⊢
    rw [this]
    try simp only []
    rw [skip_cons hw' (by decide)]
    rfl
  | .more (w := w) (t := t) (w' := w') (s := s) hw ht hw' hs =>
    simp only [List.length_append, List.length_cons] at hn
    have := skipValue_complete ht (r := w' ++ ',' :: (s ++ ']' :: r)) (n := n) hw (afterValue_space hw' (afterValue_cons (by simp))) (by omega)
    have h2 := skipElements_complete hs (r := r) (n := n) (by omega)
    unfold skipElements
    simp only [List.append_assoc, List.cons_append] at this ⊢
    rw [this]
    try simp only []
    rw [skip_cons hw' (by decide)]
    try simp only []
    rw [h2]
theorem skipMembers_complete {t : Str} (h : Skipped.Members t) {r : Str} {n : Nat} (hn : t.length + 2 ≤ n) : skipMembers n (t ++ '}' :: r) = some r := by
  obtain ⟨n, rfl⟩ : ∃ m, n = m + 1 := ⟨n - 1, by omega⟩
  match h with
  | .one (w := w) (w1 := w1) (w2 := w2) (t := t) (w' := w') hw ⟨body, hbt, hb⟩ hw1 hw2 ht hw' =>
    subst hbt
    simp only [List.length_append, List.length_cons] at hn
    have := skipValue_complete ht (r := w' ++ '}' :: r) (n := n) hw2 (afterValue_space hw' (afterValue_cons (by simp))) (by omega)
    unfold skipMembers
    simp only [List.append_assoc, List.cons_append, List.nil_append] at this ⊢
    rw [skip_cons hw (by decide)]
    try simp only []
    rw [skipString_complete hb (by simp; omega)]
    try simp only []
    rw [skip_cons hw1 (by decide)]
    try simp only []
    rw [this]
    try simp only []
    rw [skip_cons hw' (by decide)]
    rfl
  | .more (w := w) (w1 := w1) (w2 := w2) (t := t) (w' := w') (s := s) hw ⟨body, hbt, hb⟩ hw1 hw2 ht hw' hs =>
    subst hbt
    simp only [List.length_append, List.length_cons] at hn
    have := skipValue_complete ht (r := w' ++ ',' :: (s ++ '}' :: r)) (n := n) hw2 (afterValue_space hw' (afterValue_cons (by simp))) (by omega)
    have h2 := skipMembers_complete hs (r := r) (n := n) (by omega)
    unfold skipMembers
    simp only [List.append_assoc, List.cons_append, List.nil_append] at this ⊢
    rw [skip_cons hw (by decide)]
    try simp only []
    rw [skipString_complete hb (by simp; omega)]
    try simp only []
    rw [skip_cons hw1 (by decide)]
    try simp only []
    rw [this]
    try simp only []
    rw [skip_cons hw' (by decide)]
    try simp only []
    rw [h2]
end

/-! ### Configurations -/

theorem configMember_sound {finite : Str → Bool} {names : List Str} {n : Nat} {key s r : Str} {kvs : List (Str × Json)} (h : configMember finite names n key s = some (kvs, r)) :
    ∃ w t, s = w ++ t ++ r ∧ JsonText.Space w ∧ ConfigText.Value (fun t => finite t = true) names key t kvs := by
  unfold configMember at h
  split at h
  · rename_i hk
    simp only [Option.map_eq_some_iff, Prod.mk.injEq] at h
    obtain ⟨⟨j, r'⟩, h1, rfl, rfl⟩ := h
    obtain ⟨w, t, rfl, hw, ht, hd⟩ := (json_sound n).1 _ _ _ _ h1
    exact ⟨w, t, rfl, hw, .inl ⟨hk, j, ht, by omega, rfl⟩⟩
  · rename_i hk
    simp only [Option.map_eq_some_iff, Prod.mk.injEq] at h
    obtain ⟨r', h1, rfl, rfl⟩ := h
    obtain ⟨w, t, rfl, hw, ht⟩ := (skip_sound n).1 _ _ h1
    exact ⟨w, t, rfl, hw, .inr ⟨hk, ht, rfl⟩⟩

theorem configMembers_sound {finite : Str → Bool} {names : List Str} (n : Nat) : ∀ s kvs r, configMembers finite names n s = some (kvs, r) →
    ∃ t, s = t ++ '}' :: r ∧ ConfigText.Members (fun t => finite t = true) names t kvs := by
  induction n with
  | zero => simp [configMembers]
  | succ n ih =>
    intro s kvs r h
    unfold configMembers at h
    obtain ⟨w, hw, hs⟩ := skipSpace_split s
    split at h
    · rename_i r1 heq
      split at h
      · cases h
      · rename_i k s1 hk
        obtain ⟨body, rfl, hb⟩ := jsonString_sound hk
        have hkey : JsonText.String ('"' :: body ++ ['"']) k := ⟨body, rfl, hb⟩
        obtain ⟨w1, hw1, hs1⟩ := skipSpace_split s1
        split at h
        · rename_i s2 heq2
          split at h
          · cases h
          · rename_i kvs0 s3 hj
            obtain ⟨w2, t, rfl, hw2, ht⟩ := configMember_sound hj
            obtain ⟨w', hw', hs'⟩ := skipSpace_split s3
            split at h
            · rename_i s4 heq4
              simp only [Option.map_eq_some_iff, Prod.mk.injEq] at h
              obtain ⟨⟨kvs', r'⟩, h1, rfl, rfl⟩ := h
              obtain ⟨t', rfl, ht'⟩ := ih _ _ _ h1
              refine ⟨_, ?_, .more hw hkey hw1 hw2 ht hw' ht'⟩
              rw [hs, heq, hs1, heq2, hs', heq4]; simp
            · rename_i s4 heq4
              simp only [Option.some.injEq, Prod.mk.injEq] at h
              obtain ⟨rfl, rfl⟩ := h
              refine ⟨_, ?_, .one hw hkey hw1 hw2 ht hw'⟩
              rw [hs, heq, hs1, heq2, hs', heq4]; simp
            · cases h
        · cases h
    · cases h

theorem configMember_complete {finite : Str → Bool} {names : List Str} {key t w r : Str} {kvs : List (Str × Json)} {n : Nat}
    (h : ConfigText.Value (fun t => finite t = true) names key t kvs) (hw : JsonText.Space w) (hr : AfterValue r) (hn : t.length + 1 ≤ n) :
    configMember finite names n key (w ++ (t ++ r)) = some (kvs, r) := by
  unfold configMember
  rcases h with ⟨hk, j, ht, hd, rfl⟩ | ⟨hk, ht, rfl⟩
  · rw [if_pos hk, value_complete ht hw hr hn (by omega)]
    rfl
  · rw [if_neg hk, skipValue_complete ht hw hr hn]
    rfl

theorem configMembers_complete {finite : Str → Bool} {names : List Str} {t : Str} {kvs : List (Str × Json)} (h : ConfigText.Members (fun t => finite t = true) names t kvs) :
    ∀ {r : Str} {n : Nat}, t.length + 2 ≤ n → configMembers finite names n (t ++ '}' :: r) = some (kvs, r) := by
  induction h with
  | one hw hk hw1 hw2 ht hw' =>
    rename_i w k w1 w2 t w' key kvs
    intro r n hn
    obtain ⟨n, rfl⟩ : ∃ m, n = m + 1 := ⟨n - 1, by omega⟩
    obtain ⟨body, rfl, hb⟩ := hk
    simp only [List.length_append, List.length_cons] at hn
    have := configMember_complete ht (r := w' ++ '}' :: r) (n := n) hw2 (afterValue_space hw' (afterValue_cons (by simp))) (by omega)
    unfold configMembers
    simp only [List.append_assoc, List.cons_append, List.nil_append] at this ⊢
    rw [skip_cons hw (by decide)]
    try simp only []
    rw [jsonString_complete hb (by simp; omega)]
    try simp only []
    rw [skip_cons hw1 (by decide)]
    try simp only []
    rw [this]
    try simp only []
    rw [skip_cons hw' (by decide)]
    rfl
  | more hw hk hw1 hw2 ht hw' hs ih =>
    rename_i w k w1 w2 t w' s key kvs rest
    intro r n hn
    obtain ⟨n, rfl⟩ : ∃ m, n = m + 1 := ⟨n - 1, by omega⟩
    obtain ⟨body, rfl, hb⟩ := hk
    simp only [List.length_append, List.length_cons] at hn
    have := configMember_complete ht (r := w' ++ ',' :: (s ++ '}' :: r)) (n := n) hw2 (afterValue_space hw' (afterValue_cons (by simp))) (by omega)
    have h2 := ih (r := r) (n := n) (by omega)
    unfold configMembers
    simp only [List.append_assoc, List.cons_append, List.nil_append] at this ⊢
    rw [skip_cons hw (by decide)]
    try simp only []
    rw [jsonString_complete hb (by simp; omega)]
    try simp only []
    rw [skip_cons hw1 (by decide)]
    try simp only []
    rw [this]
    try simp only []
    rw [skip_cons hw' (by decide)]
    try simp only []
    rw [h2]
    rfl

theorem configMembers_start {finite : Str → Prop} {names : List Str} {t : Str} {kvs : List (Str × Json)} (h : ConfigText.Members finite names t kvs) :
    ∃ w u, t = w ++ '"' :: u ∧ JsonText.Space w := by
  cases h with
  | one hw hk hw1 hw2 ht hw' =>
    rename_i w k w1 w2 t w' key
    obtain ⟨body, rfl, -⟩ := hk
    exact ⟨w, body ++ ['"'] ++ w1 ++ ':' :: w2 ++ t ++ w', by simp, hw⟩
  | more hw hk hw1 hw2 ht hw' hs =>
    rename_i w k w1 w2 t w' s key kvs rest
    obtain ⟨body, rfl, -⟩ := hk
    exact ⟨w, body ++ ['"'] ++ w1 ++ ':' :: w2 ++ t ++ w' ++ ',' :: s, by simp, hw⟩

theorem value_bracket {finite : Str → Prop} {t : Str} {j : Json} (h : JsonText.Value finite t j) {u : Str} (ht : t = '[' :: u) : ∃ xs, j = .arr xs := by
  cases h with
  | null => cases ht
  | true => cases ht
  | false => cases ht
  | number h =>
    obtain ⟨c, v, rfl, hc⟩ := number_start h
    cases ht
    rcases hc with h | h
    · exact absurd h (by decide)
    · exact absurd h (by unfold JsonText.Digit; decide)
  | string h => obtain ⟨body, rfl, -⟩ := h; cases ht
  | emptyArray h => exact ⟨_, rfl⟩
  | array h => exact ⟨_, rfl⟩
  | emptyObject h => cases ht
  | object h => cases ht

theorem value_array {finite : Str → Prop} {t : Str} {xs : List Json} (h : JsonText.Value finite t (.arr xs)) : ∃ u, t = '[' :: u := by
  cases h with
  | number h => cases h
  | emptyArray h => exact ⟨_, rfl⟩
  | array h => exact ⟨_, rfl⟩

theorem configValue_sound {finite : Str → Bool} {names : List Str} {s r : Str} {j : Json} (h : configValue finite names s = some (j, r)) :
    ∃ w t, s = w ++ t ++ r ∧ JsonText.Space w ∧ ConfigText.Body (fun t => finite t = true) names t j := by
  obtain ⟨w, hw, hs⟩ := skipSpace_split s
  suffices hsuff : ∃ t, skipSpace s = t ++ r ∧ ConfigText.Body (fun t => finite t = true) names t j by
    obtain ⟨t, ht, hv⟩ := hsuff
    exact ⟨w, t, by rw [List.append_assoc, ← ht]; exact hs, hw, hv⟩
  unfold configValue at h
  split at h
  · rename_i r' heq
    split at h
    · rename_i hc
      simp only [Option.some.injEq, Prod.mk.injEq] at h
      obtain ⟨rfl, rfl⟩ := h
      obtain ⟨w', y, rfl, hw', hy⟩ := closing hc
      exact ⟨'{' :: w' ++ ['}'], by rw [hy, heq]; simp, .emptyObject hw'⟩
    · simp only [Option.map_eq_some_iff, Prod.mk.injEq] at h
      obtain ⟨⟨kvs, r''⟩, h1, rfl, rfl⟩ := h
      obtain ⟨t, rfl, ht⟩ := configMembers_sound _ _ _ _ h1
      exact ⟨'{' :: t ++ ['}'], by simp [heq], .object ht⟩
  · rename_i r' heq
    obtain ⟨w', t, h1, hw', ht, hd⟩ := (json_sound _).1 _ _ _ _ h
    obtain ⟨c, u, rfl, hc⟩ := value_start ht
    have e1 : w' = [] ∧ c = '[' := by
      cases w' with
      | nil => simp only [List.nil_append, List.cons_append, List.cons.injEq] at h1; exact ⟨rfl, h1.1.symm⟩
      | cons x w' =>
        simp only [List.cons_append, List.cons.injEq] at h1
        have := hw' x (by simp)
        rw [← h1.1] at this
        exact absurd this (by decide)
    obtain ⟨rfl, rfl⟩ := e1
    obtain ⟨xs, rfl⟩ := value_bracket ht rfl
    exact ⟨_, by rw [heq, h1]; simp, .array ht hd⟩
  · cases h

theorem configValue_complete {finite : Str → Bool} {names : List Str} {w t r : Str} {j : Json} (h : ConfigText.Body (fun t => finite t = true) names t j) (hw : JsonText.Space w) (hr : AfterValue r) :
    configValue finite names (w ++ (t ++ r)) = some (j, r) := by
  unfold configValue
  cases h with
  | emptyObject hw' =>
    rename_i w'
    rw [List.cons_append, List.cons_append, skip_cons hw (by decide)]
    simp only [List.append_assoc, List.cons_append, List.nil_append]
    rw [skip_cons hw' (by decide)]
    rfl
  | object ht =>
    rename_i t' kvs
    obtain ⟨w0, u, e0, hw0⟩ := configMembers_start ht
    rw [List.cons_append, List.cons_append, skip_cons hw (by decide)]
    simp only [List.append_assoc, List.cons_append, List.nil_append]
    have hs0 : skipSpace (t' ++ '}' :: r) = '"' :: (u ++ '}' :: r) := by
      rw [e0, List.append_assoc, List.cons_append]
      exact skip_cons hw0 (by decide)
    rw [hs0, if_neg (by simp), configMembers_complete ht (by simp)]
    rfl
  | array ht hd =>
    obtain ⟨u, rfl⟩ := value_array ht
    rw [List.cons_append, skip_cons hw (by decide)]
    have := value_complete ht (w := []) (r := r) (n := (u ++ r).length + 2) (d := 128) space_nil hr (by simp) (by omega)
    simpa using this

/-- Bytes are read as a configuration exactly if they are one in the grammar. -/
theorem parseConfig_iff {finite : Str → Bool} {names : List Str} {data : List UInt8} {j : Json} : parseConfig finite names data = some j ↔ ConfigText.File finite names data j := by
  unfold parseConfig
  rw [Option.bind_eq_some_iff]
  constructor
  · rintro ⟨s, h1, h⟩
    split at h
    · rename_i j' rest hj
      split at h
      · rename_i hsk
        cases h
        obtain ⟨w, t, rfl, hw, ht⟩ := configValue_sound hj
        obtain ⟨w', hw', hs'⟩ := skipSpace_split rest
        rw [hsk, List.append_nil] at hs'
        exact ⟨w, t, rest, decodeUtf8_eq_some.mp h1, hw, ht, hs' ▸ hw'⟩
      · cases h
    · cases h
  · rintro ⟨w, t, w', rfl, hw, ht, hw'⟩
    refine ⟨_, decodeUtf8_utf8 _, ?_⟩
    rw [List.append_assoc, configValue_complete ht hw (afterValue_end hw')]
    try simp only []
    rw [skipSpace_space hw', if_pos rfl]

/-! ### JSON documents are configurations -/

theorem strChar_skipped {t : Str} {c : Char} (h : JsonText.StrChar t c) : Skipped.Chars t := by
  have one : ∀ {t : Str}, Skipped.StrChar t → Skipped.Chars t := fun {t} h => by simpa using Skipped.Chars.cons h .nil
  cases h with
  | plain h1 h2 h3 => exact one (.plain h1 h2 h3)
  | short h =>
    refine one (.short ?_)
    simp only [List.mem_cons, Prod.mk.injEq, List.not_mem_nil, or_false] at h ⊢
    tauto
  | unit h => exact one (.unit h)
  | pair hh hl _ _ _ _ _ => exact .cons (.unit hh) (one (.unit hl))

theorem chars_skip_append {a b : Str} (ha : Skipped.Chars a) (hb : Skipped.Chars b) : Skipped.Chars (a ++ b) := by
  induction ha with
  | nil => exact hb
  | cons ht _ ih => rw [List.append_assoc]; exact .cons ht ih

theorem chars_skipped {t s : Str} (h : JsonText.Chars t s) : Skipped.Chars t := by
  induction h with
  | nil => exact .nil
  | cons ht _ ih => exact chars_skip_append (strChar_skipped ht) ih

theorem string_skipped {t s : Str} (h : JsonText.String t s) : Skipped.String t := by
  obtain ⟨body, rfl, hb⟩ := h
  exact ⟨body, rfl, chars_skipped hb⟩

theorem number_skipped {finite : Str → Prop} {t : Str} {j : Json} (h : JsonText.Number finite t j) : Skipped.Number t := by
  cases h with
  | nat hi _ => exact ⟨[], t, [], [], by simp, .inl rfl, hi, frac_nil, exp_nil⟩
  | neg hi _ _ => exact ⟨['-'], _, [], [], by simp, .inr rfl, hi, frac_nil, exp_nil⟩
  | other hs hi hf he _ _ => exact ⟨_, _, _, _, by simp, hs, hi, hf, he⟩

mutual
theorem value_skipped {finite : Str → Prop} {t : Str} {j : Json} (h : JsonText.Value finite t j) : Skipped.Value t := by
  match h with
  | .null => exact .null
  | .true => exact .true
  | .false => exact .false
  | .number h => exact .number (number_skipped h)
  | .string h => exact .string (string_skipped h)
  | .emptyArray h => exact .emptyArray h
  | .array h => exact .array (elements_skipped h)
  | .emptyObject h => exact .emptyObject h
  | .object h => exact .object (members_skipped h)
theorem elements_skipped {finite : Str → Prop} {t : Str} {xs : List Json} (h : JsonText.Elements finite t xs) : Skipped.Elements t := by
  match h with
  | .one hw ht hw' => exact .one hw (value_skipped ht) hw'
  | .more hw ht hw' hs => exact .more hw (value_skipped ht) hw' (elements_skipped hs)
theorem members_skipped {finite : Str → Prop} {t : Str} {kvs : List (Str × Json)} (h : JsonText.Members finite t kvs) : Skipped.Members t := by
  match h with
  | .one hw hk hw1 hw2 ht hw' => exact .one hw (string_skipped hk) hw1 hw2 (value_skipped ht) hw'
  | .more hw hk hw1 hw2 ht hw' hs => exact .more hw (string_skipped hk) hw1 hw2 (value_skipped ht) hw' (members_skipped hs)
end

/-- The members with one of the names. -/
def onlyFields (names : List Str) (kvs : List (Str × Json)) : List (Str × Json) := kvs.filter fun p => decide (p.1 ∈ names)

theorem value_config {finite : Str → Prop} {names : List Str} {key t : Str} {j : Json} (h : JsonText.Value finite t j) (hd : Json.depth j ≤ 126) :
    ConfigText.Value finite names key t (onlyFields names [(key, j)]) := by
  by_cases hk : key ∈ names
  · exact .inl ⟨hk, j, h, hd, by simp [onlyFields, hk]⟩
  · exact .inr ⟨hk, value_skipped h, by simp [onlyFields, hk]⟩

theorem members_config {finite : Str → Prop} {names : List Str} {kvs : List (Str × Json)} {t : Str} (h : JsonText.Members finite t kvs) (hd : depthPairs kvs ≤ 126) :
    ConfigText.Members finite names t (onlyFields names kvs) := by
  induction kvs generalizing t with
  | nil => cases h
  | cons p kvs ih =>
    cases h with
    | one hw hk hw1 hw2 ht hw' =>
      simp only [depthPairs] at hd
      exact .one hw hk hw1 hw2 (value_config ht (by omega)) hw'
    | more hw hk hw1 hw2 ht hw' hs =>
      simp only [depthPairs] at hd
      have := ConfigText.Members.more hw hk hw1 hw2 (value_config (names := names) ht (by omega)) hw' (ih hs (by omega))
      rwa [onlyFields, onlyFields, ← List.filter_append, List.singleton_append] at this

/-- The part of a document that a struct with the fields `names` depends on. -/
def onlyFieldsOf (names : List Str) : Json → Json
  | .obj kvs => .obj (onlyFields names kvs)
  | j => j

theorem scalar_start {finite : Str → Prop} {t : Str} {j : Json} (h : JsonText.Value finite t j) {c : Char} {u : Str} (ht : t = c :: u) (h1 : ∀ kvs, j ≠ .obj kvs) (h2 : ∀ xs, j ≠ .arr xs) :
    c = 'n' ∨ c = 't' ∨ c = 'f' ∨ c = '"' ∨ c = '-' ∨ JsonText.Digit c := by
  cases h with
  | null => cases ht; tauto
  | true => cases ht; tauto
  | false => cases ht; tauto
  | number h =>
    obtain ⟨c', v, e, hc⟩ := number_start h
    rw [e] at ht
    cases ht
    tauto
  | string h => obtain ⟨body, e, -⟩ := h; rw [e] at ht; cases ht; tauto
  | emptyArray h => exact absurd rfl (h2 _)
  | array h => exact absurd rfl (h2 _)
  | emptyObject h => exact absurd rfl (h1 _)
  | object h => exact absurd rfl (h1 _)

/-- A JSON document is read as a configuration if it is an object or an array. -/
theorem parseConfig_json {finite : Str → Bool} {names : List Str} {data : List UInt8} {j : Json} (h : JsonText.File finite data j) :
    ((∃ kvs, j = .obj kvs) ∨ (∃ xs, j = .arr xs)) ∧ parseConfig finite names data = some (onlyFieldsOf names j) ∨
    ((∀ kvs, j ≠ .obj kvs) ∧ ∀ xs, j ≠ .arr xs) ∧ parseConfig finite names data = none := by
  obtain ⟨s, rfl, ⟨w, t, w', rfl, hw, ht, hw'⟩, hd⟩ := h
  have key : ∀ j', ConfigText.Body (fun t => finite t = true) names t j' → parseConfig finite names (utf8 (w ++ t ++ w')) = some j' :=
    fun j' hb => parseConfig_iff.mpr ⟨w, t, w', rfl, hw, hb, hw'⟩
  cases hj : j with
  | obj kvs =>
    subst hj
    refine .inl ⟨.inl ⟨_, rfl⟩, key _ ?_⟩
    cases ht with
    | number h => cases h
    | emptyObject hw => exact .emptyObject hw
    | object ht => exact .object (members_config ht (by simp only [Json.depth] at hd; omega))
  | arr xs =>
    subst hj
    exact .inl ⟨.inr ⟨_, rfl⟩, key _ (.array ht hd)⟩
  | _ =>
    refine .inr ⟨⟨by simp, by simp⟩, ?_⟩
    rw [Option.eq_none_iff_forall_ne_some]
    intro j' hc
    obtain ⟨v, t', v', he, hv, hb, hv'⟩ := parseConfig_iff.mp hc
    have he := utf8_injective he
    obtain ⟨c, u, rfl, hcs⟩ := value_start ht
    have h1 : skipSpace (w ++ (c :: u) ++ w') = c :: (u ++ w') := by
      rw [List.append_assoc, List.cons_append]; exact skip_cons hw (valueStart_notSpace hcs).1
    obtain ⟨c', u', rfl, hc'⟩ : ∃ c' u', t' = c' :: u' ∧ (c' = '{' ∨ c' = '[') := by
      cases hb with
      | emptyObject => exact ⟨_, _, rfl, .inl rfl⟩
      | object => exact ⟨_, _, rfl, .inl rfl⟩
      | array ht hd => obtain ⟨u, rfl⟩ := value_array ht; exact ⟨_, _, rfl, .inr rfl⟩
    have h2 : skipSpace (v ++ (c' :: u') ++ v') = c' :: (u' ++ v') := by
      rw [List.append_assoc, List.cons_append]; exact skip_cons hv (by rcases hc' with rfl | rfl <;> decide)
    rw [← he, h1] at h2
    simp only [List.cons.injEq] at h2
    obtain ⟨rfl, -⟩ := h2
    have hstart := scalar_start ht rfl (by subst hj; simp) (by subst hj; simp)
    have hno : ¬ (JsonText.Digit '{') ∧ ¬ (JsonText.Digit '[') := by unfold JsonText.Digit; decide
    rcases hc' with rfl | rfl
    · simp [hno.1] at hstart
    · simp [hno.2] at hstart

end Verif.Model
