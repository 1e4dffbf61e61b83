import Verif.Model.JsonText
import Verif.Spec.JsonText
import Verif.Proofs.Text
import Verif.Proofs.Config
/-!
The JSON parser accepts the texts of the grammar, and the printer writes texts of it.
-/
namespace Verif.Model
open Verif.Spec

/-! ### White space and digits -/

theorem isJsonSpace_iff {c : Char} : isJsonSpace c = true ↔ c = ' ' ∨ c = '\t' ∨ c = '\n' ∨ c = '\r' := by
  simp only [isJsonSpace, Bool.or_eq_true, beq_iff_eq]
  tauto

theorem skipSpace_append {w s : Str} (hw : JsonText.Space w) (hs : ∀ c, s.head? = some c → isJsonSpace c = false) : skipSpace (w ++ s) = s := by
  induction w with
  | nil =>
    cases s with
    | nil => rfl
    | cons c s => simp [skipSpace, hs c rfl]
  | cons c w ih =>
    have hc : isJsonSpace c = true := isJsonSpace_iff.2 (hw c (by simp))
    simpa [skipSpace, hc] using ih (fun x hx => hw x (by simp [hx]))

theorem skipSpace_split (s : Str) : ∃ w, JsonText.Space w ∧ s = w ++ skipSpace s :=
  ⟨s.takeWhile isJsonSpace, fun c hc => isJsonSpace_iff.1 (List.all_eq_true.1 List.all_takeWhile c hc), (List.takeWhile_append_dropWhile (p := isJsonSpace) (l := s)).symm⟩

theorem skipSpace_space {w : Str} (hw : JsonText.Space w) : skipSpace w = [] := by
  simpa using skipSpace_append (s := []) hw (by simp)

theorem isJsonDigit_iff {c : Char} : isJsonDigit c = true ↔ JsonText.Digit c := by
  simp only [isJsonDigit, JsonText.Digit, Bool.and_eq_true, decide_eq_true_eq, Char.le_def, UInt32.le_iff_toNat_le]
  exact Iff.rfl

theorem significand_eq (s : Str) : significand s = JsonText.decimal s := by
  simp only [significand, JsonText.decimal]
  congr 1
  funext n c
  rw [Nat.mul_comm]
  rfl

/-- A rest that does not continue a run of digits. -/
def NoDigit (s : Str) : Prop := ∀ c, s.head? = some c → isJsonDigit c = false

theorem takeDigits {ds s : Str} (h : ∀ c ∈ ds, JsonText.Digit c) (hs : NoDigit s) :
    (ds ++ s).takeWhile isJsonDigit = ds ∧ (ds ++ s).dropWhile isJsonDigit = s := by
  induction ds with
  | nil =>
    cases s with
    | nil => simp
    | cons c s => simp [hs c rfl]
  | cons c ds ih =>
    have hc := isJsonDigit_iff.2 (h c (by simp))
    have := ih (fun x hx => h x (by simp [hx]))
    simp [hc, this.1, this.2]

theorem splitDigits (s : Str) : (∀ c ∈ s.takeWhile isJsonDigit, JsonText.Digit c) ∧ s = s.takeWhile isJsonDigit ++ s.dropWhile isJsonDigit :=
  ⟨fun c hc => isJsonDigit_iff.1 (List.all_eq_true.1 List.all_takeWhile c hc), (List.takeWhile_append_dropWhile (p := isJsonDigit) (l := s)).symm⟩

/-! ### Numbers -/

/-- What may follow a number. -/
def JsonStop (s : Str) : Prop := ∀ c, s.head? = some c → isJsonDigit c = false ∧ c ≠ '.' ∧ c ≠ 'e' ∧ c ≠ 'E'

theorem jsonFraction_sound {s fp s1 : Str} (h : jsonFraction s = some (fp, s1)) : s = fp ++ s1 ∧ JsonText.Frac fp := by
  unfold jsonFraction at h
  split at h
  · rename_i s'
    split at h
    · cases h
    · rename_i hne
      simp only [Option.some.injEq, Prod.mk.injEq] at h
      obtain ⟨rfl, rfl⟩ := h
      obtain ⟨hd, hs⟩ := splitDigits s'
      exact ⟨by simp, Or.inr ⟨_, rfl, hne, hd⟩⟩
  · simp only [Option.some.injEq, Prod.mk.injEq] at h
    obtain ⟨rfl, rfl⟩ := h
    exact ⟨rfl, Or.inl rfl⟩

theorem jsonFraction_complete {fp s1 : Str} (h : JsonText.Frac fp) (hd : NoDigit s1) (hp : fp = [] → s1.head? ≠ some '.') : jsonFraction (fp ++ s1) = some (fp, s1) := by
  rcases h with rfl | ⟨ds, rfl, hne, hds⟩
  · have := hp rfl
    cases s1 with
    | nil => rfl
    | cons c s1 =>
      simp only [List.nil_append, jsonFraction]
      split
      · rename_i he
        simp only [List.cons.injEq] at he
        simp [he.1] at this
      · rfl
  · obtain ⟨h1, h2⟩ := takeDigits (s := s1) hds hd
    simp [jsonFraction, h1, h2, hne]

theorem jsonExpSign_sound (s : Str) : s = (jsonExpSign s).1 ++ (jsonExpSign s).2 ∧ ((jsonExpSign s).1 = [] ∨ (jsonExpSign s).1 = ['+'] ∨ (jsonExpSign s).1 = ['-']) := by
  unfold jsonExpSign
  split <;> simp

theorem jsonExponent_sound {s ep rest : Str} (h : jsonExponent s = some (ep, rest)) : s = ep ++ rest ∧ JsonText.Exp ep := by
  unfold jsonExponent at h
  split at h
  · simp only [Option.some.injEq, Prod.mk.injEq] at h
    obtain ⟨rfl, rfl⟩ := h
    exact ⟨rfl, Or.inl rfl⟩
  · rename_i e s'
    split at h
    · rename_i he
      dsimp only at h
      split at h
      · cases h
      · rename_i hne
        simp only [Option.some.injEq, Prod.mk.injEq] at h
        obtain ⟨rfl, rfl⟩ := h
        obtain ⟨hs, hsign⟩ := jsonExpSign_sound s'
        obtain ⟨hd, hs2⟩ := splitDigits (jsonExpSign s').2
        refine ⟨?_, Or.inr ⟨e, _, _, rfl, he, hsign, hne, hd⟩⟩
        rw [List.cons_append, List.append_assoc, ← hs2, ← hs]
    · simp only [Option.some.injEq, Prod.mk.injEq] at h
      obtain ⟨rfl, rfl⟩ := h
      exact ⟨rfl, Or.inl rfl⟩

theorem digit_ne {c x : Char} (h : JsonText.Digit c) (hx : isJsonDigit x = false) : c ≠ x := by
  rintro rfl
  rw [isJsonDigit_iff.2 h] at hx
  cases hx

theorem jsonExponent_complete {ep rest : Str} (h : JsonText.Exp ep) (hr : JsonStop rest) : jsonExponent (ep ++ rest) = some (ep, rest) := by
  rcases h with rfl | ⟨e, sign, ds, rfl, he, hsign, hne, hds⟩
  · cases rest with
    | nil => rfl
    | cons c rest =>
      have := hr c rfl
      simp [jsonExponent, this.2.2.1, this.2.2.2]
  · have hnd : NoDigit rest := fun c hc => (hr c hc).1
    obtain ⟨h1, h2⟩ := takeDigits (s := rest) hds hnd
    have hsg : jsonExpSign (sign ++ (ds ++ rest)) = (sign, ds ++ rest) := by
      rcases hsign with rfl | rfl | rfl
      · cases ds with
        | nil => exact absurd rfl hne
        | cons d ds =>
          have hd := hds d (by simp)
          have h1 := digit_ne hd (x := '+') (by decide)
          have h2 := digit_ne hd (x := '-') (by decide)
          simp only [List.nil_append, List.cons_append, jsonExpSign]
          split
          · rename_i hh; simp only [List.cons.injEq] at hh; exact absurd hh.1 h1
          · rename_i hh; simp only [List.cons.injEq] at hh; exact absurd hh.1 h2
          · rfl
      · rfl
      · rfl
    simp only [List.cons_append, List.append_assoc, jsonExponent, he, if_true, hsg, h1, h2, hne, if_false]

theorem exp_noDigit {ep : Str} (h : JsonText.Exp ep) {rest : Str} (hr : JsonStop rest) : NoDigit (ep ++ rest) ∧ (ep ++ rest).head? ≠ some '.' := by
  rcases h with rfl | ⟨e, sign, ds, rfl, he, -, -, -⟩
  · refine ⟨fun c hc => (hr c hc).1, fun hc => ?_⟩
    exact (hr _ hc).2.1 rfl
  · refine ⟨fun c hc => ?_, fun hc => ?_⟩
    · simp only [List.cons_append, List.head?_cons, Option.some.injEq] at hc
      subst hc
      rcases he with rfl | rfl <;> decide
    · simp only [List.cons_append, List.head?_cons, Option.some.injEq] at hc
      rcases he with rfl | rfl <;> cases hc

theorem frac_noDigit {fp : Str} (h : JsonText.Frac fp) {rest : Str} (hr : NoDigit rest) : NoDigit (fp ++ rest) := by
  rcases h with rfl | ⟨ds, rfl, -⟩
  · exact hr
  · intro c hc
    simp only [List.cons_append, List.head?_cons, Option.some.injEq] at hc
    subst hc
    decide

theorem jsonNumber_sound {finite : Str → Bool} {neg : Bool} {s rest : Str} {j : Json} (h : jsonNumber finite neg s = some (j, rest)) :
    ∃ t, s = t ++ rest ∧ JsonText.Number (fun t => finite t = true) ((if neg then ['-'] else []) ++ t) j := by
  unfold jsonNumber at h
  dsimp only at h
  split at h
  · cases h
  · rename_i hds
    simp only [not_or, not_and, not_not] at hds
    obtain ⟨hd, hs⟩ := splitDigits s
    have hip : JsonText.IntPart (s.takeWhile isJsonDigit) := ⟨⟨hds.1, hd⟩, hds.2⟩
    split at h
    · cases h
    · rename_i fp s1 hf
      obtain ⟨e1, hfp⟩ := jsonFraction_sound hf
      split at h
      · cases h
      · rename_i ep rest' he
        obtain ⟨e2, hep⟩ := jsonExponent_sound he
        rw [significand_eq] at h
        have hall : s = s.takeWhile isJsonDigit ++ fp ++ ep ++ rest' := by
          rw [List.append_assoc, List.append_assoc, ← e2, ← e1]; exact hs
        generalize hgen : s.takeWhile isJsonDigit = ip at *
        split at h
        · rename_i hc
          obtain ⟨rfl, rfl, rfl, hn⟩ := hc
          simp only [Option.some.injEq, Prod.mk.injEq] at h
          obtain ⟨rfl, rfl⟩ := h
          exact ⟨ip, by simpa using hall, by simpa using JsonText.Number.nat hip hn⟩
        · rename_i hc1
          split at h
          · rename_i hc
            obtain ⟨rfl, rfl, rfl, hn, hn'⟩ := hc
            simp only [Option.some.injEq, Prod.mk.injEq] at h
            obtain ⟨rfl, rfl⟩ := h
            exact ⟨ip, by simpa using hall, by simpa using JsonText.Number.neg hip hn hn'⟩
          · rename_i hc2
            by_cases hfin : finite ((if neg then ['-'] else []) ++ ip ++ fp ++ ep) = true
            · rw [if_pos hfin] at h
              simp only [Option.some.injEq, Prod.mk.injEq] at h
              obtain ⟨rfl, rfl⟩ := h
              refine ⟨ip ++ fp ++ ep, hall, ?_⟩
              rw [← List.append_assoc, ← List.append_assoc]
              refine JsonText.Number.other (by cases neg <;> simp) hip hfp hep ?_ hfin
              by_cases hfp0 : fp = []
              · by_cases hep0 : ep = []
                · right; right
                  cases neg
                  · left
                    refine ⟨by simp, ?_⟩
                    have := hc1
                    simp only [hfp0, hep0, true_and] at this
                    omega
                  · right
                    refine ⟨by simp, ?_⟩
                    have := hc2
                    simp only [hfp0, hep0, true_and] at this
                    omega
                · exact Or.inr (Or.inl hep0)
              · exact Or.inl hfp0
            · rw [if_neg hfin] at h
              cases h

theorem intPart_not {ip : Str} (h : JsonText.IntPart ip) : ¬ (ip = [] ∨ (ip.head? = some '0' ∧ ip ≠ ['0'])) := by
  rintro (h1 | ⟨h1, h2⟩)
  · exact h.1.1 h1
  · exact h2 (h.2 h1)

theorem jsonNumber_parts {finite : Str → Bool} {neg : Bool} {ip fp ep rest : Str} (hi : JsonText.IntPart ip) (hf : JsonText.Frac fp) (he : JsonText.Exp ep) (hr : JsonStop rest) :
    jsonNumber finite neg (ip ++ fp ++ ep ++ rest) =
      if fp = [] ∧ ep = [] ∧ neg = false ∧ JsonText.decimal ip < 2 ^ 64 then some (.int (JsonText.decimal ip), rest)
      else if fp = [] ∧ ep = [] ∧ neg = true ∧ 0 < JsonText.decimal ip ∧ JsonText.decimal ip ≤ 2 ^ 63 then some (.int (-(JsonText.decimal ip : Int)), rest)
      else if finite ((if neg then ['-'] else []) ++ ip ++ fp ++ ep) then some (.float, rest)
      else none := by
  obtain ⟨hn1, hn2⟩ := exp_noDigit he hr
  have hn3 := frac_noDigit hf hn1
  obtain ⟨t1, t2⟩ := takeDigits hi.1.2 hn3
  unfold jsonNumber
  dsimp only
  rw [List.append_assoc, List.append_assoc, t1, t2, if_neg (intPart_not hi), jsonFraction_complete hf hn1 (fun _ => hn2)]
  dsimp only
  rw [jsonExponent_complete he hr]
  dsimp only
  rw [significand_eq]

theorem frac_nil : JsonText.Frac [] := Or.inl rfl
theorem exp_nil : JsonText.Exp [] := Or.inl rfl

/-- The sign and the rest of a number. -/
theorem jsonNumber_complete {finite : Str → Bool} {t rest : Str} {j : Json} (h : JsonText.Number (fun t => finite t = true) t j) (hr : JsonStop rest) :
    (∃ neg u, t = (if neg then ['-'] else []) ++ u ∧ (∃ c u', u = c :: u' ∧ JsonText.Digit c) ∧ jsonNumber finite neg (u ++ rest) = some (j, rest)) := by
  have hcons : ∀ {ip : Str} (x : Str), JsonText.IntPart ip → ∃ c u', ip ++ x = c :: u' ∧ JsonText.Digit c := by
    intro ip x hi
    cases ip with
    | nil => exact absurd rfl hi.1.1
    | cons c ip => exact ⟨c, ip ++ x, rfl, hi.1.2 c (by simp)⟩
  cases h with
  | nat hi hn =>
    refine ⟨false, t, by simp, by simpa using hcons [] hi, ?_⟩
    have := jsonNumber_parts (finite := finite) (neg := false) hi frac_nil exp_nil hr
    simp only [List.append_nil] at this
    rw [this, if_pos (by simpa using hn)]
  | neg hi h0 hn =>
    rename_i ip
    refine ⟨true, ip, by simp, by simpa using hcons [] hi, ?_⟩
    have := jsonNumber_parts (finite := finite) (neg := true) hi frac_nil exp_nil hr
    simp only [List.append_nil] at this
    rw [this, if_neg (by simp), if_pos (by simpa using ⟨h0, hn⟩)]
  | other hs hi hf he hcase hfin =>
    rename_i sign ip fp ep
    have hs' : ∃ neg : Bool, sign = if neg then ['-'] else [] := by
      rcases hs with rfl | rfl
      · exact ⟨false, rfl⟩
      · exact ⟨true, rfl⟩
    obtain ⟨neg, rfl⟩ := hs'
    refine ⟨neg, ip ++ fp ++ ep, by simp, by simpa using hcons (fp ++ ep) hi, ?_⟩
    rw [jsonNumber_parts hi hf he hr, if_neg, if_neg, if_pos hfin]
    · rintro ⟨rfl, rfl, rfl, h1, h2⟩
      rcases hcase with h | h | h | h
      · exact h rfl
      · exact h rfl
      · simp at h
      · have := h.2; omega
    · rintro ⟨rfl, rfl, rfl, h1⟩
      rcases hcase with h | h | h | h
      · exact h rfl
      · exact h rfl
      · have := h.2; omega
      · simp at h

/-! ### Strings -/

theorem jsonHex4_sound {s r : Str} {n : Nat} (h : jsonHex4 s = some (n, r)) : ∃ t, s = t ++ r ∧ JsonText.Hex4 t n := by
  unfold jsonHex4 at h
  split at h
  · rename_i a b c d s'
    split at h
    · rename_i w x y z hw hx hy hz
      simp only [Option.some.injEq, Prod.mk.injEq] at h
      obtain ⟨rfl, rfl⟩ := h
      refine ⟨[a, b, c, d], rfl, a, b, c, d, w, x, y, z, rfl, (digitVal_iff (by decide)).1 hw, (digitVal_iff (by decide)).1 hx, (digitVal_iff (by decide)).1 hy,
        (digitVal_iff (by decide)).1 hz, by omega⟩
    · cases h
  · cases h

theorem jsonHex4_complete {t r : Str} {n : Nat} (h : JsonText.Hex4 t n) : jsonHex4 (t ++ r) = some (n, r) := by
  obtain ⟨a, b, c, d, w, x, y, z, rfl, hw, hx, hy, hz, rfl⟩ := h
  simp only [List.cons_append, List.nil_append, jsonHex4, (digitVal_iff (by decide)).2 hw, (digitVal_iff (by decide)).2 hx, (digitVal_iff (by decide)).2 hy,
    (digitVal_iff (by decide)).2 hz, Option.some.injEq, Prod.mk.injEq, and_true]
  omega

theorem hex4_lt {t : Str} {n : Nat} (h : JsonText.Hex4 t n) : n < 0x10000 := by
  obtain ⟨a, b, c, d, w, x, y, z, -, hw, hx, hy, hz, rfl⟩ := h
  have := hw.1; have := hx.1; have := hy.1; have := hz.1
  omega

theorem toNat_ofNat {n : Nat} (h : n < 0xD800 ∨ (0xDFFF < n ∧ n < 0x110000)) : (Char.ofNat n).toNat = n :=
  by
  have hv : n.isValidChar := h
  simp [Char.ofNat, hv, Char.toNat, Char.ofNatAux]

theorem char_valid (c : Char) : c.toNat < 0xD800 ∨ (0xDFFF < c.toNat ∧ c.toNat < 0x110000) := c.valid

theorem jsonEscape_sound {s r : Str} {c : Char} (h : jsonEscape s = some (c, r)) : ∃ t, s = t ++ r ∧ JsonText.StrChar ('\\' :: t) c := by
  unfold jsonEscape at h
  split at h
  iterate 8
    · simp only [Option.some.injEq, Prod.mk.injEq] at h
      obtain ⟨rfl, rfl⟩ := h
      exact ⟨[_], rfl, JsonText.StrChar.short (by simp)⟩
  · rename_i s'
    split at h
    · cases h
    · rename_i n s1 hn
      obtain ⟨t, rfl, ht⟩ := jsonHex4_sound hn
      split at h
      · cases h
      · rename_i hlo
        split at h
        · rename_i hhi
          split at h
          · rename_i s2
            split at h
            · rename_i m s3 hm
              obtain ⟨t', rfl, ht'⟩ := jsonHex4_sound hm
              split at h
              · rename_i hm'
                simp only [Option.some.injEq, Prod.mk.injEq] at h
                obtain ⟨rfl, rfl⟩ := h
                refine ⟨'u' :: t ++ '\\' :: 'u' :: t', by simp, ?_⟩
                have := JsonText.StrChar.pair (h := t) (l := t') (hi := n) (lo := m) (c := Char.ofNat ((n - 0xD800) * 1024 + (m - 0xDC00) + 0x10000)) ht ht' hhi.1 (by omega) hm'.1 (by omega)
                  (by rw [toNat_ofNat (by omega)]; omega)
                simpa using this
              · cases h
            · cases h
          · cases h
        · rename_i hhi
          simp only [Option.some.injEq, Prod.mk.injEq] at h
          obtain ⟨rfl, rfl⟩ := h
          have := hex4_lt ht
          refine ⟨'u' :: t, by simp, JsonText.StrChar.unit (c := Char.ofNat n) ?_⟩
          rw [toNat_ofNat (by omega)]
          exact ht
  · cases h

theorem ofNat_toNat' {c : Char} {n : Nat} (h : c.toNat = n) : Char.ofNat n = c := by
  rw [← h]; exact Char.ofNat_toNat c

/-- An escape is read. -/
theorem strChar_escape {t r : Str} {c : Char} (h : JsonText.StrChar t c) : (t = [c] ∧ c ≠ '"' ∧ c ≠ '\\' ∧ 0x20 ≤ c.toNat) ∨ (∃ u, t = '\\' :: u ∧ jsonEscape (u ++ r) = some (c, r)) := by
  cases h with
  | plain h1 h2 h3 => exact Or.inl ⟨rfl, h1, h2, h3⟩
  | short h =>
    right
    rename_i e
    refine ⟨[e], rfl, ?_⟩
    simp only [List.mem_cons, Prod.mk.injEq, List.not_mem_nil, or_false] at h
    rcases h with ⟨rfl, rfl⟩ | ⟨rfl, rfl⟩ | ⟨rfl, rfl⟩ | ⟨rfl, rfl⟩ | ⟨rfl, rfl⟩ | ⟨rfl, rfl⟩ | ⟨rfl, rfl⟩ | ⟨rfl, rfl⟩ <;> rfl
  | unit h =>
    right
    rename_i hx
    refine ⟨'u' :: hx, rfl, ?_⟩
    have hv := char_valid c
    simp only [List.cons_append, jsonEscape, jsonHex4_complete h]
    rw [if_neg (by omega), if_neg (by omega), Char.ofNat_toNat]
  | pair hh hl h1 h2 h3 h4 hc =>
    right
    rename_i h l hi lo
    refine ⟨'u' :: h ++ '\\' :: 'u' :: l, by simp, ?_⟩
    simp only [List.cons_append, List.append_assoc, jsonEscape, jsonHex4_complete hh]
    rw [if_neg (by omega), if_pos (by omega)]
    simp only [jsonHex4_complete hl]
    rw [if_pos (by omega), ofNat_toNat' (n := (hi - 0xD800) * 1024 + (lo - 0xDC00) + 0x10000) (by rw [hc]; omega)]

theorem jsonString_sound {n : Nat} {s r cs : Str} (h : jsonString n s = some (cs, r)) : ∃ body, s = body ++ '"' :: r ∧ JsonText.Chars body cs := by
  induction n generalizing s cs with
  | zero => simp [jsonString] at h
  | succ n ih =>
    cases s with
    | nil => simp [jsonString] at h
    | cons c s =>
      unfold jsonString at h
      split at h
      · rename_i hc
        simp only [Option.some.injEq, Prod.mk.injEq] at h
        obtain ⟨rfl, rfl⟩ := h
        exact ⟨[], by simp [hc], .nil⟩
      · rename_i hq
        split at h
        · rename_i hb
          split at h
          · rename_i x s1 hx
            simp only [Option.map_eq_some_iff, Prod.mk.injEq] at h
            obtain ⟨⟨cs', r'⟩, h1, rfl, rfl⟩ := h
            obtain ⟨body, rfl, hbody⟩ := ih h1
            obtain ⟨t, rfl, ht⟩ := jsonEscape_sound hx
            exact ⟨'\\' :: t ++ body, by simp [hb], .cons ht hbody⟩
          · cases h
        · rename_i hb
          split at h
          · cases h
          · rename_i hctl
            simp only [Option.map_eq_some_iff, Prod.mk.injEq] at h
            obtain ⟨⟨cs', r'⟩, h1, rfl, rfl⟩ := h
            obtain ⟨body, rfl, hbody⟩ := ih h1
            exact ⟨[c] ++ body, by simp, .cons (.plain hq hb (by omega)) hbody⟩

theorem jsonString_complete {body cs r : Str} (h : JsonText.Chars body cs) : ∀ {n : Nat}, body.length < n → jsonString n (body ++ '"' :: r) = some (cs, r) := by
  induction h with
  | nil =>
    intro n hn
    cases n with
    | zero => simp at hn
    | succ n => simp [jsonString]
  | cons ht hs ih =>
    rename_i t s c cs
    intro n hn
    cases n with
    | zero => simp at hn
    | succ n =>
      rcases strChar_escape (r := s ++ '"' :: r) ht with ⟨rfl, h1, h2, h3⟩ | ⟨u, rfl, hu⟩
      · simp only [List.cons_append, List.nil_append, jsonString, if_neg h1, if_neg h2]
        rw [if_neg (by omega), ih (by simp at hn; omega)]
        rfl
      · simp only [List.cons_append, List.append_assoc, jsonString, hu]
        rw [if_neg (by decide), if_pos trivial, ih (by simp at hn; omega)]
        rfl

/-! ### Values -/

theorem depth_le_list {x : Json} {xs : List Json} (h : x ∈ xs) : Json.depth x ≤ depthList xs := by
  induction xs with
  | nil => cases h
  | cons y ys ih =>
    simp only [depthList]
    cases h with
    | head => omega
    | tail _ h => have := ih h; omega

/-- What the parser has read is a text of the grammar. -/
theorem json_sound {finite : Str → Bool} (n : Nat) :
    (∀ d s j r, jsonValue finite n d s = some (j, r) → ∃ w t, s = w ++ t ++ r ∧ JsonText.Space w ∧ JsonText.Value (fun t => finite t = true) t j ∧ Json.depth j ≤ d - 1) ∧
    (∀ d s xs r, jsonElements finite n d s = some (xs, r) → ∃ t, s = t ++ ']' :: r ∧ JsonText.Elements (fun t => finite t = true) t xs ∧ depthList xs ≤ d - 1) ∧
    (∀ d s kvs r, jsonMembers finite n d s = some (kvs, r) → ∃ t, s = t ++ '}' :: r ∧ JsonText.Members (fun t => finite t = true) t kvs ∧ depthPairs kvs ≤ d - 1) := by
  induction n with
  | zero => simp [jsonValue, jsonElements, jsonMembers]
  | succ n ih =>
    obtain ⟨ihV, ihE, ihM⟩ := ih
    refine ⟨?_, ?_, ?_⟩
    · intro d s j r h
      obtain ⟨w, hw, hs⟩ := skipSpace_split s
      suffices hsuff : ∃ t, skipSpace s = t ++ r ∧ JsonText.Value (fun t => finite t = true) t j ∧ Json.depth j ≤ d - 1 by
        obtain ⟨t, ht, hv, hd⟩ := hsuff
        exact ⟨w, t, by rw [List.append_assoc, ← ht]; exact hs, hw, hv, hd⟩
      have hnum : ∀ {neg : Bool} {u : Str}, jsonNumber finite neg u = some (j, r) → ∃ t, (if neg then ['-'] else []) ++ u = t ++ r ∧ JsonText.Value (fun t => finite t = true) t j ∧ Json.depth j ≤ d - 1 := by
        intro neg u hu
        obtain ⟨t, rfl, ht⟩ := jsonNumber_sound hu
        refine ⟨_, by rw [← List.append_assoc], .number ht, ?_⟩
        have : Json.depth j = 0 := by
          generalize (if neg then ['-'] else []) ++ t = u' at ht
          cases ht <;> simp [Json.depth]
        omega
      unfold jsonValue at h
      split at h
      · rename_i heq
        simp only [Option.some.injEq, Prod.mk.injEq] at h
        obtain ⟨rfl, rfl⟩ := h
        exact ⟨_, heq, .null, by simp [Json.depth]⟩
      · rename_i heq
        simp only [Option.some.injEq, Prod.mk.injEq] at h
        obtain ⟨rfl, rfl⟩ := h
        exact ⟨_, heq, .true, by simp [Json.depth]⟩
      · rename_i heq
        simp only [Option.some.injEq, Prod.mk.injEq] at h
        obtain ⟨rfl, rfl⟩ := h
        exact ⟨_, heq, .false, by simp [Json.depth]⟩
      · rename_i r' heq
        simp only [Option.map_eq_some_iff, Prod.mk.injEq] at h
        obtain ⟨⟨cs, r''⟩, h1, rfl, rfl⟩ := h
        obtain ⟨body, rfl, hb⟩ := jsonString_sound h1
        exact ⟨'"' :: body ++ ['"'], by simp [heq], .string ⟨body, rfl, hb⟩, by simp [Json.depth]⟩
      · rename_i r' heq
        split at h
        · cases h
        · rename_i hd
          obtain ⟨w', hw', hs'⟩ := skipSpace_split r'
          split at h
          · rename_i hc
            simp only [Option.some.injEq, Prod.mk.injEq] at h
            obtain ⟨rfl, rfl⟩ := h
            refine ⟨'[' :: w' ++ [']'], ?_, .emptyArray hw', by simp [Json.depth, depthList]; omega⟩
            rw [heq]
            obtain ⟨y, hy⟩ : ∃ y, skipSpace r' = ']' :: y := by
              cases hsk : skipSpace r' with
              | nil => simp [hsk] at hc
              | cons c y => simp [hsk] at hc; exact ⟨y, by rw [hc]⟩
            rw [hy] at hs' ⊢
            simp [hs']
          · simp only [Option.map_eq_some_iff, Prod.mk.injEq] at h
            obtain ⟨⟨xs, r''⟩, h1, rfl, rfl⟩ := h
            obtain ⟨t, rfl, ht, hdt⟩ := ihE _ _ _ _ h1
            exact ⟨'[' :: t ++ [']'], by simp [heq], .array ht, by simp only [Json.depth]; omega⟩
      · rename_i r' heq
        split at h
        · cases h
        · rename_i hd
          obtain ⟨w', hw', hs'⟩ := skipSpace_split r'
          split at h
          · rename_i hc
            simp only [Option.some.injEq, Prod.mk.injEq] at h
            obtain ⟨rfl, rfl⟩ := h
            refine ⟨'{' :: w' ++ ['}'], ?_, .emptyObject hw', by simp [Json.depth, depthPairs]; omega⟩
            rw [heq]
            obtain ⟨y, hy⟩ : ∃ y, skipSpace r' = '}' :: y := by
              cases hsk : skipSpace r' with
              | nil => simp [hsk] at hc
              | cons c y => simp [hsk] at hc; exact ⟨y, by rw [hc]⟩
            rw [hy] at hs' ⊢
            simp [hs']
          · simp only [Option.map_eq_some_iff, Prod.mk.injEq] at h
            obtain ⟨⟨xs, r''⟩, h1, rfl, rfl⟩ := h
            obtain ⟨t, rfl, ht, hdt⟩ := ihM _ _ _ _ h1
            exact ⟨'{' :: t ++ ['}'], by simp [heq], .object ht, by simp only [Json.depth]; omega⟩
      · rename_i r' heq
        simpa [heq] using hnum h
      · simpa using hnum h
    · intro d s xs r h
      unfold jsonElements at h
      split at h
      · cases h
      · rename_i j s1 hj
        obtain ⟨w, t, rfl, hw, ht, hd⟩ := ihV _ _ _ _ hj
        obtain ⟨w', hw', hs'⟩ := skipSpace_split s1
        split at h
        · rename_i s2 heq
          simp only [Option.map_eq_some_iff, Prod.mk.injEq] at h
          obtain ⟨⟨xs', r'⟩, h1, rfl, rfl⟩ := h
          obtain ⟨t', rfl, ht', hd'⟩ := ihE _ _ _ _ h1
          refine ⟨w ++ t ++ w' ++ ',' :: t', ?_, .more hw ht hw' ht', by simp only [depthList]; omega⟩
          rw [hs', heq]; simp
        · rename_i s2 heq
          simp only [Option.some.injEq, Prod.mk.injEq] at h
          obtain ⟨rfl, rfl⟩ := h
          refine ⟨w ++ t ++ w', ?_, .one hw ht hw', by simp only [depthList]; omega⟩
          rw [hs', heq]; simp
        · cases h
    · intro d s kvs r h
      unfold jsonMembers at h
      obtain ⟨w, hw, hs⟩ := skipSpace_split s
      split at h
      · rename_i r1 heq
        split at h
        · cases h
        · rename_i k s1 hk
          obtain ⟨body, rfl, hb⟩ := jsonString_sound hk
          have hkey : JsonText.String ('"' :: body ++ ['"']) k := ⟨body, rfl, hb⟩
          obtain ⟨w1, hw1, hs1⟩ := skipSpace_split s1
          split at h
          · rename_i s2 heq2
            split at h
            · cases h
            · rename_i j s3 hj
              obtain ⟨w2, t, rfl, hw2, ht, hd⟩ := ihV _ _ _ _ hj
              obtain ⟨w', hw', hs'⟩ := skipSpace_split s3
              split at h
              · rename_i s4 heq4
                simp only [Option.map_eq_some_iff, Prod.mk.injEq] at h
                obtain ⟨⟨kvs', r'⟩, h1, rfl, rfl⟩ := h
                obtain ⟨t', rfl, ht', hd'⟩ := ihM _ _ _ _ h1
                refine ⟨_, ?_, .more hw hkey hw1 hw2 ht hw' ht', by simp only [depthPairs]; omega⟩
                rw [hs, heq, hs1, heq2, hs', heq4]; simp
              · rename_i s4 heq4
                simp only [Option.some.injEq, Prod.mk.injEq] at h
                obtain ⟨rfl, rfl⟩ := h
                refine ⟨_, ?_, .one hw hkey hw1 hw2 ht hw', by simp only [depthPairs]; omega⟩
                rw [hs, heq, hs1, heq2, hs', heq4]; simp
              · cases h
          · cases h
      · cases h

/-- The first characters of values. -/
def ValueStart (c : Char) : Prop := c = 'n' ∨ c = 't' ∨ c = 'f' ∨ c = '"' ∨ c = '[' ∨ c = '{' ∨ c = '-' ∨ JsonText.Digit c

theorem valueStart_notSpace {c : Char} (h : ValueStart c) : isJsonSpace c = false ∧ c ≠ ']' ∧ c ≠ '}' := by
  rcases h with rfl | rfl | rfl | rfl | rfl | rfl | rfl | h
  iterate 7 exact ⟨by decide, by decide, by decide⟩
  refine ⟨?_, digit_ne h (by decide), digit_ne h (by decide)⟩
  rw [← Bool.not_eq_true, isJsonSpace_iff]
  rintro (h' | h' | h' | h') <;> exact absurd h' (digit_ne h (by decide))

theorem number_start {finite : Str → Prop} {t : Str} {j : Json} (h : JsonText.Number finite t j) : ∃ c u, t = c :: u ∧ (c = '-' ∨ JsonText.Digit c) := by
  have hcons : ∀ {ip : Str} (x : Str), JsonText.IntPart ip → ∃ c u', ip ++ x = c :: u' ∧ JsonText.Digit c := by
    intro ip x hi
    cases ip with
    | nil => exact absurd rfl hi.1.1
    | cons c ip => exact ⟨c, ip ++ x, rfl, hi.1.2 c (by simp)⟩
  cases h with
  | nat hi hn => obtain ⟨c, u, h, hc⟩ := hcons [] hi; exact ⟨c, u, by simpa using h, Or.inr hc⟩
  | neg hi h0 hn => exact ⟨'-', _, rfl, Or.inl rfl⟩
  | other hs hi hf he hcase hfin =>
    rename_i sign ip fp ep
    rcases hs with rfl | rfl
    · obtain ⟨c, u, h, hc⟩ := hcons (fp ++ ep) hi; exact ⟨c, u, by simpa using h, Or.inr hc⟩
    · exact ⟨'-', ip ++ fp ++ ep, by simp, Or.inl rfl⟩

theorem value_start {finite : Str → Prop} {t : Str} {j : Json} (h : JsonText.Value finite t j) : ∃ c u, t = c :: u ∧ ValueStart c := by
  cases h with
  | null => exact ⟨'n', _, rfl, by simp [ValueStart]⟩
  | true => exact ⟨'t', _, rfl, by simp [ValueStart]⟩
  | false => exact ⟨'f', _, rfl, by simp [ValueStart]⟩
  | number h => obtain ⟨c, u, h, hc⟩ := number_start h; exact ⟨c, u, h, by rcases hc with h | h <;> simp [ValueStart, h]⟩
  | string h => obtain ⟨body, rfl, -⟩ := h; exact ⟨'"', _, rfl, by simp [ValueStart]⟩
  | emptyArray h => exact ⟨'[', _, rfl, by simp [ValueStart]⟩
  | array h => exact ⟨'[', _, rfl, by simp [ValueStart]⟩
  | emptyObject h => exact ⟨'{', _, rfl, by simp [ValueStart]⟩
  | object h => exact ⟨'{', _, rfl, by simp [ValueStart]⟩

theorem skip_value {finite : Str → Prop} {w t r : Str} {j : Json} (hw : JsonText.Space w) (h : JsonText.Value finite t j) : skipSpace (w ++ (t ++ r)) = t ++ r := by
  obtain ⟨c, u, rfl, hc⟩ := value_start h
  refine skipSpace_append hw ?_
  intro x hx
  simp only [List.cons_append, List.head?_cons, Option.some.injEq] at hx
  subst hx
  exact (valueStart_notSpace hc).1

/-- What follows values in arrays and objects, and at the end. -/
def AfterValue (s : Str) : Prop := ∀ c, s.head? = some c → isJsonSpace c = true ∨ c = ',' ∨ c = ']' ∨ c = '}'

theorem afterValue_stop {s : Str} (h : AfterValue s) : JsonStop s := by
  intro c hc
  rcases h c hc with h | rfl | rfl | rfl
  · rw [isJsonSpace_iff] at h
    rcases h with rfl | rfl | rfl | rfl <;> decide
  all_goals decide

theorem afterValue_space {w s : Str} (hw : JsonText.Space w) (h : AfterValue s) : AfterValue (w ++ s) := by
  cases w with
  | nil => exact h
  | cons c w =>
    intro x hx
    simp only [List.cons_append, List.head?_cons, Option.some.injEq] at hx
    subst hx
    exact Or.inl (isJsonSpace_iff.2 (hw c (by simp)))

theorem afterValue_cons {c : Char} {s : Str} (h : c = ',' ∨ c = ']' ∨ c = '}') : AfterValue (c :: s) := by
  intro x hx
  simp only [List.head?_cons, Option.some.injEq] at hx
  subst hx
  exact Or.inr h

theorem elements_start {finite : Str → Prop} {t : Str} {xs : List Json} (h : JsonText.Elements finite t xs) : ∃ w c u, t = w ++ c :: u ∧ JsonText.Space w ∧ ValueStart c := by
  cases h with
  | one hw ht hw' =>
    rename_i w t w' j
    obtain ⟨c, u, rfl, hc⟩ := value_start ht
    exact ⟨w, c, u ++ w', by simp, hw, hc⟩
  | more hw ht hw' hs =>
    rename_i w t w' s j js
    obtain ⟨c, u, rfl, hc⟩ := value_start ht
    exact ⟨w, c, u ++ w' ++ ',' :: s, by simp, hw, hc⟩

theorem members_start {finite : Str → Prop} {t : Str} {xs : List (Str × Json)} (h : JsonText.Members finite t xs) : ∃ w u, t = w ++ '"' :: u ∧ JsonText.Space w := by
  cases h with
  | one hw hk hw1 hw2 ht hw' =>
    rename_i w k w1 w2 t w' key j
    obtain ⟨body, rfl, -⟩ := hk
    exact ⟨w, body ++ ['"'] ++ w1 ++ ':' :: w2 ++ t ++ w', by simp, hw⟩
  | more hw hk hw1 hw2 ht hw' hs =>
    rename_i w k w1 w2 t w' s key j kvs
    obtain ⟨body, rfl, -⟩ := hk
    exact ⟨w, body ++ ['"'] ++ w1 ++ ':' :: w2 ++ t ++ w' ++ ',' :: s, by simp, hw⟩

theorem skip_cons {w s : Str} {c : Char} (hw : JsonText.Space w) (hc : isJsonSpace c = false) : skipSpace (w ++ c :: s) = c :: s := by
  refine skipSpace_append hw ?_
  intro x hx
  simp only [List.head?_cons, Option.some.injEq] at hx
  subst hx
  exact hc

theorem jsonValue_digit {finite : Str → Bool} {n d : Nat} {s : Str} {c : Char} {u : Str} (hs : skipSpace s = c :: u) (hc : JsonText.Digit c) :
    jsonValue finite (n + 1) d s = jsonNumber finite false (c :: u) := by
  have e : ∀ x, isJsonDigit x = false → c ≠ x := fun x hx => digit_ne hc hx
  unfold jsonValue
  rw [hs]
  split
  all_goals first
    | rfl
    | (rename_i heq; simp only [List.cons.injEq] at heq; exact absurd heq.1 (e _ (by decide)))

mutual
/-- The texts of the grammar are read. -/
theorem value_complete {finite : Str → Bool} {t : Str} {j : Json} (h : JsonText.Value (fun t => finite t = true) t j) {w r : Str} {n d : Nat}
    (hw : JsonText.Space w) (hr : AfterValue r) (hn : t.length + 1 ≤ n) (hd : Json.depth j ≤ d - 1) : jsonValue finite n d (w ++ (t ++ r)) = some (j, r) := by
  obtain ⟨n, rfl⟩ : ∃ m, n = m + 1 := ⟨n - 1, by omega⟩
  have hsk := skip_value (r := r) hw h
  match h with
  | .null => unfold jsonValue; rw [hsk]; rfl
  | .true => unfold jsonValue; rw [hsk]; rfl
  | .false => unfold jsonValue; rw [hsk]; rfl
  | .number hnum =>
    obtain ⟨neg, u, rfl, ⟨c, u', rfl, hc⟩, hread⟩ := jsonNumber_complete hnum (afterValue_stop hr)
    cases neg
    · rw [jsonValue_digit (c := c) (u := u' ++ r) (by simpa using hsk) hc]
      simpa using hread
    · unfold jsonValue
      rw [hsk]
      simpa using hread
  | .string ⟨body, hbt, hb⟩ =>
    subst hbt
    unfold jsonValue
    rw [hsk]
    simp only [List.cons_append, List.append_assoc, List.nil_append]
    rw [jsonString_complete hb (by simp; omega)]
    rfl
  | .emptyArray (w := w') hw' =>
    unfold jsonValue
    rw [hsk]
    simp only [List.cons_append, List.append_assoc, List.nil_append]
    simp only [Json.depth, depthList] at hd
    rw [if_neg (by omega), skip_cons hw' (by decide)]
    rfl
  | .array (t := t') ht =>
    obtain ⟨w0, c, u, e0, hw0, hc⟩ := elements_start ht
    unfold jsonValue
    rw [hsk]
    simp only [List.cons_append, List.append_assoc, List.nil_append]
    simp only [Json.depth] at hd
    have hne := valueStart_notSpace hc
    have hs0 : skipSpace (t' ++ ']' :: r) = c :: (u ++ ']' :: r) := by
      rw [e0, List.append_assoc, List.cons_append]
      exact skip_cons hw0 hne.1
    rw [if_neg (by omega), hs0, if_neg (by simpa using hne.2.1), elements_complete ht (by simp at hn; omega) (by omega)]
    rfl
  | .emptyObject (w := w') hw' =>
    unfold jsonValue
    rw [hsk]
    simp only [List.cons_append, List.append_assoc, List.nil_append]
    simp only [Json.depth, depthPairs] at hd
    rw [if_neg (by omega), skip_cons hw' (by decide)]
    rfl
  | .object (t := t') ht =>
    obtain ⟨w0, u, e0, hw0⟩ := members_start ht
    unfold jsonValue
    rw [hsk]
    simp only [List.cons_append, List.append_assoc, List.nil_append]
    simp only [Json.depth] at hd
    have hs0 : skipSpace (t' ++ '}' :: r) = '"' :: (u ++ '}' :: r) := by
      rw [e0, List.append_assoc, List.cons_append]
      exact skip_cons hw0 (by decide)
    rw [if_neg (by omega), hs0, if_neg (by simp), members_complete ht (by simp at hn; omega) (by omega)]
    rfl
theorem elements_complete {finite : Str → Bool} {t : Str} {xs : List Json} (h : JsonText.Elements (fun t => finite t = true) t xs) {r : Str} {n d : Nat}
    (hn : t.length + 2 ≤ n) (hd : depthList xs ≤ d - 1) : jsonElements finite n d (t ++ ']' :: r) = some (xs, r) := by
  obtain ⟨n, rfl⟩ : ∃ m, n = m + 1 := ⟨n - 1, by omega⟩
  match h with
  | .one (w := w) (t := t) (w' := w') hw ht hw' =>
    simp only [depthList] at hd
    simp only [List.length_append] at hn
    have := value_complete ht (r := w' ++ ']' :: r) (n := n) (d := d) hw (afterValue_space hw' (afterValue_cons (by simp))) (by omega) (by omega)
    unfold jsonElements
    simp only [List.append_assoc] at this ⊢
    rw [this]
    try simp only []
    rw [skip_cons hw' (by decide)]
    rfl
  | .more (w := w) (t := t) (w' := w') (s := s) hw ht hw' hs =>
    simp only [depthList] at hd
    simp only [List.length_append, List.length_cons] at hn
    have := value_complete ht (r := w' ++ ',' :: (s ++ ']' :: r)) (n := n) (d := d) hw (afterValue_space hw' (afterValue_cons (by simp))) (by omega) (by omega)
    have h2 := elements_complete hs (r := r) (n := n) (d := d) (by omega) (by omega)
    unfold jsonElements
    simp only [List.append_assoc, List.cons_append] at this ⊢
    rw [this]
    try simp only []
    rw [skip_cons hw' (by decide)]
    try simp only []
    rw [h2]
    rfl
theorem members_complete {finite : Str → Bool} {t : Str} {xs : List (Str × Json)} (h : JsonText.Members (fun t => finite t = true) t xs) {r : Str} {n d : Nat}
    (hn : t.length + 2 ≤ n) (hd : depthPairs xs ≤ d - 1) : jsonMembers finite n d (t ++ '}' :: r) = some (xs, r) := by
  obtain ⟨n, rfl⟩ : ∃ m, n = m + 1 := ⟨n - 1, by omega⟩
  match h with
  | .one (w := w) (w1 := w1) (w2 := w2) (t := t) (w' := w') hw ⟨body, hbt, hb⟩ hw1 hw2 ht hw' =>
    subst hbt
    simp only [depthPairs] at hd
    simp only [List.length_append, List.length_cons] at hn
    have := value_complete ht (r := w' ++ '}' :: r) (n := n) (d := d) hw2 (afterValue_space hw' (afterValue_cons (by simp))) (by omega) (by omega)
    unfold jsonMembers
    simp only [List.append_assoc, List.cons_append, List.nil_append] at this ⊢
    rw [skip_cons hw (by decide)]
    try simp only []
    rw [jsonString_complete hb (by simp; omega)]
    try simp only []
    rw [skip_cons hw1 (by decide)]
    try simp only []
    rw [this]
    try simp only []
    rw [skip_cons hw' (by decide)]
    rfl
  | .more (w := w) (w1 := w1) (w2 := w2) (t := t) (w' := w') (s := s) hw ⟨body, hbt, hb⟩ hw1 hw2 ht hw' hs =>
    subst hbt
    simp only [depthPairs] at hd
    simp only [List.length_append, List.length_cons] at hn
    have := value_complete ht (r := w' ++ ',' :: (s ++ '}' :: r)) (n := n) (d := d) hw2 (afterValue_space hw' (afterValue_cons (by simp))) (by omega) (by omega)
    have h2 := members_complete hs (r := r) (n := n) (d := d) (by omega) (by omega)
    unfold jsonMembers
    simp only [List.append_assoc, List.cons_append, List.nil_append] at this ⊢
    rw [skip_cons hw (by decide)]
    try simp only []
    rw [jsonString_complete hb (by simp; omega)]
    try simp only []
    rw [skip_cons hw1 (by decide)]
    try simp only []
    rw [this]
    try simp only []
    rw [skip_cons hw' (by decide)]
    try simp only []
    rw [h2]
    rfl
end

theorem afterValue_end {w : Str} (hw : JsonText.Space w) : AfterValue w := by
  simpa using afterValue_space (s := []) hw (by intro c hc; simp at hc)

/-- A text is read as a document exactly if it is one in the grammar and not nested too deeply. -/
theorem parseJson_iff {finite : Str → Bool} {s : Str} {j : Json} : parseJson finite s = some j ↔ JsonText.Doc (fun t => finite t = true) s j ∧ Json.depth j ≤ 127 := by
  constructor
  · intro h
    unfold parseJson at h
    split at h
    · rename_i j' rest hj
      split at h
      · rename_i hsk
        cases h
        obtain ⟨w, t, rfl, hw, ht, hd⟩ := (json_sound _).1 _ _ _ _ hj
        obtain ⟨w', hw', hs'⟩ := skipSpace_split rest
        rw [hsk, List.append_nil] at hs'
        exact ⟨⟨w, t, rest, rfl, hw, ht, hs' ▸ hw'⟩, by omega⟩
      · cases h
    · cases h
  · rintro ⟨⟨w, v, w', rfl, hw, hv, hw'⟩, hd⟩
    unfold parseJson
    rw [List.append_assoc, value_complete hv hw (afterValue_end hw') (by simp; omega) (by omega)]
    try simp only []
    rw [skipSpace_space hw', if_pos rfl]

/-- A text is at most one document. -/
theorem doc_unique {finite : Str → Prop} {s : Str} {j j' : Json} (h : JsonText.Doc finite s j) (h' : JsonText.Doc finite s j') : j = j' := by
  classical
  have hf : finite = fun t => (fun t => decide (finite t)) t = true := by funext t; simp
  rw [hf] at h h'
  have key : ∀ j, JsonText.Doc (fun t => (fun t => decide (finite t)) t = true) s j → ∀ d, Json.depth j ≤ d - 1 → ∃ r, jsonValue (fun t => decide (finite t)) (s.length + 1) d s = some (j, r) := by
    rintro j ⟨w, v, w', rfl, hw, hv, hw'⟩ d hd
    exact ⟨w', by rw [List.append_assoc]; exact value_complete hv hw (afterValue_end hw') (by simp; omega) hd⟩
  obtain ⟨r, h1⟩ := key j h (Json.depth j + Json.depth j' + 1) (by omega)
  obtain ⟨r', h2⟩ := key j' h' (Json.depth j + Json.depth j' + 1) (by omega)
  rw [h1] at h2
  simp only [Option.some.injEq, Prod.mk.injEq] at h2
  exact h2.1

/-! ### Printing -/

theorem digitChar_digit {n : Nat} (h : n < 10) : JsonText.Digit (digitChar n) ∧ (digitChar n).toNat = 48 + n := by
  have e : (digitChar n).toNat = 48 + n := toNat_ofNat (by omega)
  refine ⟨?_, e⟩
  rw [← isJsonDigit_iff]
  simp [isJsonDigit, e]
  omega

theorem decimal_append (s : Str) (c : Char) : JsonText.decimal (s ++ [c]) = 10 * JsonText.decimal s + (c.toNat - '0'.toNat) := by
  simp [JsonText.decimal]

theorem showDigits_spec (k : Nat) : ∀ n, n < k → JsonText.IntPart (showDigits k n) ∧ JsonText.decimal (showDigits k n) = n ∧ (0 < n → (showDigits k n).head? ≠ some '0') := by
  induction k with
  | zero => intro n hn; omega
  | succ k ih =>
  intro n hk
  by_cases hn : n < 10
  · unfold showDigits
    rw [if_pos hn]
    obtain ⟨h1, h2⟩ := digitChar_digit hn
    have h0 : '0'.toNat = 48 := rfl
    refine ⟨⟨⟨by simp, by simpa using h1⟩, by simp⟩, by simp [JsonText.decimal, h2, h0], fun hpos he => ?_⟩
    simp only [List.head?_cons, Option.some.injEq] at he
    rw [he, h0] at h2
    omega
  · unfold showDigits
    rw [if_neg hn]
    obtain ⟨⟨⟨i1, i2⟩, i3⟩, i4, i5⟩ := ih (n / 10) (by omega)
    obtain ⟨h1, h2⟩ := digitChar_digit (n := n % 10) (by omega)
    have h0 : '0'.toNat = 48 := rfl
    have hpos : 0 < n / 10 := by omega
    have hhead : (showDigits k (n / 10) ++ [digitChar (n % 10)]).head? ≠ some '0' := by
      have := i5 hpos
      cases hs : showDigits k (n / 10) with
      | nil => exact absurd hs i1
      | cons c s => rw [hs] at this; simpa using this
    refine ⟨⟨⟨by simp, ?_⟩, fun h => absurd h hhead⟩, ?_, fun _ => hhead⟩
    · intro c hc
      rcases List.mem_append.1 hc with hc | hc
      · exact i2 c hc
      · simp only [List.mem_singleton] at hc
        rw [hc]; exact h1
    · rw [decimal_append, i4, h2, h0]
      omega

theorem showNat_spec (n : Nat) : JsonText.IntPart (showNat n) ∧ JsonText.decimal (showNat n) = n ∧ (0 < n → (showNat n).head? ≠ some '0') :=
  showDigits_spec (n + 1) n (by omega)

theorem showInt_number {finite : Str → Prop} {n : Int} (h : -2 ^ 63 ≤ n ∧ n < 2 ^ 64) : JsonText.Number finite (showInt n) (.int n) := by
  unfold showInt
  split
  · rename_i h0
    obtain ⟨h1, h2, -⟩ := showNat_spec n.toNat
    have := JsonText.Number.nat (finite := finite) h1 (by rw [h2]; omega)
    rw [h2] at this
    rwa [Int.toNat_of_nonneg h0] at this
  · rename_i h0
    obtain ⟨h1, h2, -⟩ := showNat_spec n.natAbs
    have := JsonText.Number.neg (finite := finite) h1 (by rw [h2]; omega) (by rw [h2]; omega)
    rw [h2] at this
    have e : (-(n.natAbs : Int)) = n := by omega
    rwa [e] at this

theorem hexChar_digit {n : Nat} (h : n < 16) : DigitOf 16 (hexChar n) n := by
  have hn : n = 0 ∨ n = 1 ∨ n = 2 ∨ n = 3 ∨ n = 4 ∨ n = 5 ∨ n = 6 ∨ n = 7 ∨ n = 8 ∨ n = 9 ∨ n = 10 ∨ n = 11 ∨ n = 12 ∨ n = 13 ∨ n = 14 ∨ n = 15 := by omega
  rcases hn with rfl | rfl | rfl | rfl | rfl | rfl | rfl | rfl | rfl | rfl | rfl | rfl | rfl | rfl | rfl | rfl <;> exact ⟨by decide, Or.inl rfl⟩

theorem escapeChar_strChar (c : Char) : JsonText.StrChar (escapeChar c) c := by
  by_cases h0 : c = '"'
  · subst h0; exact JsonText.StrChar.short (e := '"') (by simp)
  by_cases h1 : c = '\\'
  · subst h1; exact JsonText.StrChar.short (e := '\\') (by simp)
  by_cases h2 : c = '\x08'
  · subst h2; exact JsonText.StrChar.short (e := 'b') (by simp)
  by_cases h3 : c = '\x0c'
  · subst h3; exact JsonText.StrChar.short (e := 'f') (by simp)
  by_cases h4 : c = '\n'
  · subst h4; exact JsonText.StrChar.short (e := 'n') (by simp)
  by_cases h5 : c = '\r'
  · subst h5; exact JsonText.StrChar.short (e := 'r') (by simp)
  by_cases h6 : c = '\t'
  · subst h6; exact JsonText.StrChar.short (e := 't') (by simp)
  simp only [escapeChar, h0, h1, h2, h3, h4, h5, h6, if_false]
  split
  · exact .unit ⟨'0', '0', _, _, 0, 0, c.toNat / 16, c.toNat % 16, rfl, ⟨by decide, Or.inl rfl⟩, ⟨by decide, Or.inl rfl⟩, hexChar_digit (by omega), hexChar_digit (by omega), by omega⟩
  · exact .plain h0 h1 (by omega)

theorem showString_string (s : Str) : JsonText.String (showString s) s := by
  refine ⟨s.flatMap escapeChar, rfl, ?_⟩
  induction s with
  | nil => exact .nil
  | cons c s ih => rw [List.flatMap_cons]; exact .cons (escapeChar_strChar c) ih

/-- A format that adds only white space. -/
structure JsonFormat.Ok (f : JsonFormat) : Prop where
  newLine : ∀ l, JsonText.Space (f.newLine l)
  colon : ∃ w, f.colon = ':' :: w ∧ JsonText.Space w

theorem pretty_ok : JsonFormat.Ok .pretty := by
  refine ⟨fun l c hc => ?_, [' '], rfl, by simp [JsonText.Space]⟩
  simp only [JsonFormat.pretty, List.mem_cons, List.mem_replicate] at hc
  rcases hc with h | h
  · simp [h]
  · simp [h.2]

theorem compact_ok : JsonFormat.Ok .compact := ⟨fun l c hc => by simp [JsonFormat.compact] at hc, [], rfl, by simp [JsonText.Space]⟩

theorem space_nil : JsonText.Space [] := by simp [JsonText.Space]

mutual
theorem jsonText_value {finite : Str → Prop} {f : JsonFormat} (hf : f.Ok) (l : Nat) : (j : Json) → Json.Plain j → JsonText.Value finite (jsonText f l j) j
  | .null, _ => by rw [jsonText]; exact .null
  | .bool true, _ => by rw [jsonText]; exact .true
  | .bool false, _ => by rw [jsonText]; exact .false
  | .int n, h => by rw [jsonText]; exact .number (showInt_number (by simpa [Json.Plain] using h))
  | .float, h => by simp [Json.Plain] at h
  | .str s, _ => by rw [jsonText]; exact .string (showString_string s)
  | .arr [], _ => by rw [jsonText]; exact .emptyArray space_nil
  | .arr (x :: xs), h => by
    rw [jsonText]
    simp only [Json.Plain, PlainList] at h
    exact .array (jsonText_elements hf (l + 1) xs h.2 (hf.newLine _) (jsonText_value hf (l + 1) x h.1) (hf.newLine l))
  | .obj [], _ => by rw [jsonText]; exact .emptyObject space_nil
  | .obj ((k, x) :: kvs), h => by
    rw [jsonText]
    simp only [Json.Plain, PlainPairs] at h
    obtain ⟨w, hc, hw⟩ := hf.colon
    have := jsonText_members (finite := finite) hf (l + 1) kvs h.2 (hf.newLine (l + 1)) (showString_string k) hw (jsonText_value hf (l + 1) x h.1) (hf.newLine l)
    rw [hc]
    exact .object this
theorem jsonText_elements {finite : Str → Prop} {f : JsonFormat} (hf : f.Ok) (l : Nat) : (xs : List Json) → PlainList xs → ∀ {w t w' : Str} {x : Json}, JsonText.Space w → JsonText.Value finite t x →
    JsonText.Space w' → JsonText.Elements finite (w ++ t ++ jsonTextRest f l xs ++ w') (x :: xs)
  | [], _, _, _, _, _, hw, ht, hw' => by
    rw [jsonTextRest, List.append_nil]; exact .one hw ht hw'
  | y :: ys, h, w, t, w', x, hw, ht, hw' => by
    rw [jsonTextRest]
    simp only [PlainList] at h
    have := JsonText.Elements.more hw ht space_nil (jsonText_elements hf l ys h.2 (hf.newLine l) (jsonText_value hf l y h.1) hw')
    simpa using this
theorem jsonText_members {finite : Str → Prop} {f : JsonFormat} (hf : f.Ok) (l : Nat) : (kvs : List (Str × Json)) → PlainPairs kvs → ∀ {w k w2 t w' key : Str} {x : Json}, JsonText.Space w →
    JsonText.String k key → JsonText.Space w2 → JsonText.Value finite t x →
    JsonText.Space w' → JsonText.Members finite (w ++ k ++ (':' :: w2) ++ t ++ jsonTextPairs f l kvs ++ w') ((key, x) :: kvs)
  | [], _, _, _, _, _, _, _, _, hw, hk, hw2, ht, hw' => by
    rw [jsonTextPairs, List.append_nil]
    have := JsonText.Members.one hw hk space_nil hw2 ht hw'
    simpa using this
  | (k', y) :: ys, h, w, k, w2, t, w', key, x, hw, hk, hw2, ht, hw' => by
    rw [jsonTextPairs]
    simp only [PlainPairs] at h
    obtain ⟨w3, hc, hw3⟩ := hf.colon
    have := JsonText.Members.more hw hk space_nil hw2 ht space_nil (jsonText_members hf l ys h.2 (hf.newLine l) (showString_string k') hw3 (jsonText_value hf l y h.1) hw')
    rw [hc]
    simpa using this
end

mutual
/-- Comparing documents. -/
def Json.same : Json → Json → Bool
  | .null, .null => true
  | .bool a, .bool b => a == b
  | .int m, .int n => m == n
  | .float, .float => true
  | .str s, .str t => s == t
  | .arr xs, .arr ys => sameList xs ys
  | .obj xs, .obj ys => samePairs xs ys
  | _, _ => false
def sameList : List Json → List Json → Bool
  | [], [] => true
  | x :: xs, y :: ys => Json.same x y && sameList xs ys
  | _, _ => false
def samePairs : List (Str × Json) → List (Str × Json) → Bool
  | [], [] => true
  | (k, x) :: xs, (l, y) :: ys => k == l && Json.same x y && samePairs xs ys
  | _, _ => false
end

mutual
theorem same_iff : (x y : Json) → Json.same x y = true ↔ x = y
  | .null, y => by cases y <;> simp [Json.same]
  | .bool a, y => by cases y <;> simp [Json.same]
  | .int m, y => by cases y <;> simp [Json.same]
  | .float, y => by cases y <;> simp [Json.same]
  | .str s, y => by cases y <;> simp [Json.same]
  | .arr xs, .arr ys => by simp [Json.same, sameList_iff xs ys]
  | .obj xs, .obj ys => by simp [Json.same, samePairs_iff xs ys]
  | .arr xs, .null | .arr xs, .bool _ | .arr xs, .int _ | .arr xs, .float | .arr xs, .str _ | .arr xs, .obj _ => by simp [Json.same]
  | .obj xs, .null | .obj xs, .bool _ | .obj xs, .int _ | .obj xs, .float | .obj xs, .str _ | .obj xs, .arr _ => by simp [Json.same]
theorem sameList_iff : (xs ys : List Json) → sameList xs ys = true ↔ xs = ys
  | [], [] | [], _ :: _ | _ :: _, [] => by simp [sameList]
  | x :: xs, y :: ys => by simp [sameList, same_iff x y, sameList_iff xs ys]
theorem samePairs_iff : (xs ys : List (Str × Json)) → samePairs xs ys = true ↔ xs = ys
  | [], [] | [], _ :: _ | _ :: _, [] => by simp [samePairs]
  | (k, x) :: xs, (l, y) :: ys => by simp [samePairs, same_iff x y, samePairs_iff xs ys]
end

instance : DecidableEq Json := fun x y => decidable_of_iff _ (same_iff x y)

theorem doc_of_value {finite : Str → Prop} {t : Str} {j : Json} (h : JsonText.Value finite t j) : JsonText.Doc finite t j :=
  ⟨[], t, [], by simp, space_nil, h, space_nil⟩

theorem parseJson_read {finite : Str → Bool} {s : Str} {j : Json} : parseJson finite s = some j ↔ JsonText.Read finite s j := parseJson_iff

/-- A file is read as a document exactly if it is one. -/
theorem parseJsonBytes_iff {finite : Str → Bool} {data : List UInt8} {j : Json} : parseJsonBytes finite data = some j ↔ JsonText.File finite data j := by
  unfold parseJsonBytes JsonText.File
  rw [Option.bind_eq_some_iff]
  constructor
  · rintro ⟨s, h1, h2⟩
    exact ⟨s, decodeUtf8_eq_some.mp h1, parseJson_read.mp h2⟩
  · rintro ⟨s, h1, h2⟩
    exact ⟨s, decodeUtf8_eq_some.mpr h1, parseJson_read.mpr h2⟩

theorem parseJsonBytes_none {finite : Str → Bool} {data : List UInt8} : parseJsonBytes finite data = none ↔ ∀ j, ¬ JsonText.File finite data j := by
  rw [Option.eq_none_iff_forall_ne_some]
  exact forall_congr' fun j => not_congr parseJsonBytes_iff

theorem parseJsonBytes_utf8 (finite : Str → Bool) (s : Str) : parseJsonBytes finite (utf8 s) = parseJson finite s := by
  unfold parseJsonBytes
  rw [decodeUtf8_utf8]
  rfl

end Verif.Model
