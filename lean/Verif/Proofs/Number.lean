import Verif.Spec.TokenFilter
import Verif.Proofs.Monad
import Verif.Proofs.Basic
import Mathlib.Tactic.Ring
/-! Proofs about the number filter. -/
namespace Verif.Model
open Verif.Spec

/-! ### Decimal representations of fixed width -/

/-- The last `w` decimal digits of `m`. -/
def dec : Nat → Nat → Str
  | 0, _ => []
  | w + 1, m => Nat.digitChar (m / 10 ^ w % 10) :: dec w m

theorem digitChar_size (d : Nat) (h : d < 10) : (Nat.digitChar d).utf8Size = 1 := by
  rcases d with _|_|_|_|_|_|_|_|_|_|d <;> first | decide | omega

theorem blen_dec (w m : Nat) : blen (dec w m) = w := by
  induction w with
  | zero => rfl
  | succ w ih => rw [dec, blen, ih, digitChar_size _ (Nat.mod_lt _ (by decide))]; omega

theorem dec_add (w m k : Nat) : dec w (k * 10 ^ w + m) = dec w m := by
  induction w generalizing k with
  | zero => rfl
  | succ w ih =>
    rw [dec, dec]
    have h1 : k * 10 ^ (w + 1) + m = (k * 10) * 10 ^ w + m := by rw [Nat.pow_succ]; ring
    rw [h1, ih]
    congr 2
    rw [Nat.mul_comm, Nat.mul_add_div (Nat.pow_pos (by decide))]
    omega

theorem cons_dec {w m d : Nat} (hd : d < 10) (hm : m < 10 ^ w) : Nat.digitChar d :: dec w m = dec (w + 1) (d * 10 ^ w + m) := by
  rw [dec, dec_add, Nat.mul_comm, Nat.mul_add_div (Nat.pow_pos (by decide)), Nat.div_eq_of_lt hm]
  congr 2
  omega

theorem zeros_dec {w m : Nat} (k : Nat) (hm : m < 10 ^ w) : List.replicate k '0' ++ dec w m = dec (w + k) m := by
  induction k with
  | zero => rfl
  | succ k ih =>
    rw [List.replicate_succ, List.cons_append, ih]
    have := cons_dec (d := 0) (by decide) (Nat.lt_of_lt_of_le hm (Nat.pow_le_pow_right (by decide) (Nat.le_add_right w k)))
    rw [Nat.zero_mul, Nat.zero_add] at this
    exact this

theorem dec_snoc (w m : Nat) : dec (w + 1) m = dec w (m / 10) ++ [Nat.digitChar (m % 10)] := by
  induction w with
  | zero => simp [dec]
  | succ w ih =>
    rw [dec, ih, dec, List.cons_append]
    congr 3
    rw [Nat.div_div_eq_div_mul, Nat.pow_succ, Nat.mul_comm]

theorem dec_eq_toDigits {w m : Nat} (h1 : 10 ^ w ≤ m) (h2 : m < 10 ^ (w + 1)) : dec (w + 1) m = Nat.toDigits 10 m := by
  induction w generalizing m with
  | zero => rw [Nat.toDigits_of_lt_base (by simpa using h2)]; simp [dec]; congr 1; omega
  | succ w ih =>
    have h10 : 10 ≤ m := calc 10 = 10 ^ 1 := rfl
      _ ≤ 10 ^ (w + 1) := Nat.pow_le_pow_right (by decide) (by omega)
      _ ≤ m := h1
    rw [Nat.toDigits_of_base_le (by decide) h10, dec_snoc, ih]
    · rw [Nat.le_div_iff_mul_le (by decide)]; rwa [Nat.pow_succ] at h1
    · rw [Nat.div_lt_iff_lt_mul (by decide)]; rwa [Nat.pow_succ] at h2

/-! ### The scan -/

/-- The loop on a piece of the reversed text, `next` the character after the piece. -/
def scan : List Char → Option Char → Str × Str → R (Str × Str)
  | [], _, st => .ok st
  | c :: rest, next, st => do
    let st ← numeralStep c (rest.head?.or next) st.1 st.2
    scan rest next st

theorem numeralLoop_eq (xs : List Char) (buf dig : Str) : numeralLoop xs buf dig = (scan xs none (buf, dig)).map (·.1) := by
  induction xs generalizing buf dig with
  | nil => rfl
  | cons c rest ih =>
    rw [numeralLoop, scan, Option.or_none]
    cases numeralStep c rest.head? buf dig with
    | error e => rfl
    | ok st => simp only [bind_ok]; exact ih _ _

theorem scan_append (xs ys : List Char) (next : Option Char) (st : Str × Str) :
    scan (xs ++ ys) next st = (scan xs (ys.head?.or next) st >>= scan ys next) := by
  induction xs generalizing st with
  | nil => rfl
  | cons c rest ih =>
    rw [List.cons_append, scan, scan]
    have : (rest ++ ys).head?.or next = rest.head?.or (ys.head?.or next) := by
      cases rest <;> simp
    rw [this]
    cases numeralStep c (rest.head?.or (ys.head?.or next)) st.1 st.2 with
    | error e => rfl
    | ok st => simp only [bind_ok]; exact ih _

theorem blen_zeros (k : Nat) : blen (List.replicate k '0') = k := by
  induction k with
  | zero => rfl
  | succ k ih => rw [List.replicate_succ, blen, ih, show ('0' : Char).utf8Size = 1 from by decide]; omega

theorem adjust_zeros {num : Str} {a b : Nat} (h : blen num ≤ a + b) :
    adjustDigits num (List.replicate a '0') (List.replicate b '0') = .ok (List.replicate (a + b - blen num) '0' ++ num) := by
  unfold adjustDigits
  rw [← List.replicate_add]
  dsimp only
  rw [blen_zeros, if_pos h]
  have : sliceBytes (List.replicate (a + b) '0') 0 (a + b - blen num) = some (List.replicate (a + b - blen num) '0') := by
    rw [sliceBytes_eq_some]
    refine ⟨[], List.replicate (blen num) '0', ?_, rfl, by rw [blen_zeros]; simp [blen]⟩
    rw [List.nil_append, ← List.replicate_add]; congr 1; omega
  rw [this]; rfl

theorem adjust_dec {v m a b : Nat} (hm : m < 10 ^ v) (h : v ≤ a + b) :
    adjustDigits (dec v m) (List.replicate a '0') (List.replicate b '0') = .ok (dec (a + b) m) := by
  rw [adjust_zeros (by rw [blen_dec]; exact h), blen_dec, zeros_dec _ hm]
  congr 2; omega

theorem digitForms_digit {d : Nat} {c : Char} (hd : d ≤ 9) (h : c ∈ digitForms d) : numeralDigit c = some (Nat.digitChar d) := by
  rcases d with _|_|_|_|_|_|_|_|_|_|d
  all_goals first
    | omega
    | (revert c; decide)

theorem step_digit {d : Nat} {c : Char} {next : Option Char} {buf dig : Str} (hd : d ≤ 9) (h : c ∈ digitForms d) :
    numeralStep c next buf dig = .ok (Nat.digitChar d :: buf, dig) := by
  unfold numeralStep; rw [digitForms_digit hd h]

/-- The large units. -/
def largeUnits : List Char := ['万', '億', '兆', '京', '垓']

/-- What may precede a group of four digits: nothing or a large unit. -/
def GroupEnd (next : Option Char) : Prop := next = none ∨ ∃ u ∈ largeUnits, next = some u

theorem step_small {c : Char} {u : NumberUnit} {i W : Nat} (hc : numeralDigit c = none) (hu : numberUnit c = some u)
    (hb : u.base = List.replicate i '0') (hl : u.large = none) {next : Option Char} {v m : Nat} (hm : m < 10 ^ v) (hv : v ≤ i + W) :
    numeralStep c next (dec v m) (List.replicate W '0') =
      .ok (if oneOmitted u.before next then '1' :: dec (i + W) m else dec (i + W) m,
        List.replicate W '0') := by
  unfold numeralStep
  rw [hc, hu]
  dsimp only
  unfold NumberUnit.apply
  rw [hb, hl]
  simp only [Option.getD_none]
  rw [adjust_dec hm hv]
  rfl

/-- The state of the scan inside a group above `W` digits: `v` digits that make up `m`, as many as needed unless nothing of the group has been read. -/
structure Partial (W v m : Nat) : Prop where
  lt : m < 10 ^ v
  le : v = W ∨ (W < v ∧ 10 ^ (v - 1) ≤ m)

theorem place_spec {units : List Char} {d : Nat} {s : Str} (h : Place units d s) {u : NumberUnit} {i W : Nat}
    (hu : ∀ c ∈ units, numeralDigit c = none ∧ numberUnit c = some u) (hb : u.base = List.replicate i '0') (hl : u.large = none)
    {next : Option Char} (hnext : oneOmitted u.before next = true)
    (hdig : ∀ d ≤ 9, ∀ c ∈ digitForms d, c ∉ u.before) {v m : Nat} (hp : Partial W v m) (hv : v ≤ i + W) (hi : 0 < i) :
    ∃ v', scan s.reverse next (dec v m, List.replicate W '0') = .ok (dec v' (d * 10 ^ (i + W) + m), List.replicate W '0') ∧
      Partial W v' (d * 10 ^ (i + W) + m) ∧ v' ≤ i + 1 + W := by
  have hm' : m < 10 ^ (i + W) := Nat.lt_of_lt_of_le hp.lt (Nat.pow_le_pow_right (by decide) hv)
  have hpart : ∀ d, 1 ≤ d → d ≤ 9 → Partial W (i + W + 1) (d * 10 ^ (i + W) + m) := by
    intro d h1 h9
    refine ⟨?_, .inr ⟨by omega, ?_⟩⟩
    · rw [Nat.pow_succ]
      have : d * 10 ^ (i + W) ≤ 9 * 10 ^ (i + W) := Nat.mul_le_mul_right _ h9
      omega
    · rw [Nat.add_sub_cancel]
      have : 1 * 10 ^ (i + W) ≤ d * 10 ^ (i + W) := Nat.mul_le_mul_right _ h1
      omega
  cases h with
  | zero => exact ⟨v, by simp [scan], by simpa using hp, by omega⟩
  | omitted hc =>
    obtain ⟨hc1, hc2⟩ := hu _ hc
    refine ⟨i + W + 1, ?_, hpart 1 (by decide) (by decide), by omega⟩
    rw [List.reverse_singleton, scan, List.head?_nil, Option.none_or, step_small hc1 hc2 hb hl hp.lt hv, if_pos hnext, bind_ok, scan]
    rw [← cons_dec (d := 1) (by decide) hm']; rfl
  | digit h1 h9 hdc hc =>
    rename_i c' u'
    obtain ⟨hc1, hc2⟩ := hu _ hc
    refine ⟨i + W + 1, ?_, hpart d h1 h9, by omega⟩
    have : oneOmitted u.before (some c') = false := by
      simpa [oneOmitted] using hdig d h9 c' hdc
    rw [show [c', u'].reverse = [u', c'] from rfl, scan, List.head?_cons, Option.some_or, step_small hc1 hc2 hb hl hp.lt hv, this, bind_ok, scan,
      step_digit h9 hdc, bind_ok, scan]
    rw [if_neg (by decide), cons_dec (by omega) hm']

/-- The last character of a place or group text is one of these. -/
theorem place_head {units : List Char} {d : Nat} {s : Str} (h : Place units d s) : s = [] ∨ ∃ u ∈ units, s.getLast? = some u := by
  cases h with
  | zero => exact .inl rfl
  | omitted hc => exact .inr ⟨_, hc, rfl⟩
  | digit _ _ _ hc => exact .inr ⟨_, hc, rfl⟩

theorem digitForms_not_unit : ∀ d ≤ 9, ∀ c ∈ digitForms d, c ∉ unitChars := by
  intro d hd c hc
  rcases d with _|_|_|_|_|_|_|_|_|_|d
  all_goals first
    | omega
    | (revert c; decide)

theorem group_spec {g : Nat} {t : Str} (h : Below10000 g t) {next : Option Char} (hnext : GroupEnd next) {W n : Nat} (hn : n < 10 ^ W) :
    ∃ v, scan t.reverse next (dec W n, List.replicate W '0') = .ok (dec v (g * 10 ^ W + n), List.replicate W '0') ∧
      Partial W v (g * 10 ^ W + n) ∧ v ≤ W + 4 := by
  obtain ⟨h3, h2, h1, h0⟩ := h
  rename_i a b c d s3 s2 s1 s0
  have e : (s3 ++ s2 ++ s1 ++ s0).reverse = s0.reverse ++ (s1.reverse ++ (s2.reverse ++ s3.reverse)) := by simp
  rw [e]
  -- ones
  have ones : ∀ nx, ∃ v, scan s0.reverse nx (dec W n, List.replicate W '0') = .ok (dec v (d * 10 ^ W + n), List.replicate W '0') ∧
      Partial W v (d * 10 ^ W + n) ∧ v ≤ 1 + W := by
    intro nx
    cases h0 with
    | zero => exact ⟨W, by simp [scan], ⟨by simpa using hn, .inl rfl⟩, by omega⟩
    | digit hd1 hd9 hc =>
      refine ⟨W + 1, ?_, ⟨?_, .inr ⟨by omega, ?_⟩⟩, by omega⟩
      · rw [List.reverse_singleton, scan, step_digit hd9 hc, bind_ok, scan, cons_dec (by omega) hn]
      · rw [Nat.pow_succ]
        have : d * 10 ^ W ≤ 9 * 10 ^ W := Nat.mul_le_mul_right _ hd9
        omega
      · rw [Nat.add_sub_cancel]
        have : 1 * 10 ^ W ≤ d * 10 ^ W := Nat.mul_le_mul_right _ hd1
        omega
  have notUnit : ∀ l : List Char, (∀ c ∈ l, c ∈ unitChars) → ∀ d ≤ 9, ∀ c ∈ digitForms d, c ∉ l :=
    fun l hl d hd c hc hcl => digitForms_not_unit d hd c hc (hl c hcl)
  have hrev : ∀ s : Str, s.reverse.head? = s.getLast? := fun s => by simp
  -- the character before each place
  have next3 : oneOmitted ['万', '億', '兆', '京', '垓'] next = true := by
    rcases hnext with rfl | ⟨u, hu, rfl⟩
    · rfl
    · simpa [oneOmitted, largeUnits] using hu
  have next2 : oneOmitted ['千', '万', '億', '兆', '京', '垓'] (s3.reverse.head?.or next) = true := by
    rw [hrev]
    rcases place_head h3 with rfl | ⟨u, hu, hl⟩
    · rcases hnext with rfl | ⟨u, hu, rfl⟩
      · rfl
      · simp [oneOmitted, largeUnits] at hu ⊢; exact .inr hu
    · rw [hl]; simp [oneOmitted] at hu ⊢; exact .inl hu
  have next1 : oneOmitted ['百', '千', '万', '億', '兆', '京', '垓'] ((s2.reverse ++ s3.reverse).head?.or next) = true := by
    rcases place_head h2 with rfl | ⟨u, hu, hl⟩
    · rw [List.reverse_nil, List.nil_append, hrev]
      rcases place_head h3 with rfl | ⟨u, hu, hl⟩
      · rcases hnext with rfl | ⟨u, hu, rfl⟩
        · rfl
        · simp [oneOmitted, largeUnits] at hu ⊢; exact .inr (.inr hu)
      · rw [hl]; simp [oneOmitted] at hu ⊢; exact .inr (.inl hu)
    · rw [List.head?_append, hrev, hl]; simp [oneOmitted] at hu ⊢; exact .inl hu
  obtain ⟨v0, e0, p0, l0⟩ := ones ((s1.reverse ++ (s2.reverse ++ s3.reverse)).head?.or next)
  obtain ⟨v1, e1, p1, l1⟩ := place_spec (W := W) h1 (i := 1) (next := (s2.reverse ++ s3.reverse).head?.or next)
    (fun c hc => by
      simp at hc
      rcases hc with rfl | rfl
      · exact ⟨by decide, rfl⟩
      · exact ⟨by decide, rfl⟩) rfl rfl next1 (notUnit _ (by decide)) p0 l0 (by decide)
  obtain ⟨v2, e2, p2, l2⟩ := place_spec (W := W) h2 (i := 2) (next := s3.reverse.head?.or next)
    (fun c hc => by
      simp at hc; subst hc
      exact ⟨by decide, rfl⟩) rfl rfl next2 (notUnit _ (by decide)) p1 l1 (by decide)
  obtain ⟨v3, e3, p3, l3⟩ := place_spec (W := W) h3 (i := 3) (next := next)
    (fun c hc => by
      simp at hc; subst hc
      exact ⟨by decide, rfl⟩) rfl rfl next3 (notUnit _ (by decide)) p2 l2 (by decide)
  have hval : a * 10 ^ (3 + W) + (b * 10 ^ (2 + W) + (c * 10 ^ (1 + W) + (d * 10 ^ W + n))) = (1000 * a + 100 * b + 10 * c + d) * 10 ^ W + n := by
    rw [Nat.pow_add, Nat.pow_add, Nat.pow_add]; ring
  rw [hval] at e3 p3
  refine ⟨v3, ?_, p3, by omega⟩
  rw [scan_append, e0, bind_ok, scan_append, e1, bind_ok, scan_append, e2, bind_ok, e3]

theorem below10000_lt {g : Nat} {t : Str} (h : Below10000 g t) : g < 10000 := by
  obtain ⟨h3, h2, h1, h0⟩ := h
  have : ∀ {us d s}, Place us d s → d ≤ 9 := by
    intro us d s h; cases h <;> omega
  have h0' : ∀ {d s}, Ones d s → d ≤ 9 := by intro d s h; cases h <;> omega
  have p3 := this h3
  have p2 := this h2
  have p1 := this h1
  have := h0' h0
  omega

/-- A group's text ends with a digit or a small unit. -/
theorem group_last {g : Nat} {t : Str} (hg : 0 < g) (h : Below10000 g t) : ∃ c, t.getLast? = some c ∧ c ∉ largeUnits := by
  obtain ⟨h3, h2, h1, h0⟩ := h
  rename_i a b c d s3 s2 s1 s0
  cases h0 with
  | digit h1 h9 hc =>
    rename_i ch
    refine ⟨ch, by simp, ?_⟩
    intro hl
    exact digitForms_not_unit d h9 ch hc ((by decide : ∀ c ∈ largeUnits, c ∈ unitChars) ch hl)
  | zero =>
    rw [List.append_nil]
    rcases place_head h1 with rfl | ⟨u, hu, hl⟩
    · rw [List.append_nil]
      rcases place_head h2 with rfl | ⟨u, hu, hl⟩
      · rw [List.append_nil]
        rcases place_head h3 with rfl | ⟨u, hu, hl⟩
        · have := h1; have := h2; have := h3
          cases h1; cases h2; cases h3; simp at hg
        · exact ⟨u, hl, by simp at hu; subst hu; decide⟩
      · exact ⟨u, by rw [List.getLast?_append, hl]; rfl, by simp at hu; subst hu; decide⟩
    · exact ⟨u, by rw [List.getLast?_append, hl]; rfl, by simp at hu; rcases hu with rfl | rfl <;> decide⟩

/-- The scan of a numeral of `k` groups from the empty state. -/
theorem groups_spec {k n : Nat} {s : Str} (hk : k ≤ 6) (h : Groups k n s) {next : Option Char} (hnext : GroupEnd next) :
    n < 10 ^ (4 * k) ∧ ∃ v dig, scan s.reverse next ([], []) = .ok (dec v n, dig) ∧ v ≤ 4 * k ∧
      (n = 0 → v = 0 ∧ dig = []) ∧ (0 < n → 0 < v ∧ 10 ^ (v - 1) ≤ n ∧ n < 10 ^ v) := by
  induction h generalizing next with
  | none => exact ⟨by simp, 0, [], rfl, by simp, fun _ => ⟨rfl, rfl⟩, by simp⟩
  | skip h ih =>
    obtain ⟨hlt, v, dig, h1, h2, h3, h4⟩ := ih (by omega) hnext
    refine ⟨Nat.lt_of_lt_of_le hlt (Nat.pow_le_pow_right (by decide) (by omega)), v, dig, h1, by omega, h3, h4⟩
  | group hg hbelow hs ih =>
    rename_i k n s g t
    obtain ⟨c, hc, hcl⟩ := group_last hg hbelow
    have hg4 := below10000_lt hbelow
    have hpow : (10000 : Nat) ^ k = 10 ^ (4 * k) := by rw [Nat.pow_mul]
    have fin : ∀ v, Partial (4 * k) v (g * 10 ^ (4 * k) + n) → 10 ^ (v - 1) ≤ g * 10 ^ (4 * k) + n ∧ 0 < v := by
      intro v hp
      have hge : 1 * 10 ^ (4 * k) ≤ g * 10 ^ (4 * k) := Nat.mul_le_mul_right _ hg
      rcases hp.le with rfl | ⟨h1, h2⟩
      · have := hp.lt; omega
      · exact ⟨h2, by omega⟩
    have hlt' : ∀ n, n < 10 ^ (4 * k) → g * 10 ^ (4 * k) + n < 10 ^ (4 * (k + 1)) := by
      intro n hn
      have : g * 10 ^ (4 * k) ≤ 9999 * 10 ^ (4 * k) := Nat.mul_le_mul_right _ (by omega)
      have e : (10 : Nat) ^ (4 * (k + 1)) = 10000 * 10 ^ (4 * k) := by rw [Nat.mul_add, Nat.pow_add]; ring
      omega
    rw [hpow]
    have hrev : (t ++ largeUnit k ++ s).reverse = s.reverse ++ ((largeUnit k).reverse ++ t.reverse) := by simp
    have hthead : t.reverse.head? = some c := by rw [List.head?_reverse]; exact hc
    by_cases hk0 : k = 0
    · subst hk0
      obtain ⟨rfl, rfl⟩ : n = 0 ∧ s = [] := by cases hs; exact ⟨rfl, rfl⟩
      obtain ⟨v, h1, h2, h3⟩ := group_spec hbelow hnext (W := 0) (n := 0) (by decide)
      have hgp := fin v h2
      refine ⟨hlt' 0 (by simp), v, [], ?_, by omega, fun h => absurd h (by simp; omega), fun _ => ⟨hgp.2, hgp.1, h2.lt⟩⟩
      rw [hrev]
      exact h1
    · -- the large unit
      obtain ⟨u, W, hlu, hmem, hdn, hun, hW⟩ : ∃ u W, largeUnit k = [u] ∧ u ∈ largeUnits ∧ numeralDigit u = none ∧
          (∃ nu, numberUnit u = some nu ∧ nu.base = [] ∧ nu.large = some (List.replicate W '0') ∧ ∀ c ∈ nu.before, c ∈ largeUnits) ∧ W = 4 * k := by
        rcases k with _|_|_|_|_|_|k
        · exact absurd rfl hk0
        · exact ⟨'万', 4, rfl, by decide, by decide, ⟨_, rfl, rfl, rfl, by decide⟩, rfl⟩
        · exact ⟨'億', 8, rfl, by decide, by decide, ⟨_, rfl, rfl, rfl, by decide⟩, rfl⟩
        · exact ⟨'兆', 12, rfl, by decide, by decide, ⟨_, rfl, rfl, rfl, by decide⟩, rfl⟩
        · exact ⟨'京', 16, rfl, by decide, by decide, ⟨_, rfl, rfl, rfl, by decide⟩, rfl⟩
        · exact ⟨'垓', 20, rfl, by decide, by decide, ⟨_, rfl, rfl, rfl, by decide⟩, rfl⟩
        · omega
      obtain ⟨nu, hnu, hbase, hlarge, hbefore⟩ := hun
      obtain ⟨hlt, v, dig, h1, h2, h3, h4⟩ := ih (by omega) (next := some u) (.inr ⟨u, hmem, rfl⟩)
      subst hW
      obtain ⟨w, g1, g2, g3⟩ := group_spec hbelow hnext (W := 4 * k) (n := n) hlt
      have hgp := fin w g2
      refine ⟨hlt' n hlt, w, List.replicate (4 * k) '0', ?_, by omega, fun h => absurd h ?_, fun _ => ⟨hgp.2, hgp.1, g2.lt⟩⟩
      · rw [hrev, hlu, List.reverse_singleton, scan_append]
        have : ([u] ++ t.reverse).head?.or next = some u := by simp
        rw [this, h1, bind_ok, scan_append, hthead, Option.some_or]
        have hstep : scan [u] (some c) (dec v n, dig) = .ok (dec (4 * k) n, List.replicate (4 * k) '0') := by
          rw [scan, List.head?_nil, Option.none_or]
          unfold numeralStep
          rw [hdn, hnu]
          dsimp only
          unfold NumberUnit.apply
          rw [hbase, hlarge]
          simp only [Option.getD_some]
          have hnv : n < 10 ^ v := by
            rcases Nat.eq_zero_or_pos n with h0 | hpos
            · rw [h0]; exact Nat.pow_pos (by decide)
            · exact (h4 hpos).2.2
          have := adjust_dec (a := 0) (b := 4 * k) hnv (by omega)
          rw [List.replicate_zero, Nat.zero_add] at this
          rw [this, bind_ok]
          have hnb : nu.before.contains c = false := by
            rw [Bool.eq_false_iff, ne_eq, List.contains_iff_mem]
            exact fun h => hcl (hbefore c h)
          simp only [oneOmitted, hnb, Bool.false_eq_true, if_false]
          rfl
        rw [hstep, bind_ok, g1]
      · have hge : 1 * 10 ^ (4 * k) ≤ g * 10 ^ (4 * k) := Nat.mul_le_mul_right _ hg
        have : 0 < 10 ^ (4 * k) := Nat.pow_pos (by decide)
        omega

theorem toArabic_numeral {n : Nat} {s : Str} (h : KanjiNumeral n s) : toArabicNumerals s = .ok (Nat.toDigits 10 n) := by
  unfold toArabicNumerals
  rw [numeralLoop_eq]
  cases h with
  | zero hc =>
    rw [List.reverse_singleton, scan, step_digit (by decide) hc, bind_ok, scan]; rfl
  | pos hpos hg =>
    obtain ⟨_, v, dig, h1, _, _, h4⟩ := groups_spec (by decide) hg (next := none) (.inl rfl)
    obtain ⟨hv, ha, hb⟩ := h4 hpos
    rw [h1]
    obtain ⟨w, rfl⟩ : ∃ w, v = w + 1 := ⟨v - 1, by omega⟩
    rw [← dec_eq_toDigits ha hb]; rfl

/-! ### Every number has a numeral -/

theorem exists_form {d : Nat} (hd : d ≤ 9) : ∃ c, c ∈ digitForms d := by
  rcases d with _|_|_|_|_|_|_|_|_|_|d
  all_goals first
    | omega
    | exact ⟨_, List.mem_cons_self⟩

theorem exists_place {units : List Char} {u : Char} (hu : u ∈ units) {d : Nat} (hd : d ≤ 9) : ∃ s, Place units d s := by
  rcases Nat.eq_zero_or_pos d with rfl | hpos
  · exact ⟨_, .zero⟩
  · obtain ⟨c, hc⟩ := exists_form hd
    exact ⟨_, .digit hpos hd hc hu⟩

theorem exists_below10000 {g : Nat} (hg : g < 10000) : ∃ s, Below10000 g s := by
  obtain ⟨s3, h3⟩ := exists_place (units := ['千']) (u := '千') (by simp) (d := g / 1000) (by omega)
  obtain ⟨s2, h2⟩ := exists_place (units := ['百']) (u := '百') (by simp) (d := g / 100 % 10) (by omega)
  obtain ⟨s1, h1⟩ := exists_place (units := ['十', '拾']) (u := '十') (by simp) (d := g / 10 % 10) (by omega)
  have : ∃ s0, Ones (g % 10) s0 := by
    rcases Nat.eq_zero_or_pos (g % 10) with h | hpos
    · exact ⟨[], h ▸ .zero⟩
    · obtain ⟨c, hc⟩ := exists_form (d := g % 10) (by omega)
      exact ⟨_, .digit hpos (by omega) hc⟩
  obtain ⟨s0, h0⟩ := this
  have e : g = 1000 * (g / 1000) + 100 * (g / 100 % 10) + 10 * (g / 10 % 10) + g % 10 := by omega
  have h := Below10000.mk h3 h2 h1 h0
  rw [← e] at h
  exact ⟨_, h⟩

theorem exists_groups (k n : Nat) (hn : n < 10000 ^ k) : ∃ s, Groups k n s := by
  induction k generalizing n with
  | zero => obtain rfl : n = 0 := by simpa using hn
            exact ⟨_, .none⟩
  | succ k ih =>
    have hpos : 0 < 10000 ^ k := Nat.pow_pos (by decide)
    obtain ⟨s, hs⟩ := ih (n % 10000 ^ k) (Nat.mod_lt _ hpos)
    have hdm := Nat.div_add_mod n (10000 ^ k)
    rcases Nat.eq_zero_or_pos (n / 10000 ^ k) with h0 | hg
    · rw [h0, Nat.mul_zero, Nat.zero_add] at hdm
      rw [hdm] at hs
      exact ⟨s, .skip hs⟩
    · obtain ⟨t, ht⟩ := exists_below10000 (g := n / 10000 ^ k) (by rw [Nat.div_lt_iff_lt_mul hpos]; rw [Nat.pow_succ] at hn; omega)
      have h := Groups.group hg ht hs
      rw [Nat.mul_comm, hdm] at h
      exact ⟨_, h⟩

/-! ### Texts without units -/

theorem numeralDigit_some {c x : Char} (h : numeralDigit c = some x) : ∃ d ≤ 9, c ∈ digitForms d ∧ x = Nat.digitChar d := by
  have hx : ∀ (d : Nat) (x' : Char) (l : List Char), c ∈ l → (∀ c ∈ l, c ∈ digitForms d) → d ≤ 9 → x' = Nat.digitChar d → some x' = some x →
      ∃ d ≤ 9, c ∈ digitForms d ∧ x = Nat.digitChar d := by
    intro d x' l hc hl hd hx' e
    exact ⟨d, hd, hl c hc, by rw [← Option.some.inj e, hx']⟩
  unfold numeralDigit at h
  split at h
  · exact hx 0 _ _ ‹_› (by decide) (by decide) rfl h
  split at h
  · exact hx 1 _ _ ‹_› (by decide) (by decide) rfl h
  split at h
  · exact hx 2 _ _ ‹_› (by decide) (by decide) rfl h
  split at h
  · exact hx 3 _ _ ‹_› (by decide) (by decide) rfl h
  split at h
  · exact hx 4 _ _ ‹_› (by decide) (by decide) rfl h
  split at h
  · exact hx 5 _ _ ‹_› (by decide) (by decide) rfl h
  split at h
  · exact hx 6 _ _ ‹_› (by decide) (by decide) rfl h
  split at h
  · exact hx 7 _ _ ‹_› (by decide) (by decide) rfl h
  split at h
  · exact hx 8 _ _ ‹_› (by decide) (by decide) rfl h
  split at h
  · exact hx 9 _ _ ‹_› (by decide) (by decide) rfl h
  · cases h

theorem numberUnit_none {c : Char} (h : c ∉ unitChars) : numberUnit c = none := by
  unfold unitChars at h
  simp only [List.mem_cons, List.not_mem_nil, or_false, not_or] at h
  unfold numberUnit
  simp [h]

/-- One character that is no unit. -/
theorem step_plain {c : Char} (h : c ∉ unitChars) (next : Option Char) (buf dig : Str) :
    ∃ x dig', numeralStep c next buf dig = .ok (x :: buf, dig') ∧ AsDigit c x := by
  unfold numeralStep
  cases hd : numeralDigit c with
  | some x =>
    obtain ⟨d, h9, hc, rfl⟩ := numeralDigit_some hd
    exact ⟨_, dig, rfl, .digit h9 hc⟩
  | none =>
    rw [numberUnit_none h]
    refine ⟨c, [], rfl, .other ?_⟩
    intro d h9 hc
    rw [digitForms_digit h9 hc] at hd
    cases hd

theorem scan_plain {p : Str} (h : ∀ c ∈ p, c ∉ unitChars) (next : Option Char) (buf dig : Str) :
    ∃ q dig', scan p.reverse next (buf, dig) = .ok (q ++ buf, dig') ∧ List.Forall₂ AsDigit p q := by
  induction p with
  | nil => exact ⟨[], dig, rfl, .nil⟩
  | cons c p ih =>
    obtain ⟨q, dig', h1, h2⟩ := ih (fun c hc => h c (by simp [hc]))
    -- the characters before `c` in the reversed text do not look at `next`
    have hind : ∀ nx, ∃ q dig', scan p.reverse nx (buf, dig) = .ok (q ++ buf, dig') ∧ List.Forall₂ AsDigit p q := by
      intro nx
      have gen : ∀ (l : Str) (st : Str × Str) , (∀ c ∈ l, c ∉ unitChars) → ∀ n1 n2, scan l n1 st = scan l n2 st := by
        intro l
        induction l with
        | nil => intros; rfl
        | cons a l ihl =>
          intro st hl n1 n2
          have hs : ∀ n1 n2, numeralStep a n1 st.1 st.2 = numeralStep a n2 st.1 st.2 := by
            intro n1 n2
            unfold numeralStep
            rw [numberUnit_none (hl a (by simp))]
          rw [scan, scan, hs (l.head?.or n1) (l.head?.or n2)]
          cases numeralStep a (l.head?.or n2) st.1 st.2 with
          | error e => rfl
          | ok st' => simp only [bind_ok]; exact ihl st' (fun c hc => hl c (by simp [hc])) n1 n2
      rw [gen p.reverse (buf, dig) (fun c hc => h c (by simp at hc; simp [hc])) nx next]
      exact ⟨q, dig', h1, h2⟩
    obtain ⟨q2, dig2, e1, e2⟩ := hind (some c)
    obtain ⟨x, dig'', h3, h4⟩ := step_plain (h c (by simp)) next (q2 ++ buf) dig2
    refine ⟨x :: q2, dig'', ?_, .cons h4 e2⟩
    rw [List.reverse_cons, scan_append, List.head?_cons, Option.some_or, e1, bind_ok, scan, List.head?_nil, Option.none_or, h3, bind_ok, scan]
    rfl

theorem toArabic_plain {s : Str} (h : ∀ c ∈ s, c ∉ unitChars) : ∃ out, toArabicNumerals s = .ok out ∧ List.Forall₂ AsDigit s out := by
  obtain ⟨q, dig, h1, h2⟩ := scan_plain h none [] []
  unfold toArabicNumerals
  rw [numeralLoop_eq, h1]
  exact ⟨_, rfl, by simpa using h2⟩

/-- A scan that ends with a digit character does not look further. -/
theorem scan_digit_last {xs : List Char} {d : Nat} {c : Char} (hd : d ≤ 9) (hc : c ∈ digitForms d) (n1 n2 : Option Char) (st : Str × Str) :
    scan (xs ++ [c]) n1 st = scan (xs ++ [c]) n2 st := by
  rw [scan_append, scan_append]
  simp only [List.head?_cons, Option.some_or]
  cases scan xs (some c) st with
  | error e => rfl
  | ok st => simp only [bind_ok, scan, step_digit hd hc]

theorem toArabic_prefix {p s : Str} (h : ∀ c ∈ p, c ∉ unitChars) {n : Nat} (hs : KanjiNumeral n s) {d : Nat} {c : Char} {s' : Str} (hd : d ≤ 9)
    (hc : c ∈ digitForms d) (he : s = c :: s') : ∃ q, toArabicNumerals (p ++ s) = .ok (q ++ Nat.toDigits 10 n) ∧ List.Forall₂ AsDigit p q := by
  have hn := toArabic_numeral hs
  unfold toArabicNumerals at hn ⊢
  rw [numeralLoop_eq] at hn ⊢
  obtain ⟨⟨buf, dig⟩, hscan⟩ : ∃ st, scan s.reverse none ([], []) = .ok st := by
    cases hsc : scan s.reverse none ([], []) with
    | error e => rw [hsc] at hn; cases hn
    | ok st => exact ⟨st, rfl⟩
  rw [hscan] at hn
  have hbuf : buf = Nat.toDigits 10 n := Except.ok.inj hn
  subst hbuf
  obtain ⟨q, dig', h1, h2⟩ := scan_plain h none (Nat.toDigits 10 n) dig
  refine ⟨q, ?_, h2⟩
  rw [List.reverse_append, scan_append]
  have : scan s.reverse (p.reverse.head?.or none) ([], []) = scan s.reverse none ([], []) := by
    rw [he, List.reverse_cons]; exact scan_digit_last hd hc _ _ _
  rw [this, hscan, bind_ok, h1]; rfl

theorem toArabic_panic {p : Str} {c : Char} (hu : c ∉ unitChars) (hd : ∀ d ≤ 9, c ∉ digitForms d) (hsize : 2 ≤ c.utf8Size) :
    toArabicNumerals (p ++ ['十', c]) = .error .panic := by
  have hnd : numeralDigit c = none := by
    cases h : numeralDigit c with
    | none => rfl
    | some x => obtain ⟨d, h9, hc, _⟩ := numeralDigit_some h; exact absurd hc (hd d h9)
  unfold toArabicNumerals
  rw [List.reverse_append, numeralLoop_eq]
  show Except.map _ (scan ([c, '十'] ++ p.reverse) none ([], [])) = _
  rw [scan_append]
  have h1 : ∀ nx, numeralStep c nx [] [] = .ok ([c], []) := by
    intro nx; unfold numeralStep; rw [hnd, numberUnit_none hu]
  have h2 : ∀ nx, numeralStep '十' nx [c] [] = .error .panic := by
    intro nx
    have e1 : numeralDigit '十' = none := by decide
    have e2 : numberUnit '十' = some ⟨['0'], none, ['百', '千', '万', '億', '兆', '京', '垓']⟩ := rfl
    unfold numeralStep
    rw [e1, e2]
    dsimp only
    unfold NumberUnit.apply adjustDigits
    dsimp only [Option.getD_none, List.append_nil]
    rw [if_neg]
    · rfl
    · have : blen ['0'] = 1 := by decide
      rw [List.append_nil, this]; simp [blen]; omega
  simp only [scan, h1, bind_ok, h2, bind_error]
  rfl

end Verif.Model
