import Verif.Spec.NumberLimits
import Verif.Proofs.Number
/-! When the number filter returns. -/
namespace Verif.Model
open Verif.Spec

theorem numberUnit_isSome (c : Char) : (numberUnit c).isSome = decide (0 < unitRank c) := by
  unfold numberUnit unitRank
  repeat' split
  all_goals rfl

theorem numeralDigit_isSome (c : Char) : (numeralDigit c).isSome = isDigit c := by
  cases h : numeralDigit c with
  | some x =>
    obtain ⟨d, hd, hc, _⟩ := numeralDigit_some h
    have : isDigit c = true := by
      unfold isDigit
      rw [List.any_eq_true]
      exact ⟨d, by simp; omega, by simpa using hc⟩
    rw [this]; rfl
  | none =>
    symm
    cases hb : isDigit c with
    | false => rfl
    | true =>
      unfold isDigit at hb
      rw [List.any_eq_true] at hb
      obtain ⟨d, hd, hc⟩ := hb
      rw [List.mem_range] at hd
      rw [digitForms_digit (d := d) (by omega) (by simpa using hc)] at h
      cases h

theorem digit_size {c x : Char} (h : numeralDigit c = some x) : x.utf8Size = 1 := by
  obtain ⟨d, hd, _, rfl⟩ := numeralDigit_some h
  exact digitChar_size d (by omega)

theorem digit_rank {c : Char} (h : isDigit c = true) : unitRank c = 0 := by
  rw [isDigit, List.any_eq_true] at h
  obtain ⟨d, hd, hc⟩ := h
  rw [List.mem_range] at hd
  rw [List.contains_iff_mem] at hc
  rcases d with _|_|_|_|_|_|_|_|_|_|d
  all_goals first
    | omega
    | (revert c; decide)

/-- A unit as the model has it. -/
theorem numberUnit_spec {c : Char} {u : NumberUnit} (h : numberUnit c = some u) :
    (4 ≤ unitRank c → u.base = [] ∧ u.large = some (List.replicate (unitZeros c) '0')) ∧
    (unitRank c < 4 → u.base = List.replicate (unitZeros c) '0' ∧ u.large = none) ∧
    ∀ n, u.before.contains n = decide (unitRank c < unitRank n) := by
  have hb : ∀ n, (['百', '千', '万', '億', '兆', '京', '垓'].contains n = decide (1 < unitRank n)) ∧ (['千', '万', '億', '兆', '京', '垓'].contains n = decide (2 < unitRank n)) ∧
      (['万', '億', '兆', '京', '垓'].contains n = decide (3 < unitRank n)) ∧ (['億', '兆', '京', '垓'].contains n = decide (4 < unitRank n)) ∧
      (['兆', '京', '垓'].contains n = decide (5 < unitRank n)) ∧ (['京', '垓'].contains n = decide (6 < unitRank n)) ∧
      (['垓'].contains n = decide (7 < unitRank n)) ∧ (([] : List Char).contains n = decide (8 < unitRank n)) := by
    intro n
    unfold unitRank
    by_cases h1 : n = '十'; · subst h1; decide
    by_cases h2 : n = '拾'; · subst h2; decide
    by_cases h3 : n = '百'; · subst h3; decide
    by_cases h4 : n = '千'; · subst h4; decide
    by_cases h5 : n = '万'; · subst h5; decide
    by_cases h6 : n = '億'; · subst h6; decide
    by_cases h7 : n = '兆'; · subst h7; decide
    by_cases h8 : n = '京'; · subst h8; decide
    by_cases h9 : n = '垓'; · subst h9; decide
    simp [h1, h2, h3, h4, h5, h6, h7, h8, h9]
  unfold numberUnit at h
  split at h
  · rename_i hc; rw [← Option.some.inj h]
    rcases hc with rfl | rfl
    · exact ⟨by decide, by decide, fun n => (hb n).1⟩
    · exact ⟨by decide, by decide, fun n => (hb n).1⟩
  split at h
  · rename_i hc; subst hc; rw [← Option.some.inj h]; exact ⟨by decide, by decide, fun n => (hb n).2.1⟩
  split at h
  · rename_i hc; subst hc; rw [← Option.some.inj h]; exact ⟨by decide, by decide, fun n => (hb n).2.2.1⟩
  split at h
  · rename_i hc; subst hc; rw [← Option.some.inj h]; exact ⟨by decide, by decide, fun n => (hb n).2.2.2.1⟩
  split at h
  · rename_i hc; subst hc; rw [← Option.some.inj h]; exact ⟨by decide, by decide, fun n => (hb n).2.2.2.2.1⟩
  split at h
  · rename_i hc; subst hc; rw [← Option.some.inj h]; exact ⟨by decide, by decide, fun n => (hb n).2.2.2.2.2.1⟩
  split at h
  · rename_i hc; subst hc; rw [← Option.some.inj h]; exact ⟨by decide, by decide, fun n => (hb n).2.2.2.2.2.2.1⟩
  split at h
  · rename_i hc; subst hc; rw [← Option.some.inj h]; exact ⟨by decide, by decide, fun n => (hb n).2.2.2.2.2.2.2⟩
  · cases h

/-- Whether a one is supplied for the unit `c` after `next`. -/
def suppliesOne (c : Char) : Option Char → Nat
  | none => 1
  | some n => if unitRank c < unitRank n then 1 else 0

/-- The number of bytes put out for a text that is preceded by `next`. -/
def outBytes : Str → Option Char → Nat
  | [], _ => 0
  | c :: q, next => if 0 < unitRank c then places c q + suppliesOne c next else (if isDigit c then 1 else c.utf8Size) + outBytes q (some c)

/-- All units have enough places. -/
def GoodText : Str → Prop
  | [] => True
  | c :: q => GoodText q ∧ (0 < unitRank c → outBytes q (some c) ≤ places c q)

theorem adjust_panic {num : Str} {a b : Nat} (h : a + b < blen num) :
    adjustDigits num (List.replicate a '0') (List.replicate b '0') = .error .panic := by
  unfold adjustDigits
  rw [← List.replicate_add]
  dsimp only
  rw [blen_zeros, if_neg (by omega)]

theorem oneOmitted_eq {c : Char} {u : NumberUnit} (h : numberUnit c = some u) (next : Option Char) :
    (if oneOmitted u.before next then 1 else 0) = suppliesOne c next := by
  cases next with
  | none => rfl
  | some n =>
    have e : oneOmitted u.before (some n) = decide (unitRank c < unitRank n) := (numberUnit_spec h).2.2 n
    rw [e, suppliesOne]
    simp

/-- One step on a unit. -/
theorem step_unit {c : Char} (hr : 0 < unitRank c) (next : Option Char) (buf : Str) (q : Str) :
    (blen buf ≤ places c q → ∃ buf', numeralStep c next buf (List.replicate (scale q) '0') = .ok (buf', List.replicate (scale (c :: q)) '0') ∧
      blen buf' = places c q + suppliesOne c next) ∧
    (places c q < blen buf → numeralStep c next buf (List.replicate (scale q) '0') = .error .panic) := by
  have hd : numeralDigit c = none := by
    cases h : numeralDigit c with
    | none => rfl
    | some x =>
      have : isDigit c = true := by rw [← numeralDigit_isSome, h]; rfl
      rw [digit_rank this] at hr; omega
  obtain ⟨u, hu⟩ : ∃ u, numberUnit c = some u := Option.isSome_iff_exists.mp (by rw [numberUnit_isSome]; simpa using hr)
  obtain ⟨h1, h2, _⟩ := numberUnit_spec hu
  have hbd : ∃ a b, u.base = List.replicate a '0' ∧ u.large.getD (List.replicate (scale q) '0') = List.replicate b '0' ∧ a + b = places c q ∧ b = scale (c :: q) := by
    by_cases h4 : 4 ≤ unitRank c
    · obtain ⟨e1, e2⟩ := h1 h4
      refine ⟨0, unitZeros c, e1, by rw [e2]; rfl, ?_, ?_⟩
      · rw [places, if_pos h4]; omega
      · rw [scale, if_pos h4]
    · obtain ⟨e1, e2⟩ := h2 (by omega)
      refine ⟨unitZeros c, scale q, e1, by rw [e2]; rfl, ?_, ?_⟩
      · rw [places, if_neg h4]
      · rw [scale, if_neg h4, if_pos (.inl hr)]
  obtain ⟨a, b, ha, hb, hab, hsc⟩ := hbd
  have hstep : numeralStep c next buf (List.replicate (scale q) '0') =
      (do
        let nb ← adjustDigits buf (List.replicate a '0') (List.replicate b '0')
        return (if oneOmitted u.before next then '1' :: nb else nb, List.replicate b '0')) := by
    unfold numeralStep
    rw [hd, hu]
    dsimp only
    unfold NumberUnit.apply
    dsimp only
    rw [ha, hb]
  rw [hstep]
  constructor
  · intro hle
    rw [adjust_zeros (by omega), bind_ok]
    refine ⟨_, by rw [hsc]; rfl, ?_⟩
    rw [← oneOmitted_eq hu next]
    rw [← hsc]
    have hl : blen (List.replicate (a + b - blen buf) '0' ++ buf) = places c q := by rw [blen_append, blen_zeros]; omega
    split
    · rw [blen, hl, show ('1' : Char).utf8Size = 1 from by decide]; omega
    · rw [hl]; omega
  · intro hlt
    rw [adjust_panic (by omega)]; rfl

theorem scan_exact (s : Str) (next : Option Char) :
    (GoodText s → ∃ buf, scan s.reverse next ([], []) = .ok (buf, List.replicate (scale s) '0') ∧ blen buf = outBytes s next) ∧
    (¬ GoodText s → scan s.reverse next ([], []) = .error .panic) := by
  induction s generalizing next with
  | nil => exact ⟨fun _ => ⟨[], rfl, rfl⟩, fun h => absurd trivial h⟩
  | cons c q ih =>
    obtain ⟨ih1, ih2⟩ := ih (some c)
    have hsc : scan (c :: q).reverse next ([], []) = (scan q.reverse (some c) ([], []) >>= fun st => numeralStep c next st.1 st.2) := by
      rw [List.reverse_cons, scan_append, List.head?_cons, Option.some_or]
      congr 1
      funext st
      rw [scan, List.head?_nil, Option.none_or]
      cases numeralStep c next st.1 st.2 <;> rfl
    rw [hsc]
    by_cases hg : GoodText q
    · obtain ⟨buf, hb1, hb2⟩ := ih1 hg
      rw [hb1, bind_ok]
      dsimp only
      by_cases hr : 0 < unitRank c
      · obtain ⟨s1, s2⟩ := step_unit hr next buf q
        constructor
        · rintro ⟨_, h⟩
          obtain ⟨buf', h1, h2⟩ := s1 (by rw [hb2]; exact h hr)
          exact ⟨buf', h1, by rw [h2, outBytes, if_pos hr]⟩
        · intro hn
          refine s2 ?_
          rw [hb2]
          by_contra hc
          exact hn ⟨hg, fun _ => by omega⟩
      · refine ⟨fun _ => ?_, fun hn => absurd ⟨hg, fun h => absurd h hr⟩ hn⟩
        rw [outBytes, if_neg hr, scale, if_neg (by omega)]
        unfold numeralStep
        cases hd : numeralDigit c with
        | some x =>
          have hdg : isDigit c = true := by rw [← numeralDigit_isSome, hd]; rfl
          refine ⟨x :: buf, by rw [if_pos (.inr hdg)], ?_⟩
          rw [blen, digit_size hd, if_pos hdg, hb2]
        | none =>
          have hdg : isDigit c = false := by rw [← numeralDigit_isSome, hd]; rfl
          have hu : numberUnit c = none := by
            have := numberUnit_isSome c
            rw [decide_eq_false hr] at this
            simpa using this
          rw [hu]
          refine ⟨c :: buf, ?_, ?_⟩
          · rw [if_neg (by rw [hdg]; simp; omega)]; rfl
          · rw [blen, hb2, hdg]; simp
    · rw [ih2 hg]
      exact ⟨fun h => absurd h.1 hg, fun _ => rfl⟩

theorem toArabic_exact (s : Str) : (GoodText s → ∃ out, toArabicNumerals s = .ok out) ∧ (¬ GoodText s → toArabicNumerals s = .error .panic) := by
  unfold toArabicNumerals
  rw [numeralLoop_eq]
  obtain ⟨h1, h2⟩ := scan_exact s none
  constructor
  · intro h
    obtain ⟨buf, hb, _⟩ := h1 h
    rw [hb]; exact ⟨buf, rfl⟩
  · intro h
    rw [h2 h]; rfl

/-- The bytes up to and with the next unit. -/
theorem outBytes_split (u : Char) {mid rest : Str} (hm : ∀ c ∈ mid, unitRank c = 0) (hr : ∀ v, rest.head? = some v → 0 < unitRank v) :
    outBytes (mid ++ rest) (some u) = plainBytes mid + fromNextUnit u mid rest := by
  have hrest : ∀ x, outBytes rest (some x) = (match rest with
      | [] => 0
      | v :: r => places v r + if unitRank v < unitRank x then 1 else 0) := by
    intro x
    cases rest with
    | nil => rfl
    | cons v r => rw [outBytes, if_pos (hr v rfl)]; rfl
  have hne : ∀ (mid : Str), (∀ c ∈ mid, unitRank c = 0) → mid ≠ [] → ∀ u, outBytes (mid ++ rest) (some u) = plainBytes mid + (match rest with
      | [] => 0
      | v :: r => places v r) := by
    intro mid
    induction mid with
    | nil => intro _ h; exact absurd rfl h
    | cons c mid ih =>
      intro hm _ u
      have hc := hm c (by simp)
      rw [List.cons_append, outBytes, if_neg (by omega)]
      have hp : plainBytes (c :: mid) = (if isDigit c then 1 else c.utf8Size) + plainBytes mid := by unfold plainBytes; rw [List.map_cons, List.sum_cons]
      rw [hp]
      cases mid with
      | nil =>
        rw [List.nil_append, hrest c]
        cases rest with
        | nil => rfl
        | cons v r => dsimp only; rw [hc, if_neg (show ¬ unitRank v < 0 by omega)]; simp [plainBytes]
      | cons d mid => rw [ih (fun c hc => hm c (by simp [hc])) (by simp) c]; omega
  cases mid with
  | nil =>
    rw [List.nil_append, hrest u]
    cases rest with
    | nil => rfl
    | cons v r => simp [plainBytes, fromNextUnit]
  | cons c mid =>
    rw [hne (c :: mid) hm (by simp) u]
    cases rest with
    | nil => rfl
    | cons v r => simp [fromNextUnit]

theorem goodText_iff (s : Str) : GoodText s ↔ UnitsFit s := by
  have h1 : GoodText s ↔ ∀ p u q, s = p ++ u :: q → 0 < unitRank u → outBytes q (some u) ≤ places u q := by
    induction s with
    | nil => exact ⟨fun _ p u q h => by simp at h, fun _ => trivial⟩
    | cons c s ih =>
      rw [GoodText, ih]
      constructor
      · rintro ⟨h1, h2⟩ p u q he hu
        cases p with
        | nil => cases he; exact h2 hu
        | cons x p => cases he; exact h1 p u q rfl hu
      · intro h
        exact ⟨fun p u q he hu => h (c :: p) u q (by rw [he]; rfl) hu, fun hu => h [] c s rfl hu⟩
  rw [h1]
  constructor
  · intro h p u mid rest he hu hm hr
    have := h p u (mid ++ rest) he hu
    rw [outBytes_split u hm hr] at this
    exact this
  · intro h p u q he hu
    have hq : q = q.takeWhile (fun c => unitRank c == 0) ++ q.dropWhile (fun c => unitRank c == 0) := List.takeWhile_append_dropWhile.symm
    have hm : ∀ c ∈ q.takeWhile (fun c => unitRank c == 0), unitRank c = 0 := by
      intro c hc
      have := List.all_takeWhile (p := fun c => unitRank c == 0) (l := q)
      rw [List.all_eq_true] at this
      simpa using this c hc
    have hr : ∀ v, (q.dropWhile (fun c => unitRank c == 0)).head? = some v → 0 < unitRank v := by
      intro v hv
      have := List.head?_dropWhile_not (p := fun c => unitRank c == 0) q
      rw [hv] at this
      simp at this
      omega
    rw [hq, outBytes_split u hm hr]
    exact h p u _ _ (by rw [← hq]; exact he) hu hm hr

end Verif.Model
