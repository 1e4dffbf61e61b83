import Mathlib.Data.List.Forall2
import Verif.Proofs.Text
import Verif.Proofs.Monad
import Verif.Model.MatrixBuilder
import Verif.Spec.CharDef
import Verif.Spec.Unk
import Verif.Spec.Matrix
import Verif.Spec.Builder
/-! Functions that compute the relations of `Verif.Spec` between source texts and their contents. -/
namespace Verif.Spec
open Verif.Model

/-! ### `char.def` -/

/-- `0x` and hexadecimal digits: a code point of the Basic Multilingual Plane that is a character and not a byte order mark. -/
def codePoint : Str → Option Nat
  | '0' :: 'x' :: digits =>
    (parseNat 16 digits).filter fun n => decide (n < 0xD800 ∨ (0xE000 ≤ n ∧ n < 0xFFFE ∧ n ≠ 0xFEFF))
  | _ => none

/-- `LOW` or `LOW..HIGH`, both ends included. -/
def interval (s : Str) : Option (Nat × Nat) :=
  match splitDots s with
  | [a] => (codePoint a).map fun n => (n, n)
  | [a, b] => (codePoint a).bind fun lo => (codePoint b).map fun hi => (lo, hi)
  | _ => none

/-- A line without its comment and outer white space. -/
def uncommented (line : Str) : Str := trim (line.takeWhile (· ≠ '#'))

/-- `LOW..HIGH NAME NAME …` -/
def readRange (s : Str) : Option DefLine :=
  match splitWhitespace s with
  | bounds :: names => (interval bounds).map fun (lo, hi) => .range lo hi names
  | [] => none

/-- `NAME INVOKE GROUP LENGTH` -/
def readCategory (s : Str) : Option DefLine :=
  match splitAsciiWhitespace s with
  | [name, i, g, l] => (parseU32 i).bind fun i => (parseU32 g).bind fun g => (parseU32 l).map fun l =>
      .category name ⟨i = 1, g = 1, l⟩
  | _ => none

/-- Reads a line; the outer `none` means that it is malformed, the inner that it is blank. -/
def readDefLine (line : Str) : Option (Option DefLine) :=
  let s := uncommented line
  if s = [] then some none
  else if ['0', 'x'].isPrefixOf s then (readRange s).map some
  else (readCategory s).map some

/-- The lines of a well-formed file. -/
def readDef (text : Str) : Option (List DefLine) := ((lines text).mapM readDefLine).map (List.filterMap id)

/-! ### `unk.def` -/

/-- A line with the expected number of comma-separated fields: name, two ids and a cost that fit 16 bits, and details. -/
def readUnkLine (expected : Nat) (line : Str) : Option UnkLine :=
  match splitAll (· = ',') line with
  | name :: left :: right :: cost :: details =>
    if details.length + 4 = expected then
      (parseU16 left).bind fun l => (parseU16 right).bind fun r => (parseI16 cost).map fun c => ⟨name, l, r, c⟩
    else none
  | _ => none

/-- The lines of a well-formed file. -/
def readUnk (expected : Nat) (text : Str) : Option (List UnkLine) := (lines text).mapM (readUnkLine expected)

/-! ### `matrix.def` -/

/-- The numbers in the lines of a matrix file: a header with the two sizes, then the cost lines. -/
def matrixRows (forwardSize backwardSize : Nat) (costs : List CostLine) : List (List Int32) :=
  [Int32.ofNat forwardSize, Int32.ofNat backwardSize] ::
    costs.map fun l => [Int32.ofNat l.forward, Int32.ofNat l.backward, l.cost.toInt32]

theorem optMapM_iff {α β : Type} {f : α → Option β} {xs : List α} {ys : List β} :
    xs.mapM f = some ys ↔ List.Forall₂ (fun x y => f x = some y) xs ys := by
  induction xs generalizing ys with
  | nil =>
    simp only [List.mapM_nil, Option.pure_def, Option.some.injEq]
    constructor
    · rintro rfl; exact .nil
    · intro h; cases h; rfl
  | cons x xs ih =>
    simp only [List.mapM_cons, Option.bind_eq_bind, Option.pure_def, Option.bind_eq_some_iff, Option.some.injEq, ih]
    constructor
    · rintro ⟨y, h1, ys, h2, rfl⟩
      exact .cons h1 h2
    · intro h
      cases h with
      | cons h1 h2 => exact ⟨_, h1, _, h2, rfl⟩

theorem forall₂_iff {α β : Type} {R S : α → β → Prop} (h : ∀ a b, R a b ↔ S a b) {xs : List α} {ys : List β} :
    List.Forall₂ R xs ys ↔ List.Forall₂ S xs ys :=
  ⟨fun h' => h'.imp fun a b => (h a b).mp, fun h' => h'.imp fun a b => (h a b).mpr⟩

/-! ### Character definitions -/

theorem codePoint_iff {s : Str} {n : Nat} : codePoint s = some n ↔ CodePointText s n := by
  unfold codePoint CodePointText
  split
  next ds =>
    rw [Option.filter_eq_some_iff, decide_eq_true_eq, parseNat_iff (by omega)]
    constructor
    · rintro ⟨h1, h2⟩
      exact ⟨ds, rfl, h1, h2⟩
    · rintro ⟨ds', h, h1, h2⟩
      cases h
      exact ⟨h1, h2⟩
  next hno =>
    constructor
    · intro h; cases h
    · rintro ⟨ds, rfl, -⟩
      exact absurd rfl (hno ds)

theorem splitDots_ne (s : Str) : splitDots s ≠ [] := by
  fun_induction splitDots s <;> simp_all

theorem splitDots_join {s h : Str} {t : List Str} (e : splitDots s = h :: t) : s = h ++ t.flatMap (['.', '.'] ++ ·) := by
  fun_induction splitDots s generalizing h t with
  | case1 => cases e; rfl
  | case2 s ih =>
    cases e
    cases hs : splitDots s with
    | nil => exact absurd hs (splitDots_ne _)
    | cons q qs => rw [ih hs]; simp
  | case3 => exact absurd ‹_› (splitDots_ne _)
  | case4 c s _ q qs hq ih =>
    cases e
    rw [ih hq]; rfl

theorem splitDots_none {s : Str} (h : '.' ∉ s) : splitDots s = [s] := by
  fun_induction splitDots s with
  | case1 => rfl
  | case2 => simp at h
  | case3 => exact absurd ‹_› (splitDots_ne _)
  | case4 c s _ q qs hq ih =>
    simp only [List.mem_cons, not_or] at h
    rw [ih h.2] at hq
    cases hq
    rfl

theorem splitDots_cons {a : Str} (b : Str) (h : '.' ∉ a) : splitDots (a ++ ['.', '.'] ++ b) = a :: splitDots b := by
  induction a with
  | nil => simp [splitDots]
  | cons c a ih =>
    simp only [List.mem_cons, not_or] at h
    rw [List.cons_append, List.cons_append, splitDots, ih h.2]
    rintro s' rfl
    exact absurd rfl h.1

theorem digits_noDot {radix : Nat} {s : Str} {n : Nat} (h : Digits radix s n) : '.' ∉ s := by
  have hd : ∀ {c : Char} {v : Nat}, DigitOf radix c v → c ≠ '.' := by
    rintro c v ⟨-, h⟩ rfl
    rcases h with h | h <;> exact absurd (List.mem_of_getElem? h) (by decide)
  induction h with
  | one hv => simp only [List.mem_singleton]; exact fun e => hd hv e.symm
  | more _ hv ih =>
    simp only [List.mem_append, List.mem_singleton, not_or]
    exact ⟨ih, fun e => hd hv e.symm⟩

theorem codePointText_noDot {s : Str} {n : Nat} (h : CodePointText s n) : '.' ∉ s := by
  obtain ⟨ds, rfl, h, -⟩ := h
  simp [digits_noDot h]

theorem interval_iff {s : Str} {lo hi : Nat} : interval s = some (lo, hi) ↔ IntervalText s lo hi := by
  unfold IntervalText
  constructor
  · intro h
    unfold interval at h
    split at h
    next a ha =>
      obtain ⟨n, h1, h2⟩ := Option.map_eq_some_iff.mp h
      cases h2
      have := splitDots_join ha
      simp only [List.flatMap_nil, List.append_nil] at this
      subst this
      exact .inl ⟨codePoint_iff.mp h1, rfl⟩
    next a b ha =>
      obtain ⟨n, h1, h2⟩ := Option.bind_eq_some_iff.mp h
      obtain ⟨m, h3, h4⟩ := Option.map_eq_some_iff.mp h2
      cases h4
      have := splitDots_join ha
      refine .inr ⟨a, b, by rw [this]; simp, codePoint_iff.mp h1, codePoint_iff.mp h3⟩
    next => cases h
  · unfold interval
    rintro (⟨h, rfl⟩ | ⟨a, b, rfl, h1, h2⟩)
    · rw [splitDots_none (codePointText_noDot h)]
      dsimp only
      rw [codePoint_iff.mpr h]; rfl
    · rw [splitDots_cons _ (codePointText_noDot h1), splitDots_none (codePointText_noDot h2)]
      dsimp only
      rw [codePoint_iff.mpr h1, codePoint_iff.mpr h2]; rfl

theorem takeWhile_comment {line code : Str} (h : line = code ∨ ∃ comment, line = code ++ ['#'] ++ comment) (hc : '#' ∉ code) :
    line.takeWhile (· ≠ '#') = code := by
  have h1 : ∀ c ∈ code, decide (c ≠ '#') = true := by
    intro c hc'; rw [decide_eq_true_eq]; rintro rfl; exact hc hc'
  rcases h with rfl | ⟨comment, rfl⟩
  · have := List.takeWhile_append_of_pos h1 (l₂ := [])
    simpa using this
  · rw [List.append_assoc, List.takeWhile_append_of_pos h1]
    simp

theorem uncommented_iff {line s : Str} : uncommented line = s ↔ Uncommented line s := by
  unfold uncommented Uncommented
  constructor
  · intro h
    refine ⟨line.takeWhile (· ≠ '#'), ?_, ?_, trim_iff.mp h⟩
    · have := List.takeWhile_append_dropWhile (p := fun c => decide (c ≠ '#')) (l := line)
      cases hd : line.dropWhile (fun c => decide (c ≠ '#')) with
      | nil => rw [hd, List.append_nil] at this; exact .inl this.symm
      | cons c t =>
        have hc : c = '#' := by
          have := List.head?_dropWhile_not (fun c => decide (c ≠ '#')) line
          rw [hd] at this
          simpa using this
        subst hc
        rw [hd] at this
        exact .inr ⟨t, by simpa using this.symm⟩
    · intro h
      have : ∀ l : Str, '#' ∉ l.takeWhile (· ≠ '#') := by
        intro l
        induction l with
        | nil => simp
        | cons c l ih =>
          rw [List.takeWhile_cons]
          split
          next hc =>
            simp only [decide_eq_true_eq] at hc
            simp only [List.mem_cons, not_or]
            exact ⟨fun e => hc e.symm, ih⟩
          next => simp
      exact this _ h
  · rintro ⟨code, h1, h2, h3⟩
    rw [takeWhile_comment h1 h2]
    exact trim_iff.mpr h3

theorem readDefLine_iff {line : Str} {r : Option DefLine} :
    readDefLine line = some r ↔ ∃ s, Uncommented line s ∧ DefLineText s r := by
  have hx : ∀ s : Str, (['0', 'x'].isPrefixOf s = true) ↔ ['0', 'x'] <+: s := fun s => List.isPrefixOf_iff_prefix
  have key : ∀ s : Str, (if s = [] then some none else if ['0', 'x'].isPrefixOf s then (readRange s).map some else (readCategory s).map some) = some r ↔
      DefLineText s r := by
    intro s
    by_cases h0 : s = []
    · subst h0
      rw [if_pos rfl]
      constructor
      · intro h; cases h; exact .blank
      · intro h
        cases h with
        | blank => rfl
        | range h1 => exact absurd h1 (by decide)
        | category h1 => exact absurd rfl h1
    · rw [if_neg h0]
      by_cases h1 : ['0', 'x'] <+: s
      · rw [if_pos ((hx s).mpr h1), Option.map_eq_some_iff]
        unfold readRange
        constructor
        · rintro ⟨l, h, rfl⟩
          split at h
          next bounds names hw =>
            obtain ⟨⟨lo, hi⟩, h2, rfl⟩ := Option.map_eq_some_iff.mp h
            exact .range h1 (splitWhitespace_iff.mp hw) (interval_iff.mp h2)
          next => cases h
        · intro h
          cases h with
          | blank => exact absurd rfl h0
          | range _ hw hi =>
            rw [splitWhitespace_iff.mpr hw]
            exact ⟨_, by dsimp only; rw [interval_iff.mpr hi]; rfl, rfl⟩
          | category _ h2 => exact absurd h1 h2
      · rw [if_neg (fun h => h1 ((hx s).mp h)), Option.map_eq_some_iff]
        unfold readCategory
        constructor
        · rintro ⟨l, h, rfl⟩
          split at h
          next name i g l hw =>
            obtain ⟨iv, hi, h⟩ := Option.bind_eq_some_iff.mp h
            obtain ⟨gv, hg, h⟩ := Option.bind_eq_some_iff.mp h
            obtain ⟨lv, hl, rfl⟩ := Option.map_eq_some_iff.mp h
            have e : ∀ v : UInt32, decide (v = 1) = decide (v.toNat = 1) := by
              intro v
              rw [decide_eq_decide, ← UInt32.toNat_inj]; rfl
            rw [e, e]
            exact .category h0 h1 (splitAsciiWhitespace_iff.mp hw) (parseU32_iff.mp hi) iv.toNat_lt (parseU32_iff.mp hg) gv.toNat_lt (parseU32_iff.mp hl)
          next => cases h
        · intro h
          cases h with
          | blank => exact absurd rfl h0
          | range h2 => exact absurd h2 h1
          | @category _ name i g l invoke group length _ _ hw hi hi' hg hg' hl =>
            have e : ∀ n, n < 2 ^ 32 → (UInt32.ofNat n).toNat = n := fun n hn => by
              rw [UInt32.toNat_ofNat', Nat.mod_eq_of_lt hn]
            rw [splitAsciiWhitespace_iff.mpr hw]
            refine ⟨_, ?_, rfl⟩
            dsimp only
            rw [(parseU32_iff (v := UInt32.ofNat invoke)).mpr (by rw [e _ hi']; exact hi), (parseU32_iff (v := UInt32.ofNat group)).mpr (by rw [e _ hg']; exact hg),
              parseU32_iff.mpr hl]
            have e' : ∀ n, n < 2 ^ 32 → decide (UInt32.ofNat n = 1) = decide (n = 1) := by
              intro n hn
              rw [decide_eq_decide, ← UInt32.toNat_inj, e _ hn]; rfl
            simp only [Option.bind_some, Option.map_some, e' _ hi', e' _ hg']
  unfold readDefLine
  dsimp only
  rw [key]
  constructor
  · intro h; exact ⟨_, uncommented_iff.mp rfl, h⟩
  · rintro ⟨s, h1, h2⟩
    rwa [uncommented_iff.mpr h1]

theorem readDef_iff {text : Str} {file : List DefLine} : readDef text = some file ↔ DefText text file := by
  unfold readDef DefText
  rw [Option.map_eq_some_iff]
  constructor
  · rintro ⟨contents, h, rfl⟩
    rw [optMapM_iff, forall₂_iff (fun _ _ => readDefLine_iff)] at h
    exact ⟨_, _, lines_iff.mp rfl, h, rfl⟩
  · rintro ⟨ls, contents, h1, h2, rfl⟩
    refine ⟨contents, ?_, rfl⟩
    rw [lines_iff.mpr h1, optMapM_iff, forall₂_iff (fun _ _ => readDefLine_iff)]
    exact h2

/-! ### Unknown words -/

theorem comma_iff (c : Char) : decide (c = ',') = true ↔ c = ',' := decide_eq_true_iff

theorem readUnkLine_iff {expected : Nat} {line : Str} {l : UnkLine} : readUnkLine expected line = some l ↔ UnkLineText expected line l := by
  unfold readUnkLine UnkLineText
  constructor
  · intro h
    split at h
    next name left right cost details hs =>
      split at h
      next hlen =>
        obtain ⟨lv, h1, h⟩ := Option.bind_eq_some_iff.mp h
        obtain ⟨rv, h2, h⟩ := Option.bind_eq_some_iff.mp h
        obtain ⟨cv, h3, rfl⟩ := Option.map_eq_some_iff.mp h
        exact ⟨left, right, cost, details, (splitAll_iff comma_iff).mp hs, hlen, parseU16_iff.mp h1, parseU16_iff.mp h2, parseI16_iff.mp h3⟩
      next => cases h
    next => cases h
  · rintro ⟨left, right, cost, details, h1, h2, h3, h4, h5⟩
    rw [(splitAll_iff comma_iff).mpr h1]
    dsimp only
    rw [if_pos h2, parseU16_iff.mpr h3, parseU16_iff.mpr h4, parseI16_iff.mpr h5]
    rfl

theorem readUnk_iff {expected : Nat} {text : Str} {ls : List UnkLine} : readUnk expected text = some ls ↔ UnkText expected text ls := by
  unfold readUnk UnkText
  rw [optMapM_iff, forall₂_iff (fun _ _ => readUnkLine_iff)]
  constructor
  · intro h; exact ⟨_, lines_iff.mp rfl, h⟩
  · rintro ⟨ts, h1, h2⟩
    rwa [lines_iff.mpr h1]

/-! ### Connection costs -/

theorem numberLine_iff {line : Str} {vs : List Int32} : parseMatrixLine line = .ok vs ↔ NumberLine line (vs.map Int32.toInt) := by
  have h1 : ∀ ws : List Str, ws.mapM parseI32 = some vs ↔ List.Forall₂ Signed ws (vs.map Int32.toInt) := by
    intro ws
    rw [optMapM_iff, List.forall₂_map_right_iff, forall₂_iff (fun _ _ => parseI32_iff)]
  unfold parseMatrixLine NumberLine
  constructor
  · intro h
    split at h
    next fields hf =>
      cases h
      exact ⟨_, splitWhitespace_iff.mp rfl, (h1 _).mp hf⟩
    next => cases h
  · rintro ⟨ws, h2, h3⟩
    rw [splitWhitespace_iff.mpr h2, (h1 _).mpr h3]

theorem parseMatrix_of {text : Str} {F B : Nat} {costs : List CostLine} (hF : F < 2 ^ 31) (hB : B < 2 ^ 31)
    (hids : ∀ l ∈ costs, l.forward < 2 ^ 31 ∧ l.backward < 2 ^ 31) (h : MatrixText text F B costs) :
    parseMatrix text = .ok (matrixRows F B costs) := by
  have e : ∀ n : Nat, n < 2 ^ 31 → (Int32.ofNat n).toInt = n := by
    intro n hn
    exact Int32.toInt_ofNat_of_lt hn
  have e16 : ∀ c : Int16, c.toInt32.toInt = c.toInt := fun c => by simp
  obtain ⟨header, rows, h1, h2, h3⟩ := h
  unfold parseMatrix matrixRows
  rw [lines_iff.mpr h1, mapM_ok_iff]
  refine .cons ?_ ?_
  · rw [numberLine_iff]
    simpa [e _ hF, e _ hB] using h2
  · rw [List.forall₂_map_right_iff]
    have : ∀ (rows : List Str) (costs : List CostLine), (∀ l ∈ costs, l.forward < 2 ^ 31 ∧ l.backward < 2 ^ 31) →
        List.Forall₂ (fun line l => NumberLine line [(l.forward : Int), (l.backward : Int), l.cost.toInt]) rows costs →
        List.Forall₂ (fun a c => parseMatrixLine a = .ok [Int32.ofNat c.forward, Int32.ofNat c.backward, c.cost.toInt32]) rows costs := by
      intro rows costs hids h
      induction h with
      | nil => exact .nil
      | @cons a l _ _ hx _ ih =>
        refine .cons ?_ (ih fun l hl => hids l (by simp [hl]))
        rw [numberLine_iff]
        have := hids l (by simp)
        simpa [e _ this.1, e _ this.2, e16] using hx
    exact this _ _ hids h3

end Verif.Spec
