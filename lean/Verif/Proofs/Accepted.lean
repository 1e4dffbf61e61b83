import Verif.Proofs.CharDef
import Verif.Proofs.Unk
import Verif.Model.MatrixBuilder
import Verif.Spec.Accepted
/-! Proofs about what the compilers of `char.def`, `unk.def` and `matrix.def` accept. -/
namespace Verif.Model
open Verif.Spec

/-! ### `char.def` -/

theorem trim0x_eq (s : Str) : ∃ k, s = (List.replicate k ['0', 'x']).flatten ++ trim0x s := by
  fun_induction trim0x s with
  | case1 s ih =>
    obtain ⟨k, hk⟩ := ih
    refine ⟨k + 1, ?_⟩
    rw [List.replicate_succ, List.flatten_cons, List.append_assoc, ← hk]; rfl
  | case2 s => exact ⟨0, rfl⟩

theorem trim0x_append (k : Nat) (s : Str) : trim0x ((List.replicate k ['0', 'x']).flatten ++ s) = trim0x s := by
  induction k with
  | zero => rfl
  | succ k ih => rw [List.replicate_succ, List.flatten_cons, List.append_assoc]; exact ih

theorem parseInt_hex {s : Str} {z : Int} : parseInt 16 false 0 65535 s = some z ↔
    ∃ sign digits, s = sign ++ digits ∧ (sign = [] ∨ sign = ['+']) ∧ ∃ v : Nat, Digits 16 digits v ∧ v < 2 ^ 16 ∧ z = v := by
  constructor
  · intro h
    unfold parseInt at h
    dsimp only at h
    rw [Option.bind_eq_some_iff] at h
    obtain ⟨n, h1, h2⟩ := h
    split at h2
    next hb =>
      cases h2
      split at h1
      next ds =>
        obtain ⟨v, hv, rfl⟩ := Option.map_eq_some_iff.mp h1
        exact ⟨['+'], ds, rfl, .inr rfl, v, (parseNat_iff (by omega)).mp hv, by omega, rfl⟩
      next ds => cases h1
      next =>
        obtain ⟨v, hv, rfl⟩ := Option.map_eq_some_iff.mp h1
        exact ⟨[], s, rfl, .inl rfl, v, (parseNat_iff (by omega)).mp hv, by omega, rfl⟩
    next => cases h2
  · rintro ⟨sign, digits, rfl, hs, v, hd, hv, rfl⟩
    have hp := (parseNat_iff (by omega)).mpr hd
    rcases hs with rfl | rfl
    · exact parseInt_of_parseNat _ _ _ hp (by omega) (by omega)
    · simp only [parseInt, List.singleton_append, hp, Option.map_some, Option.bind_some]
      rw [if_pos (by omega)]

theorem parseHexCodepoint_iff {s : Str} {n : Nat} : parseHexCodepoint s = .ok n ↔ CodePointRead s n := by
  have hu : ∀ v : Nat, v < 2 ^ 16 → (UInt16.ofNat v).toNat = v := fun v hv => by
    rw [UInt16.toNat_ofNat', Nat.mod_eq_of_lt hv]
  have hd : ∀ v : Nat, v < 2 ^ 16 → (ucs2ToUnicode (UInt16.ofNat v) = .ok n ↔ v ≠ 0xFEFF ∧ v ≠ 0xFFFE ∧ n = if 0xD800 ≤ v ∧ v < 0xE000 then 0xFFFD else v) := by
    intro v hv
    unfold ucs2ToUnicode
    have e1 : (UInt16.ofNat v = 0xFEFF ∨ UInt16.ofNat v = 0xFFFE) ↔ (v = 0xFEFF ∨ v = 0xFFFE) := by
      rw [← UInt16.toNat_inj, ← UInt16.toNat_inj, hu v hv]; rfl
    have e2 : (0xD800 ≤ UInt16.ofNat v ∧ UInt16.ofNat v ≤ 0xDFFF) ↔ (0xD800 ≤ v ∧ v < 0xE000) := by
      rw [UInt16.le_iff_toNat_le, UInt16.le_iff_toNat_le, hu v hv]
      simp; omega
    by_cases h1 : v = 0xFEFF ∨ v = 0xFFFE
    · rw [if_pos (e1.mpr h1)]
      constructor
      · intro h; cases h
      · rintro ⟨h2, h3, -⟩; exact absurd h1 (by omega)
    · rw [if_neg (fun h => h1 (e1.mp h))]
      by_cases h2 : 0xD800 ≤ v ∧ v < 0xE000
      · rw [if_pos (e2.mpr h2), if_pos h2]
        constructor
        · intro h; cases h; exact ⟨by omega, by omega, rfl⟩
        · rintro ⟨-, -, rfl⟩; rfl
      · rw [if_neg (fun h => h2 (e2.mp h)), if_neg h2, hu v hv]
        constructor
        · intro h; cases h; exact ⟨by omega, by omega, rfl⟩
        · rintro ⟨-, -, rfl⟩; rfl
  unfold parseHexCodepoint CodePointRead
  constructor
  · intro h
    split at h
    next u hp =>
      unfold parseHexU16 at hp
      obtain ⟨z, hz, rfl⟩ := Option.map_eq_some_iff.mp hp
      obtain ⟨sign, digits, h1, h2, v, h3, h4, rfl⟩ := parseInt_hex.mp hz
      obtain ⟨k, hk⟩ := trim0x_eq s
      rw [Int.toNat_natCast, hd v h4] at h
      exact ⟨k, sign, digits, v, by rw [← h1]; exact hk, h2, h3, h4, h⟩
    next => cases h
  · rintro ⟨k, sign, digits, v, rfl, h2, h3, h4, h⟩
    have ht : trim0x (sign ++ digits) = sign ++ digits := by
      rcases h2 with rfl | rfl
      · exact trim0x_digits ((parseNat_iff (by omega)).mpr h3)
      · rfl
    rw [trim0x_append, ht]
    unfold parseHexU16
    rw [parseInt_hex.mpr ⟨sign, digits, rfl, h2, v, h3, h4, rfl⟩]
    simp only [Option.map_some, Int.toNat_natCast]
    exact (hd v h4).mpr h

theorem codePointRead_noDot {s : Str} {n : Nat} (h : CodePointRead s n) : '.' ∉ s := by
  obtain ⟨k, sign, digits, v, rfl, h2, h3, -⟩ := h
  have h1 : '.' ∉ (List.replicate k ['0', 'x']).flatten := by
    simp only [List.mem_flatten, List.mem_replicate]
    rintro ⟨l, ⟨-, rfl⟩, h⟩
    exact absurd h (by decide)
  have h4 : '.' ∉ sign := by rcases h2 with rfl | rfl <;> decide
  simp [h1, h4, digits_noDot h3]

theorem parseBounds_iff {s : Str} {lo hi : Nat} : parseBounds s = .ok (lo, hi) ↔ IntervalRead s lo hi := by
  unfold IntervalRead
  constructor
  · intro h
    unfold parseBounds at h
    split at h
    next a ha =>
      have := splitDots_join ha
      simp only [List.flatMap_nil, List.append_nil] at this
      subst this
      simp only [bind_eq_ok, pure_eq_ok, Except.ok.injEq, Prod.mk.injEq] at h
      obtain ⟨n, h1, rfl, rfl⟩ := h
      exact .inl ⟨parseHexCodepoint_iff.mp h1, rfl⟩
    next a b ha =>
      have := splitDots_join ha
      simp only [bind_eq_ok, pure_eq_ok, Except.ok.injEq, Prod.mk.injEq] at h
      obtain ⟨n, h1, m, h2, rfl, rfl⟩ := h
      exact .inr ⟨a, b, by rw [this]; simp, parseHexCodepoint_iff.mp h1, parseHexCodepoint_iff.mp h2⟩
    next => cases h
  · unfold parseBounds
    rintro (⟨h, rfl⟩ | ⟨a, b, rfl, h1, h2⟩)
    · rw [splitDots_none (codePointRead_noDot h)]
      dsimp only
      rw [parseHexCodepoint_iff.mpr h]; rfl
    · rw [splitDots_cons _ (codePointRead_noDot h1), splitDots_none (codePointRead_noDot h2)]
      dsimp only
      rw [parseHexCodepoint_iff.mpr h1, parseHexCodepoint_iff.mpr h2]; rfl

theorem parseU32R_iff {s : Str} {v : UInt32} : parseU32R s = .ok v ↔ Unsigned s v.toNat := by
  rw [← parseU32_iff]
  unfold parseU32R
  cases parseU32 s <;> simp

theorem parseLine_iff {b b' : CharDefBuilder} {line : Str} : b.parseLine line = .ok b' ↔
    ∃ r, (∃ s, Uncommented line s ∧ DefLineRead s r) ∧ b' = r.elim b b.step := by
  have hx : ∀ s : Str, (['0', 'x'].isPrefixOf s = true) ↔ ['0', 'x'] <+: s := fun s => List.isPrefixOf_iff_prefix
  have key : ∀ s : Str, (if s = [] then .ok b else if ['0', 'x'].isPrefixOf s then b.parseRange s else b.parseCategory s) = (.ok b' : R CharDefBuilder) ↔
      ∃ r, DefLineRead s r ∧ b' = r.elim b b.step := by
    intro s
    by_cases h0 : s = []
    · subst h0
      rw [if_pos rfl]
      constructor
      · intro h; cases h; exact ⟨_, .blank, rfl⟩
      · rintro ⟨r, h, rfl⟩
        cases h with
        | blank => rfl
        | range h1 => exact absurd h1 (by decide)
        | category h1 => exact absurd rfl h1
    · rw [if_neg h0]
      by_cases h1 : ['0', 'x'] <+: s
      · rw [if_pos ((hx s).mpr h1)]
        unfold CharDefBuilder.parseRange
        constructor
        · intro h
          simp only [bind_eq_ok, pure_eq_ok, Except.ok.injEq, orPanic_eq_ok] at h
          obtain ⟨first, hf, ⟨lo, hi⟩, h2, rfl⟩ := h
          cases hw : splitWhitespace s with
          | nil => rw [hw] at hf; cases hf
          | cons bounds names =>
            rw [hw] at hf
            cases hf
            exact ⟨_, .range h1 (splitWhitespace_iff.mp hw) (parseBounds_iff.mp h2), rfl⟩
        · rintro ⟨r, h, rfl⟩
          cases h with
          | blank => exact absurd rfl h0
          | range _ hw hi =>
            simp [splitWhitespace_iff.mpr hw, parseBounds_iff.mpr hi, CharDefBuilder.step]
          | category _ h2 => exact absurd h1 h2
      · rw [if_neg (fun h => h1 ((hx s).mp h))]
        unfold CharDefBuilder.parseCategory
        constructor
        · intro h
          split at h
          next name i g l hw =>
            simp only [bind_eq_ok, pure_eq_ok, Except.ok.injEq] at h
            obtain ⟨iv, hi, gv, hg, lv, hl, rfl⟩ := h
            refine ⟨_, .category h0 h1 (splitAsciiWhitespace_iff.mp hw) (parseU32R_iff.mp hi) iv.toNat_lt (parseU32R_iff.mp hg) gv.toNat_lt (parseU32R_iff.mp hl), ?_⟩
            have e : ∀ v : UInt32, (v == 1) = decide (v.toNat = 1) := by
              intro v
              rw [show (v == 1) = decide (v = 1) from rfl, decide_eq_decide, ← UInt32.toNat_inj]; rfl
            simp only [CharDefBuilder.step, Option.elim_some, e]
          next => cases h
        · rintro ⟨r, h, rfl⟩
          cases h with
          | blank => exact absurd rfl h0
          | range h2 => exact absurd h2 h1
          | @category _ name i g l invoke group length _ _ hw hi hi' hg hg' hl =>
            have e : ∀ n, n < 2 ^ 32 → (UInt32.ofNat n).toNat = n := fun n hn => by
              rw [UInt32.toNat_ofNat', Nat.mod_eq_of_lt hn]
            rw [splitAsciiWhitespace_iff.mpr hw]
            dsimp only
            rw [(parseU32R_iff (v := UInt32.ofNat invoke)).mpr (by rw [e _ hi']; exact hi), (parseU32R_iff (v := UInt32.ofNat group)).mpr (by rw [e _ hg']; exact hg),
              parseU32R_iff.mpr hl]
            have e' : ∀ n, n < 2 ^ 32 → (UInt32.ofNat n == 1) = decide (n = 1) := by
              intro n hn
              rw [show (UInt32.ofNat n == 1) = decide (UInt32.ofNat n = 1) from rfl, decide_eq_decide, ← UInt32.toNat_inj, e _ hn]; rfl
            simp only [bind_ok, e' _ hi', e' _ hg', pure_eq_ok, CharDefBuilder.step, Option.elim_some]
  obtain ⟨rest, hs⟩ := splitAll_head (· = '#') line
  have e : (fun x : Char => !decide (x = '#')) = (fun x => decide (x ≠ '#')) := by
    funext x
    simp
  unfold CharDefBuilder.parseLine
  rw [hs, List.headD_cons, e]
  dsimp only
  change (if uncommented line = [] then _ else if ['0', 'x'].isPrefixOf (uncommented line) = true then b.parseRange (uncommented line)
    else b.parseCategory (uncommented line)) = _ ↔ _
  rw [key]
  constructor
  · rintro ⟨r, h1, h2⟩; exact ⟨r, ⟨_, uncommented_iff.mp rfl, h1⟩, h2⟩
  · rintro ⟨r, ⟨s, h1, h2⟩, h3⟩
    rw [uncommented_iff.mpr h1]; exact ⟨r, h2, h3⟩

theorem parse_iff {b b' : CharDefBuilder} {text : Str} : b.parse text = .ok b' ↔ ∃ file, DefRead text file ∧ b' = file.foldl CharDefBuilder.step b := by
  have key : ∀ (ls : List Str) (b : CharDefBuilder), ls.foldlM CharDefBuilder.parseLine b = .ok b' ↔
      ∃ contents, List.Forall₂ (fun line r => ∃ s, Uncommented line s ∧ DefLineRead s r) ls contents ∧ b' = (contents.filterMap id).foldl CharDefBuilder.step b := by
    intro ls
    induction ls with
    | nil =>
      intro b
      simp only [List.foldlM_nil, pure_eq_ok, Except.ok.injEq]
      constructor
      · rintro rfl; exact ⟨[], .nil, rfl⟩
      · rintro ⟨cs, h, rfl⟩; cases h; rfl
    | cons l ls ih =>
      intro b
      rw [List.foldlM_cons, bind_eq_ok]
      constructor
      · rintro ⟨b1, h1, h2⟩
        obtain ⟨r, h3, rfl⟩ := parseLine_iff.mp h1
        obtain ⟨cs, h4, rfl⟩ := (ih _).mp h2
        refine ⟨r :: cs, .cons h3 h4, ?_⟩
        cases r <;> rfl
      · rintro ⟨cs, h, rfl⟩
        cases h with
        | @cons _ r _ cs h3 h4 =>
          refine ⟨_, parseLine_iff.mpr ⟨r, h3, rfl⟩, (ih _).mpr ⟨cs, h4, ?_⟩⟩
          cases r <;> rfl
  unfold CharDefBuilder.parse DefRead
  rw [key]
  constructor
  · rintro ⟨cs, h1, h2⟩; exact ⟨_, ⟨_, cs, lines_iff.mp rfl, h1, rfl⟩, h2⟩
  · rintro ⟨file, ⟨ls, cs, h1, h2, rfl⟩, h3⟩
    rw [lines_iff.mpr h1]; exact ⟨cs, h2, h3⟩

/-- A readable error, as opposed to a panic. -/
def Readable (e : Fail) : Prop := e = .err .parse ∨ e = .err .content

theorem bind_readable {α β : Type} {x : R α} {f : α → R β} (hx : ∀ e, x = .error e → Readable e) (hf : ∀ a, x = .ok a → ∀ e, f a = .error e → Readable e) :
    ∀ e, (x >>= f) = .error e → Readable e := by
  intro e h
  cases x with
  | error e' => cases h; exact hx _ rfl
  | ok a => exact hf a rfl e h

theorem foldlM_readable {α β : Type} {f : β → α → R β} (hf : ∀ b a e, f b a = .error e → Readable e) (xs : List α) : ∀ (b : β) e, xs.foldlM f b = .error e → Readable e := by
  induction xs with
  | nil => intro b e h; cases h
  | cons x xs ih =>
    intro b
    rw [List.foldlM_cons]
    exact bind_readable (hf b x) fun a _ => ih a

theorem mapM_readable {α β : Type} {f : α → R β} (hf : ∀ a e, f a = .error e → Readable e) (xs : List α) : ∀ e, xs.mapM f = .error e → Readable e := by
  induction xs with
  | nil => intro e h; cases h
  | cons x xs ih =>
    rw [List.mapM_cons]
    exact bind_readable (hf x) fun a _ => bind_readable ih fun b _ e h => by cases h

theorem parse_readable (b : CharDefBuilder) (text : Str) : ∀ e, b.parse text = .error e → Readable e := by
  have h1 : ∀ s e, parseHexCodepoint s = .error e → Readable e := by
    intro s e h
    unfold parseHexCodepoint at h
    split at h
    · unfold ucs2ToUnicode at h
      split at h
      · cases h; exact .inl rfl
      · split at h <;> cases h
    · cases h; exact .inl rfl
  have h2 : ∀ s e, parseBounds s = .error e → Readable e := by
    intro s
    unfold parseBounds
    split
    · exact bind_readable (h1 _) fun a _ e h => by cases h
    · exact bind_readable (h1 _) fun a _ => bind_readable (h1 _) fun b _ e h => by cases h
    · intro e h; cases h; exact .inr rfl
  have h3 : ∀ s e, parseU32R s = .error e → Readable e := by
    intro s e h
    unfold parseU32R at h
    split at h <;> cases h
    exact .inl rfl
  refine foldlM_readable ?_ _ b
  intro b line
  unfold CharDefBuilder.parseLine
  obtain ⟨s, hs⟩ : ∃ s, s = trim ((splitAll (· = '#') line).headD []) := ⟨_, rfl⟩
  rw [← hs]
  dsimp only
  split
  · intro e h; cases h
  · next hne =>
    split
    · next hp =>
      unfold CharDefBuilder.parseRange
      dsimp only
      have : ∃ first rest, splitWhitespace s = first :: rest := by
        obtain ⟨t, rfl⟩ := List.isPrefixOf_iff_prefix.mp hp
        have hw : ∃ w ws, splitAll isWhitespace (['0', 'x'] ++ t) = w :: ws ∧ w ≠ [] := by
          obtain ⟨rest, hr⟩ := splitAll_head isWhitespace (['0', 'x'] ++ t)
          refine ⟨_, _, hr, ?_⟩
          have : isWhitespace '0' = false := by decide
          simp [List.takeWhile_cons, this]
        obtain ⟨w, ws, h1, h2⟩ := hw
        unfold splitWhitespace
        rw [h1, List.filter_cons_of_pos (by simpa using h2)]
        exact ⟨_, _, rfl⟩
      obtain ⟨first, rest, hf⟩ := this
      rw [hf]
      simp only [List.getElem?_cons_zero, orPanic_some, bind_ok]
      exact bind_readable (h2 _) fun a _ e h => by cases h
    · unfold CharDefBuilder.parseCategory
      split
      · exact bind_readable (h3 _) fun a _ => bind_readable (h3 _) fun b _ => bind_readable (h3 _) fun b _ e h => by cases h
      · intro e h; cases h; exact .inr rfl

theorem codePointText_read {s : Str} {n : Nat} (h : CodePointText s n) : CodePointRead s n := by
  obtain ⟨digits, rfl, h1, h2⟩ := h
  exact ⟨1, [], digits, n, rfl, .inl rfl, h1, by omega, by omega, by omega, by rw [if_neg (by omega)]⟩

theorem defText_read {text : Str} {file : List DefLine} (h : DefText text file) : DefRead text file := by
  have hi : ∀ {s lo hi}, IntervalText s lo hi → IntervalRead s lo hi := by
    rintro s lo hi (⟨h, rfl⟩ | ⟨a, b, rfl, h1, h2⟩)
    · exact .inl ⟨codePointText_read h, rfl⟩
    · exact .inr ⟨a, b, rfl, codePointText_read h1, codePointText_read h2⟩
  obtain ⟨ls, cs, h1, h2, rfl⟩ := h
  refine ⟨ls, cs, h1, h2.imp ?_, rfl⟩
  rintro line r ⟨s, h3, h4⟩
  refine ⟨s, h3, ?_⟩
  cases h4 with
  | blank => exact .blank
  | range a b c => exact .range a b (hi c)
  | category a b c d e f g h => exact .category a b c d e f g h

/-! ### `unk.def` -/

/-- What a parsed entry says. -/
def UnkEntry.line (e : UnkEntry) : UnkLine := ⟨e.surface, e.leftId.toUInt16, e.rightId.toUInt16, e.wordCost.toInt16⟩

theorem parseUnkEntry_iff {expected : Nat} (hx : 4 ≤ expected) {line : Str} {l : UnkLine} :
    (∃ e, parseUnkEntry expected (splitAll (· = ',') line) = .ok e ∧ e.line = l) ↔ UnkLineRead expected line l := by
  have hcost : ∀ (x : Int32) (y : Int16), x.toInt16 = y ↔ y.toInt % 2 ^ 16 = x.toInt % 2 ^ 16 := by
    intro x y
    rw [← Int16.toInt_inj, Int32.toInt_toInt16]
    have := y.le_toInt
    have := y.toInt_lt
    simp only [Int.bmod_def]
    omega
  have hid : ∀ (x : UInt32) (y : UInt16), x.toUInt16 = y ↔ y.toNat = x.toNat % 2 ^ 16 := by
    intro x y
    rw [← UInt16.toNat_inj, UInt32.toNat_toUInt16]
    exact eq_comm
  constructor
  · rintro ⟨e, h, rfl⟩
    unfold parseUnkEntry at h
    split at h
    · cases h
    next hl =>
      obtain ⟨fs, hfs⟩ : ∃ fs, fs = splitAll (· = ',') line := ⟨_, rfl⟩
      rw [← hfs] at h hl
      match fs, hfs, hl, h with
      | name :: left :: right :: cost :: details, hfs, hl, h =>
        simp only [List.getElem?_cons_zero, List.getElem?_cons_succ, orPanic_some, bind_ok, bind_eq_ok, pure_eq_ok, Except.ok.injEq, unkU32, unkI32] at h
        obtain ⟨lv, h1, rv, h2, cv, h3, rfl⟩ := h
        refine ⟨left, right, cost, details, (splitAll_iff comma_iff).mp hfs.symm, by simpa using hl, lv.toNat, rv.toNat, cv.toInt, ?_⟩
        split at h1 <;> cases h1
        next p1 =>
        split at h2 <;> cases h2
        next p2 =>
        split at h3 <;> cases h3
        next p3 =>
        have := cv.le_toInt
        have := cv.toInt_lt
        exact ⟨parseU32_iff.mp p1, lv.toNat_lt, (hid _ _).mp rfl, parseU32_iff.mp p2, rv.toNat_lt, (hid _ _).mp rfl, parseI32_iff.mp p3, by omega, by omega, (hcost _ _).mp rfl⟩
      | [], _, hl, _ => simp at hl; omega
      | [_], _, hl, _ => simp at hl; omega
      | [_, _], _, hl, _ => simp at hl; omega
      | [_, _, _], _, hl, _ => simp at hl; omega
  · rintro ⟨left, right, cost, details, h1, h2, lv, rv, cv, h3, h4, h5, h6, h7, h8, h9, h10, h11, h12⟩
    have e : ∀ n, n < 2 ^ 32 → (UInt32.ofNat n).toNat = n := fun n hn => by
      rw [UInt32.toNat_ofNat', Nat.mod_eq_of_lt hn]
    have ec : (Int32.ofInt cv).toInt = cv := Int32.toInt_ofInt_of_le (by omega) (by omega)
    refine ⟨⟨l.name, UInt32.ofNat lv, UInt32.ofNat rv, Int32.ofInt cv⟩, ?_, ?_⟩
    · rw [(splitAll_iff comma_iff).mpr h1]
      unfold parseUnkEntry
      rw [if_neg (by simp [← h2])]
      simp only [List.getElem?_cons_zero, List.getElem?_cons_succ, orPanic_some, bind_ok, unkU32, unkI32, (parseU32_iff (v := UInt32.ofNat lv)).mpr (by rw [e _ h4]; exact h3),
        (parseU32_iff (v := UInt32.ofNat rv)).mpr (by rw [e _ h7]; exact h6), (parseI32_iff (v := Int32.ofInt cv)).mpr (by rw [ec]; exact h9), pure_eq_ok]
    · unfold UnkEntry.line
      have e1 : (UInt32.ofNat lv).toUInt16 = l.left := (hid _ _).mpr (by rw [e _ h4]; exact h5)
      have e2 : (UInt32.ofNat rv).toUInt16 = l.right := (hid _ _).mpr (by rw [e _ h7]; exact h8)
      have e3 : (Int32.ofInt cv).toInt16 = l.cost := (hcost _ _).mpr (by rw [ec]; exact h12)
      rw [e1, e2, e3]

theorem unkEntries_iff {expected : Nat} (hx : 4 ≤ expected) {text : Str} {ls : List UnkLine} :
    (∃ es, ((lines text).mapM fun line => parseUnkEntry expected (splitAll (· = ',') line)) = .ok es ∧ es.map UnkEntry.line = ls) ↔ UnkRead expected text ls := by
  have key : ∀ (ts : List Str) (ls : List UnkLine), (∃ es, (ts.mapM fun line => parseUnkEntry expected (splitAll (· = ',') line)) = .ok es ∧ es.map UnkEntry.line = ls) ↔
      List.Forall₂ (UnkLineRead expected) ts ls := by
    intro ts
    induction ts with
    | nil =>
      intro ls
      constructor
      · rintro ⟨es, h, rfl⟩; cases h; exact .nil
      · intro h; cases h; exact ⟨[], rfl, rfl⟩
    | cons t ts ih =>
      intro ls
      constructor
      · rintro ⟨es, h, rfl⟩
        rw [List.mapM_cons, bind_eq_ok] at h
        obtain ⟨e, h1, h⟩ := h
        rw [bind_eq_ok] at h
        obtain ⟨es, h2, h⟩ := h
        cases h
        exact .cons ((parseUnkEntry_iff hx).mp ⟨e, h1, rfl⟩) ((ih _).mp ⟨es, h2, rfl⟩)
      · intro h
        cases h with
        | cons h1 h2 =>
          obtain ⟨e, h3, rfl⟩ := (parseUnkEntry_iff hx).mpr h1
          obtain ⟨es, h4, rfl⟩ := (ih _).mpr h2
          exact ⟨e :: es, by rw [List.mapM_cons, h3, bind_ok, h4]; rfl, rfl⟩
  rw [key]
  constructor
  · intro h; exact ⟨_, lines_iff.mp rfl, h⟩
  · rintro ⟨ts, h1, h2⟩
    rw [lines_iff.mpr h1]; exact h2

theorem entryIdsMatching_line (es : List UnkEntry) (target : Str) : entryIdsMatching es target = entryIdsMatching ((es.map UnkEntry.line).map unkOf) target := by
  unfold entryIdsMatching
  have : ∀ k, ((es.zipIdx k).filterMap fun (e, i) => if e.surface = target then some (UInt32.ofNat i) else none) =
      ((((es.map UnkEntry.line).map unkOf).zipIdx k).filterMap fun (e, i) => if e.surface = target then some (UInt32.ofNat i) else none) := by
    induction es with
    | nil => intro k; rfl
    | cons e es ih =>
      intro k
      simp only [List.map_cons, List.zipIdx_cons, List.filterMap_cons, ih (k + 1)]
      rfl
  exact this 0

theorem parseUnkEntry_readable {expected : Nat} (hx : 4 ≤ expected) (fields : List Str) : ∀ e, parseUnkEntry expected fields = .error e → Readable e := by
  unfold parseUnkEntry
  split
  · intro e h; cases h; exact .inr rfl
  next hl =>
    match fields, hl with
    | name :: left :: right :: cost :: details, hl =>
      simp only [List.getElem?_cons_zero, List.getElem?_cons_succ, orPanic_some, bind_ok, unkU32, unkI32]
      refine bind_readable ?_ fun _ _ => bind_readable ?_ fun _ _ => bind_readable ?_ fun _ _ e h => by cases h
      all_goals
        intro e h
        split at h <;> cases h
        exact .inl rfl
    | [], hl => simp at hl; omega
    | [_], hl => simp at hl; omega
    | [_, _], hl => simp at hl; omega
    | [_, _, _], hl => simp at hl; omega

/-! ### `matrix.def` -/

theorem toUInt32_toNat (x : Int32) : (x.toUInt32.toNat : Int) = x.toInt % 2 ^ 32 := by
  have h := x.toUInt32.toNat_lt
  have : x.toInt = (x.toUInt32.toNat : Int).bmod (2 ^ 32) := by
    rw [← Int32.toNat_toBitVec]
    exact BitVec.toInt_eq_toNat_bmod _
  rw [this]
  have e : ((2 ^ 32 : Nat) : Int) = 2 ^ 32 := by decide
  rw [← e, Int.bmod_emod, e, Int.emod_eq_of_lt (by omega) (by omega)]

theorem place (f b backward : Int32) : ((b.toUInt32 + f.toUInt32 * backward.toUInt32).toNat : Int) = (b.toInt + f.toInt * backward.toInt) % 2 ^ 32 := by
  rw [UInt32.toNat_add, UInt32.toNat_mul]
  have e : ((2 ^ 32 : Nat) : Int) = 2 ^ 32 := by decide
  rw [Int.natCast_emod, Int.natCast_add, Int.natCast_emod, Int.natCast_mul, e, toUInt32_toNat, toUInt32_toNat, toUInt32_toNat]
  rw [Int.add_emod (b.toInt % 2 ^ 32), Int.emod_emod_of_dvd _ (by decide), ← Int.mul_emod, Int.emod_emod_of_dvd _ (by decide), ← Int.add_emod]

theorem sizes (f b : Int32) : ((f.toUInt32 * b.toUInt32).toNat : Int) = f.toInt * b.toInt % 2 ^ 32 := by
  rw [UInt32.toNat_mul]
  have e : ((2 ^ 32 : Nat) : Int) = 2 ^ 32 := by decide
  rw [Int.natCast_emod, Int.natCast_mul, e, toUInt32_toNat, toUInt32_toNat, ← Int.mul_emod]

theorem numberLines_iff {text : Str} {rows : List (List Int32)} : parseMatrix text = .ok rows ↔ NumberLines text (rows.map (·.map Int32.toInt)) := by
  unfold parseMatrix NumberLines
  rw [mapM_ok_iff, forall₂_iff (fun _ _ => numberLine_iff)]
  constructor
  · intro h
    refine ⟨_, lines_iff.mp rfl, List.forall₂_map_right_iff.mpr h, ?_⟩
    intro row hr z hz
    obtain ⟨r, -, rfl⟩ := List.mem_map.mp hr
    obtain ⟨x, -, rfl⟩ := List.mem_map.mp hz
    exact ⟨x.le_toInt, x.toInt_lt⟩
  · rintro ⟨ls, h1, h2, -⟩
    rw [lines_iff.mpr h1]
    exact List.forall₂_map_right_iff.mp h2

theorem numberLines_bits {text : Str} {rows : List (List Int)} (h : NumberLines text rows) : ∃ rows' : List (List Int32), rows = rows'.map (·.map Int32.toInt) := by
  obtain ⟨-, -, -, h⟩ := h
  refine ⟨rows.map (·.map Int32.ofInt), ?_⟩
  rw [List.map_map]
  have : ∀ row ∈ rows, ((fun r => List.map Int32.toInt r) ∘ fun r => List.map Int32.ofInt r) row = row := by
    intro row hr
    simp only [Function.comp_apply, List.map_map]
    have : ∀ z ∈ row, (Int32.toInt ∘ Int32.ofInt) z = z := fun z hz => Int32.toInt_ofInt_of_le (h row hr z hz).1 (by have := (h row hr z hz).2; omega)
    rw [List.map_congr_left this]; simp
  rw [List.map_congr_left this]; simp

theorem parseMatrix_error {text : Str} {e : Fail} (h : parseMatrix text = .error e) : e = .err .parse := by
  have : ∀ ls : List Str, ∀ e, ls.mapM parseMatrixLine = .error e → e = .err .parse := by
    intro ls
    induction ls with
    | nil => intro e h; cases h
    | cons l ls ih =>
      intro e h
      rw [List.mapM_cons] at h
      cases h1 : parseMatrixLine l with
      | error e' =>
        rw [h1] at h
        cases h
        unfold parseMatrixLine at h1
        split at h1 <;> cases h1
        rfl
      | ok v =>
        rw [h1, bind_ok] at h
        cases hr : ls.mapM parseMatrixLine with
        | ok r => rw [hr] at h; cases h
        | error e' => rw [hr] at h; cases h; exact ih _ hr
  exact this _ _ h

theorem matrixStep_cases (F B : Int32) (costs : List Int16) (hlen : costs.length = 2 + (F.toUInt32 * B.toUInt32).toNat) (row : List Int32) :
    (Stored F.toInt B.toInt (row.map Int32.toInt) ∧ ∃ costs', matrixStep B.toUInt32 costs row = .ok costs' ∧ costs'.length = costs.length) ∨
    (¬ Stored F.toInt B.toInt (row.map Int32.toInt) ∧ matrixStep B.toUInt32 costs row = .error .panic) := by
  have hp := fun f b => place f b B
  have hs := sizes F B
  unfold matrixStep Stored
  match row with
  | [] => exact .inr ⟨(by rintro ⟨f, b, c, rest, h, -⟩; cases h), rfl⟩
  | [_] => exact .inr ⟨(by rintro ⟨f, b, c, rest, h, -⟩; cases h), rfl⟩
  | [_, _] => exact .inr ⟨(by rintro ⟨f, b, c, rest, h, -⟩; cases h), rfl⟩
  | f :: b :: c :: rest =>
    simp only [List.getElem?_cons_zero, List.getElem?_cons_succ, orPanic_some, bind_ok, pure_eq_ok]
    have hp := hp f b
    by_cases h : 2 + (b.toUInt32 + f.toUInt32 * B.toUInt32).toNat < costs.length
    · refine .inl ⟨⟨_, _, _, _, rfl, ?_⟩, ?_⟩
      · rw [← hp, ← hs]; omega
      · rw [if_pos h]
        exact ⟨_, rfl, List.length_set⟩
    · refine .inr ⟨?_, by rw [if_neg h]⟩
      rintro ⟨f', b', c', rest', h1, h2⟩
      cases h1
      rw [← hp, ← hs] at h2
      omega

theorem matrixLoop_cases (F B : Int32) (rows : List (List Int32)) : ∀ (costs : List Int16), costs.length = 2 + (F.toUInt32 * B.toUInt32).toNat →
    ((∀ row ∈ rows, Stored F.toInt B.toInt (row.map Int32.toInt)) ∧ ∃ costs', rows.foldlM (matrixStep B.toUInt32) costs = .ok costs') ∨
    ((∃ row ∈ rows, ¬ Stored F.toInt B.toInt (row.map Int32.toInt)) ∧ rows.foldlM (matrixStep B.toUInt32) costs = .error .panic) := by
  induction rows with
  | nil => intro costs _; exact .inl ⟨by simp, costs, rfl⟩
  | cons row rows ih =>
    intro costs hlen
    rcases matrixStep_cases F B costs hlen row with ⟨h1, costs', h2, h3⟩ | ⟨h1, h2⟩
    · rcases ih costs' (h3.trans hlen) with ⟨h4, h5⟩ | ⟨⟨r, h4, h4'⟩, h5⟩
      · refine .inl ⟨fun r hr => ?_, ?_⟩
        · rcases List.mem_cons.mp hr with rfl | hr
          · exact h1
          · exact h4 r hr
        · rw [List.foldlM_cons, h2, bind_ok]; exact h5
      · refine .inr ⟨⟨r, List.mem_cons_of_mem _ h4, h4'⟩, ?_⟩
        rw [List.foldlM_cons, h2, bind_ok]; exact h5
    · exact .inr ⟨⟨row, List.mem_cons_self, h1⟩, by rw [List.foldlM_cons, h2]; rfl⟩

end Verif.Model
