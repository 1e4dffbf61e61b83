import Verif.Props.CharDef
import Verif.Props.Matrix
import Verif.Proofs.Accepted
/-! C69: the definition files are read as they are written or rejected. -/
namespace Verif.Props
open Verif.Model Verif.Spec

/-- C69 for `char.def`: the compiler accepts exactly the texts that `DefRead` describes; the categories of every character are then those of the lines. All other texts are reported with an
error, without a panic. -/
theorem c69_char_def (text : Str) :
    (∀ file, DefRead text file → ∃ d, Compiles text d ∧ ∀ c : Char, ∃ ids, d.lookupCategories c = .ok ids ∧ ids.mapM d.categoryName = .ok (categoriesOf file c.toNat)) ∧
    ((¬ ∃ file, DefRead text file) → CharDefBuilder.empty.parse text = .error (.err .parse) ∨ CharDefBuilder.empty.parse text = .error (.err .content)) := by
  constructor
  · intro file h
    obtain ⟨d, h1, h2⟩ := categories_read text file h
    refine ⟨d, h1, fun c => ?_⟩
    obtain ⟨ids, h3, -, h4⟩ := h2 c
    exact ⟨ids, h3, h4⟩
  · intro h
    cases hp : CharDefBuilder.empty.parse text with
    | ok b =>
      obtain ⟨file, h1, -⟩ := parse_iff.mp hp
      exact absurd ⟨file, h1⟩ h
    | error e =>
      rcases parse_readable _ _ e hp with rfl | rfl
      · exact .inl rfl
      · exact .inr rfl

/-- C69 for `char.def`: well-formed files are read as they are written. -/
theorem c69_char_def_well_formed (text : Str) (file : List DefLine) (h : DefText text file) : DefRead text file := defText_read h

/-- C69 is violated for `char.def`: a limit that is a surrogate is taken for U+FFFD, so that the range reaches over characters that it does not contain. -/
theorem c69_surrogate_fails (digits : Str) (v : Nat) (hd : Digits 16 digits v) (hv : 0xD800 ≤ v ∧ v < 0xE000) :
    IntervalRead ("0xD000..0x".toList ++ digits) 0xD000 0xFFFD := by
  have e : "0xD000..0x".toList ++ digits = "0xD000".toList ++ ['.', '.'] ++ (['0', 'x'] ++ digits) := by
    rw [show "0xD000..0x".toList = "0xD000".toList ++ ['.', '.'] ++ ['0', 'x'] by decide, List.append_assoc]
  refine .inr ⟨_, _, e, ?_, ?_⟩
  · exact parseHexCodepoint_iff.mp (by decide +kernel)
  · exact ⟨1, [], digits, v, rfl, .inl rfl, hd, by omega, by omega, by omega, by rw [if_pos hv]⟩

/-- C69 is violated for `char.def`: the whole file with such a range; the private use character U+E000 gets the category. -/
theorem c69_surrogate_category_fails : ∃ text file, text = "DEFAULT 0 1 0\nA 1 1 0\n0xD000..0xDFFF A".toList ∧ DefRead text file ∧ categoriesOf file 0xE000 = [['A']] := by
  refine ⟨_, [.category "DEFAULT".toList ⟨false, true, 0⟩, .category ['A'] ⟨true, true, 0⟩, .range 0xD000 0xFFFD [['A']]], rfl, ?_, by decide +kernel⟩
  refine ⟨_, [some (.category "DEFAULT".toList ⟨false, true, 0⟩), some (.category ['A'] ⟨true, true, 0⟩), some (.range 0xD000 0xFFFD [['A']])],
    lines_iff.mp rfl, ?_, rfl⟩
  have hl : lines "DEFAULT 0 1 0\nA 1 1 0\n0xD000..0xDFFF A".toList = ["DEFAULT 0 1 0".toList, "A 1 1 0".toList, "0xD000..0xDFFF A".toList] := by decide +kernel
  rw [hl]
  have d0 : Unsigned "0".toList 0 := by have := (parseU32_iff (s := "0".toList) (v := 0)).mp (by decide +kernel); simpa using this
  have d1 : Unsigned "1".toList 1 := by have := (parseU32_iff (s := "1".toList) (v := 1)).mp (by decide +kernel); simpa using this
  have u32 : (0 : UInt32).toNat = 0 := rfl
  refine .cons ⟨_, uncommented_iff.mp rfl, ?_⟩ (.cons ⟨_, uncommented_iff.mp rfl, ?_⟩ (.cons ⟨_, uncommented_iff.mp rfl, ?_⟩ .nil))
  · exact .category (name := "DEFAULT".toList) (i := "0".toList) (g := "1".toList) (l := "0".toList) (invoke := 0) (group := 1) (length := 0)
      (by decide +kernel) (by decide +kernel) (splitAsciiWhitespace_iff.mp (by decide +kernel)) d0 (by omega) d1 (by omega) d0
  · exact .category (name := ['A']) (i := "1".toList) (g := "1".toList) (l := "0".toList) (invoke := 1) (group := 1) (length := 0)
      (by decide +kernel) (by decide +kernel) (splitAsciiWhitespace_iff.mp (by decide +kernel)) d1 (by omega) d1 (by omega) d0
  · exact .range (bounds := "0xD000..0xDFFF".toList) (by decide +kernel) (splitWhitespace_iff.mp (by decide +kernel)) (parseBounds_iff.mp (by decide +kernel))

/-- C69 for `unk.def`, with at least four columns: the compiler accepts exactly the texts that `UnkRead` describes; looking up a category then lists its lines. All other texts are reported
with an error, without a panic. -/
theorem c69_unk (categories : List Str) (expected : Nat) (hx : 4 ≤ expected) (text : Str) :
    (∀ ls, UnkRead expected text ls → ls.length ≤ 2 ^ 32 → ∃ u, parseUnk categories text expected = .ok u ∧ ∀ cat name, categories[cat]? = some name →
      ∃ ids, u.lookupWordIds cat = .ok ids ∧ ids.mapM u.wordEntry = .ok ((ls.filter fun l => l.name = name).map UnkLine.entry)) ∧
    ((¬ ∃ ls, UnkRead expected text ls) → parseUnk categories text expected = .error (.err .parse) ∨ parseUnk categories text expected = .error (.err .content)) := by
  constructor
  · intro ls h hlen
    obtain ⟨es, h1, rfl⟩ := (unkEntries_iff hx).mpr h
    have hc : makeCostsArray es = (es.map UnkEntry.line).map UnkLine.entry := by
      unfold makeCostsArray
      rw [List.map_map]; rfl
    refine ⟨⟨makeCategoryReferences categories es, makeCostsArray es⟩, by unfold parseUnk; rw [h1]; rfl, ?_⟩
    intro cat name hn
    refine ⟨entryIdsMatching es name, by simp [UnkDict.lookupWordIds, makeCategoryReferences, hn], ?_⟩
    rw [hc, entryIdsMatching_line]
    exact lookup_entries _ (es.map UnkEntry.line) name hlen [] _ rfl
  · intro h
    unfold parseUnk
    cases hp : (lines text).mapM fun line => parseUnkEntry expected (splitAll (· = ',') line) with
    | ok es => exact absurd ⟨_, (unkEntries_iff hx).mp ⟨es, hp, rfl⟩⟩ h
    | error e =>
      rcases mapM_readable (fun line => parseUnkEntry_readable hx (splitAll (· = ',') line)) _ e hp with rfl | rfl
      · exact .inl rfl
      · exact .inr rfl

/-- C69 for `matrix.def`: what happens for every text. A line with anything but numbers is an error, and so is an empty file; a header with two sizes and cost lines that can be stored are accepted. (Partial:
in all other cases the compiler panics, see `c69_matrix_fails`.) -/
theorem c69_matrix_partial (text : Str) :
    ((¬ ∃ rows, NumberLines text rows) → buildMatrix text = .error (.err .parse)) ∧
    (NumberLines text [] → buildMatrix text = .error (.err .content)) ∧
    (∀ f b junk rows, NumberLines text ((f :: b :: junk) :: rows) → (∀ row ∈ rows, Stored f b row) → ∃ bytes, buildMatrix text = .ok bytes) := by
  refine ⟨fun h => ?_, fun h => ?_, fun f b junk rows h hs => ?_⟩
  · unfold buildMatrix
    cases hp : parseMatrix text with
    | ok rows => exact absurd ⟨_, numberLines_iff.mp hp⟩ h
    | error e => rw [parseMatrix_error hp]; rfl
  · unfold buildMatrix
    rw [(numberLines_iff (rows := [])).mpr h]; rfl
  · obtain ⟨rows', e⟩ := numberLines_bits h
    cases rows' with
    | nil => cases e
    | cons header rest =>
      rw [List.map_cons, List.cons.injEq] at e
      obtain ⟨e1, rfl⟩ := e
      match header, e1 with
      | F :: B :: junk', e1 =>
        simp only [List.map_cons, List.cons.injEq] at e1
        obtain ⟨rfl, rfl, rfl⟩ := e1
        unfold buildMatrix
        rw [(numberLines_iff (rows := (F :: B :: junk') :: rest)).mpr (by simpa using h), bind_ok]
        unfold matrixBytes
        simp only [List.getElem?_cons_zero, List.getElem?_cons_succ, orPanic_some, bind_ok]
        rcases matrixLoop_cases F B rest (F.toUInt32.toUInt16.toInt16 :: B.toUInt32.toUInt16.toInt16 :: List.replicate (2 + (F.toUInt32 * B.toUInt32).toNat - 2) 32767)
          (by simp; omega) with ⟨-, cs, h2⟩ | ⟨⟨row, h1, h1'⟩, -⟩
        · rw [h2]; exact ⟨_, rfl⟩
        · exact absurd (hs _ (List.mem_map_of_mem h1)) h1'
      | [], e1 => cases e1
      | [_], e1 => cases e1

/-- C69 is violated for `matrix.def`: the compiler panics on a header with less than two numbers and on every cost line with less than three numbers or with ids outside of the matrix. -/
theorem c69_matrix_fails (text : Str) (header : List Int) (rows : List (List Int)) (h : NumberLines text (header :: rows))
    (hbad : header.length < 2 ∨ ∃ f b junk, header = f :: b :: junk ∧ ∃ row ∈ rows, ¬ Stored f b row) : buildMatrix text = .error .panic := by
  obtain ⟨rows', e⟩ := numberLines_bits h
  cases rows' with
  | nil => cases e
  | cons header' rest =>
    rw [List.map_cons, List.cons.injEq] at e
    obtain ⟨rfl, rfl⟩ := e
    unfold buildMatrix
    rw [(numberLines_iff (rows := header' :: rest)).mpr (by simpa using h), bind_ok]
    unfold matrixBytes
    match header', hbad with
    | [], _ => rfl
    | [_], _ => rfl
    | F :: B :: junk', hbad =>
      rcases hbad with hbad | ⟨f, b, junk, e1, row, hr, hs⟩
      · simp at hbad; omega
      · simp only [List.map_cons, List.cons.injEq] at e1
        obtain ⟨rfl, rfl, rfl⟩ := e1
        simp only [List.getElem?_cons_zero, List.getElem?_cons_succ, orPanic_some, bind_ok]
        rcases matrixLoop_cases F B rest (F.toUInt32.toUInt16.toInt16 :: B.toUInt32.toUInt16.toInt16 :: List.replicate (2 + (F.toUInt32 * B.toUInt32).toNat - 2) 32767)
          (by simp; omega) with ⟨h1, -⟩ | ⟨-, h2⟩
        · obtain ⟨r, hr', rfl⟩ := List.mem_map.mp hr
          exact absurd (h1 r hr') hs
        · rw [h2]; rfl

/-! ### Non-vacuity -/

/-- A file that is accepted although it is not well-formed, one that is rejected, and one line for each error of `matrix.def`. -/
example : ∃ file, DefRead "A 1 0 2\n0x0x30..39 A # two prefixes, and none".toList file := by
  have h : ∃ b, CharDefBuilder.empty.parse "A 1 0 2\n0x0x30..39 A # two prefixes, and none".toList = .ok b := ⟨⟨[⟨true, false, 2⟩], [(['A'], 0)], [(0x30, 0x39, [0])]⟩, by decide +kernel⟩
  obtain ⟨b, h⟩ := h
  obtain ⟨file, h1, -⟩ := parse_iff.mp h
  exact ⟨file, h1⟩
example : ¬ ∃ file, DefRead "A 1 0".toList file := by
  rintro ⟨file, h⟩
  have h1 := (parse_iff (b := .empty)).mpr ⟨file, h, rfl⟩
  rw [show CharDefBuilder.empty.parse "A 1 0".toList = .error (.err .content) by decide +kernel] at h1
  cases h1
example : ∃ ls, UnkRead 4 "A,65537,65536,40000".toList ls := by
  have h : ∃ es, ((lines "A,65537,65536,40000".toList).mapM fun line => parseUnkEntry 4 (splitAll (· = ',') line)) = .ok es := ⟨[⟨['A'], 65537, 65536, 40000⟩], by decide +kernel⟩
  obtain ⟨es, h⟩ := h
  exact ⟨_, (unkEntries_iff (by omega)).mp ⟨es, h, rfl⟩⟩
example : NumberLines "1 1\n0 0 5\n0 1 5".toList [[1, 1], [0, 0, 5], [0, 1, 5]] ∧ Stored 1 1 [0, 0, 5] ∧ ¬ Stored 1 1 [0, 1, 5] := by
  refine ⟨?_, ⟨_, _, _, _, rfl, by decide⟩, ?_⟩
  · have := (numberLines_iff (text := "1 1\n0 0 5\n0 1 5".toList) (rows := [[1, 1], [0, 0, 5], [0, 1, 5]])).mp (by decide +kernel)
    exact this
  · rintro ⟨f, b, c, rest, h, h1⟩
    cases h
    exact absurd h1 (by decide)

end Verif.Props
