import Verif.Spec.Rows
import Verif.Props.Exact
/-! Which row decides about the error of a user dictionary build. -/
namespace Verif.Model
open Verif.Spec Verif.Props

theorem foldlM_verdict {σ α : Type} {f : σ → α → R σ} {g : α → Option Fail} (hok : ∀ s x, g x = none → ∃ s', f s x = .ok s')
    (herr : ∀ s x e, g x = some e → f s x = .error e) (xs : List α) (s : σ) :
    (∀ e, xs.foldlM f s = .error e ↔ xs.findSome? g = some e) ∧ ((∃ s', xs.foldlM f s = .ok s') ↔ ∀ x ∈ xs, g x = none) := by
  induction xs generalizing s with
  | nil => exact ⟨fun e => by simp, by simp⟩
  | cons x xs ih =>
    rw [List.foldlM_cons, List.findSome?_cons]
    cases hg : g x with
    | none =>
      obtain ⟨s', h⟩ := hok s x hg
      rw [h, bind_ok]
      simpa [hg] using ih s'
    | some e =>
      rw [herr s x e hg, bind_error]
      exact ⟨fun e' => by simp, by simp [hg]⟩

theorem findSome?_earliest {α : Type} {g : α → Option Fail} {lt : α → α → Prop} (hasymm : ∀ a b, lt a b → ¬ lt b a) {xs : List α} (h : xs.Pairwise lt) (e : Fail) :
    xs.findSome? g = some e ↔ ∃ x ∈ xs, g x = some e ∧ ∀ y ∈ xs, lt y x → g y = none ∨ g y = some e := by
  induction xs with
  | nil => simp
  | cons a xs ih =>
    rw [List.pairwise_cons] at h
    rw [List.findSome?_cons]
    cases hg : g a with
    | none =>
      simp only [ih h.2]
      constructor
      · rintro ⟨x, hx, h1, h2⟩
        refine ⟨x, by simp [hx], h1, fun y hy hlt => ?_⟩
        rcases List.mem_cons.mp hy with rfl | hy
        · exact .inl hg
        · exact h2 y hy hlt
      · rintro ⟨x, hx, h1, h2⟩
        rcases List.mem_cons.mp hx with rfl | hx
        · rw [hg] at h1; cases h1
        · exact ⟨x, hx, h1, fun y hy => h2 y (by simp [hy])⟩
    | some e' =>
      simp only [Option.some.injEq]
      constructor
      · rintro rfl
        refine ⟨a, by simp, hg, fun y hy hlt => ?_⟩
        rcases List.mem_cons.mp hy with rfl | hy
        · exact absurd hlt (hasymm _ _ hlt)
        · exact absurd hlt (hasymm _ _ (h.1 y hy))
      · rintro ⟨x, hx, h1, h2⟩
        rcases List.mem_cons.mp hx with rfl | hx
        · rw [hg] at h1; exact Option.some.inj h1
        · rcases h2 a (by simp) (h.1 x hx) with h3 | h3
          · rw [hg] at h3; cases h3
          · rw [hg] at h3; exact Option.some.inj h3

theorem bytesLe_false_iff {a b : List UInt8} : bytesLe b a = false ↔ List.Lex (· < ·) a b := by
  induction a generalizing b with
  | nil =>
    cases b with
    | nil => simp [bytesLe]
    | cons y ys => exact ⟨fun _ => .nil, fun _ => rfl⟩
  | cons x xs ih =>
    cases b with
    | nil => exact ⟨fun h => by simp [bytesLe] at h, fun h => by cases h⟩
    | cons y ys =>
      have hlex : List.Lex (· < ·) (x :: xs) (y :: ys) ↔ x < y ∨ x = y ∧ List.Lex (· < ·) xs ys := by
        constructor
        · intro h
          cases h with
          | rel h => exact .inl h
          | cons h => exact .inr ⟨rfl, h⟩
        · rintro (h | ⟨rfl, h⟩)
          · exact .rel h
          · exact .cons h
      rw [hlex, ← ih]
      simp only [bytesLe, Bool.or_eq_false_iff, decide_eq_false_iff_not, Bool.and_eq_false_imp, beq_iff_eq]
      constructor
      · rintro ⟨h1, h2⟩
        by_cases he : x = y
        · exact .inr ⟨he, h2 he.symm⟩
        · left
          rcases Nat.lt_trichotomy x.toNat y.toNat with h | h | h
          · exact UInt8.lt_iff_toNat_lt.mpr h
          · exact absurd (UInt8.toNat_inj.mp h) he
          · exact absurd (UInt8.lt_iff_toNat_lt.mpr h) h1
      · rintro (h | ⟨rfl, h⟩)
        · have h := UInt8.lt_iff_toNat_lt.mp h
          exact ⟨fun h' => by have := UInt8.lt_iff_toNat_lt.mp h'; omega, fun he => by subst he; omega⟩
        · exact ⟨fun h' => by have := UInt8.lt_iff_toNat_lt.mp h'; omega, fun _ => h⟩

/-- The order of the sort, on rows with their places in the file. -/
def placedBefore (a b : Row × Nat) : Prop := strLe b.1.first a.1.first = false ∨ a.1.first = b.1.first ∧ a.2 < b.2

theorem placedBefore_asymm (a b : Row × Nat) (h : placedBefore a b) : ¬ placedBefore b a := by
  rintro h'
  rcases h with h | ⟨h, hi⟩ <;> rcases h' with h' | ⟨h', hi'⟩
  · rcases strLe_total a.1.first b.1.first with h1 | h1
    · rw [h'] at h1; cases h1
    · rw [h] at h1; cases h1
  · rw [h', strLe_refl] at h; cases h
  · rw [h, strLe_refl] at h'; cases h'
  · omega

theorem insertSorted_map {α β : Type} (key : β → Str) (f : α → β) (x : α) (ys : List α) : (insertSorted (key ∘ f) x ys).map f = insertSorted key (f x) (ys.map f) := by
  induction ys with
  | nil => rfl
  | cons y ys ih =>
    simp only [insertSorted, List.map_cons, Function.comp_apply]
    split
    · rfl
    · rw [List.map_cons, ih]

theorem sortByKey_map {α β : Type} (key : β → Str) (f : α → β) (xs : List α) : (sortByKey (key ∘ f) xs).map f = sortByKey key (xs.map f) := by
  induction xs with
  | nil => rfl
  | cons x xs ih =>
    show (insertSorted (key ∘ f) x (sortByKey (key ∘ f) xs)).map f = insertSorted key (f x) (sortByKey key (xs.map f))
    rw [insertSorted_map, ih]

theorem insertSorted_placed (x : Row × Nat) (ys : List (Row × Nat)) (h : ys.Pairwise placedBefore) (hx : ∀ y ∈ ys, x.2 < y.2) :
    (insertSorted (Row.first ∘ Prod.fst) x ys).Pairwise placedBefore := by
  induction ys with
  | nil => simp [insertSorted]
  | cons y ys ih =>
    rw [List.pairwise_cons] at h
    simp only [insertSorted, Function.comp_apply]
    split
    · rename_i hle
      have key : ∀ z, strLe x.1.first z.1.first = true → x.2 < z.2 → placedBefore x z := by
        intro z hz hi
        cases hc : strLe z.1.first x.1.first with
        | false => exact .inl hc
        | true => exact .inr ⟨strLe_antisymm hz hc, hi⟩
      rw [List.pairwise_cons, List.pairwise_cons]
      refine ⟨fun z hz => ?_, h⟩
      refine key z ?_ (hx z hz)
      rcases List.mem_cons.mp hz with rfl | hz
      · exact hle
      · rcases h.1 z hz with h1 | ⟨h1, _⟩
        · exact strLe_trans hle ((strLe_total _ _).resolve_right (by rw [h1]; simp))
        · rw [← h1]; exact hle
    · rename_i hle
      rw [List.pairwise_cons]
      refine ⟨fun z hz => ?_, ih h.2 fun z hz => hx z (by simp [hz])⟩
      rcases List.mem_cons.mp ((insertSorted_perm _ x ys).mem_iff.mp hz) with rfl | hz
      · exact .inl (by simpa using hle)
      · exact h.1 z hz

theorem sortByKey_placed (rows : List Row) (n : Nat) : (sortByKey (Row.first ∘ Prod.fst) (rows.zipIdx n)).Pairwise placedBefore := by
  induction rows generalizing n with
  | nil => exact .nil
  | cons r rows ih =>
    rw [List.zipIdx_cons]
    refine insertSorted_placed (r, n) _ (ih (n + 1)) fun y hy => ?_
    have := (sortByKey_perm _ _).mem_iff.mp hy
    have := List.le_snd_of_mem_zipIdx this
    simp only
    omega

open Classical in
/-- What is wrong with the numbers of a row. -/
noncomputable def verdict (row : Row) : Option Fail := if row.fields.length < 3 then some .panic else if BadNumber row then some (.err .parse) else none

theorem verdict_panic {row : Row} : verdict row = some .panic ↔ row.fields.length < 3 := by
  unfold verdict; split
  · simp [*]
  · split <;> simp [*]

theorem badNumber_long {row : Row} (h : BadNumber row) : 3 < row.fields.length := by
  obtain ⟨a, b, c, d, e, h, -⟩ := h
  rw [h]; simp

theorem verdict_parse {row : Row} : verdict row = some (.err .parse) ↔ BadNumber row := by
  unfold verdict; split
  · rename_i h
    refine ⟨fun h => (by cases h), fun h' => ?_⟩
    have := badNumber_long h'; omega
  · split <;> simp [*]

theorem verdict_none {row : Row} : verdict row = none ↔ 3 ≤ row.fields.length ∧ ¬ BadNumber row := by
  unfold verdict; split
  · simp only [reduceCtorEq, false_iff]; omega
  · split
    · simp [*]
    · simp [*]; omega

theorem verdict_cases (row : Row) : verdict row = none ∨ verdict row = some .panic ∨ verdict row = some (.err .parse) := by
  unfold verdict; split
  · simp
  · split <;> simp

theorem numbers_verdict (kind : DictionaryKind) (row : Row) :
    (verdict row = none → ∃ n, (UserCfg.ofKind kind).numbers row = .ok n) ∧ ∀ e, verdict row = some e → (UserCfg.ofKind kind).numbers row = .error e := by
  constructor
  · intro h
    obtain ⟨h3, hb⟩ := verdict_none.mp h
    obtain ⟨a, rest⟩ := row
    match rest, h3, hb with
    | [pos, reading], _, _ => exact ⟨_, rfl⟩
    | left :: right :: cost :: details, _, hb =>
      unfold UserCfg.numbers
      rw [if_neg (by simp [Row.fields, UserCfg.ofKind])]
      simp only [Row.fields, List.getElem?_cons_succ, List.getElem?_cons_zero, orPanic_some, bind_ok]
      cases hc : parseI16 cost with
      | none => exact absurd ⟨a, left, right, cost, details, rfl, .inr (.inr hc)⟩ hb
      | some c =>
        cases hl : parseU16 left with
        | none => exact absurd ⟨a, left, right, cost, details, rfl, .inl hl⟩ hb
        | some l =>
          cases hr : parseU16 right with
          | none => exact absurd ⟨a, left, right, cost, details, rfl, .inr (.inl hr)⟩ hb
          | some r => exact ⟨_, rfl⟩
  · intro e h
    rcases verdict_cases row with h' | h' | h'
    · rw [h'] at h; cases h
    · rw [h'] at h; cases h
      have h3 := verdict_panic.mp h'
      unfold UserCfg.numbers
      rw [if_neg (by simp only [UserCfg.ofKind]; omega), List.getElem?_eq_none (by omega)]
      rfl
    · rw [h'] at h; cases h
      obtain ⟨surface, left, right, cost, details, hf, hb⟩ := verdict_parse.mp h'
      unfold UserCfg.numbers
      rw [if_neg (by rw [hf]; simp [UserCfg.ofKind])]
      simp only [hf, List.getElem?_cons_succ, List.getElem?_cons_zero, orPanic_some, bind_ok]
      cases hc : parseI16 cost with
      | none => rfl
      | some c =>
        cases hl : parseU16 left with
        | none => rfl
        | some l =>
          cases hr : parseU16 right with
          | none => rfl
          | some r => simp [hc, hl, hr] at hb

theorem readRows_cases (kind : DictionaryKind) (rows : List Row) : (SameColumns kind rows ∧ (UserCfg.ofKind kind).readRows rows = .ok rows) ∨
    (¬ SameColumns kind rows ∧ (UserCfg.ofKind kind).readRows rows = .error (.err .content)) := by
  unfold UserCfg.readRows SameColumns
  cases rows with
  | nil => exact .inl ⟨.inr (.inr (by simp)), rfl⟩
  | cons r rs =>
    dsimp only
    split
    · rename_i hc
      left
      refine ⟨?_, rfl⟩
      rw [Bool.or_eq_true, List.all_eq_true] at hc
      rcases hc with hc | hc
      · cases kind <;> simp_all [UserCfg.ofKind]
      · right; right
        have : ∀ x ∈ r :: rs, x.fields.length = r.fields.length := by
          intro x hx
          rcases List.mem_cons.mp hx with rfl | hx
          · rfl
          · simpa using hc x hx
        intro x hx y hy
        rw [this x hx, this y hy]
    · rename_i hc
      right
      refine ⟨?_, rfl⟩
      rintro (h | h | h)
      · exact hc (by rw [h]; rfl)
      · exact hc (by rw [h]; rfl)
      · apply hc
        rw [Bool.or_eq_true, List.all_eq_true]
        right
        intro x hx
        simp [h x (by simp [hx]) r (by simp)]

theorem sooner_iff {rows : List Row} {a b : Row × Nat} (ha : a ∈ rows.zipIdx) (hb : b ∈ rows.zipIdx) : placedBefore a b ↔ Sooner rows a.2 b.2 := by
  rw [List.mem_zipIdx_iff_getElem?] at ha hb
  unfold placedBefore Sooner strLe
  rw [bytesLe_false_iff, ha, hb]
  constructor
  · exact fun h => ⟨_, _, rfl, rfl, h⟩
  · rintro ⟨r, r', h1, h2, h⟩
    cases h1; cases h2
    exact h

/-- The row that decides. -/
theorem entryMap_verdict (kind : DictionaryKind) (rows : List Row) :
    (∀ e, (UserCfg.ofKind kind).entryMap (sortByKey Row.first rows) = .error e ↔
      ∃ i row, rows[i]? = some row ∧ verdict row = some e ∧ ∀ j r, rows[j]? = some r → Sooner rows j i → verdict r = none ∨ verdict r = some e) ∧
    ((∃ m, (UserCfg.ofKind kind).entryMap (sortByKey Row.first rows) = .ok m) ↔ ∀ r ∈ rows, verdict r = none) := by
  obtain ⟨h1, h2⟩ := foldlM_verdict (f := fun m (p : Row × Nat) => (do
      let (cost, left, right) ← (UserCfg.ofKind kind).numbers p.1
      return mapPush p.1.first ⟨⟨UInt32.ofNat p.2, false⟩, cost, left, right⟩ m : R EntryMap)) (g := verdict ∘ Prod.fst)
    (fun s x h => by obtain ⟨n, hn⟩ := (numbers_verdict kind x.1).1 h; rw [hn]; exact ⟨_, rfl⟩)
    (fun s x e h => by rw [(numbers_verdict kind x.1).2 e h]; rfl) (sortByKey Row.first rows).zipIdx []
  have hfold : (UserCfg.ofKind kind).entryMap (sortByKey Row.first rows) = (sortByKey Row.first rows).zipIdx.foldlM (fun m (p : Row × Nat) => (do
      let (cost, left, right) ← (UserCfg.ofKind kind).numbers p.1
      return mapPush p.1.first ⟨⟨UInt32.ofNat p.2, false⟩, cost, left, right⟩ m : R EntryMap)) [] := rfl
  have hmap : sortByKey Row.first rows = (sortByKey (Row.first ∘ Prod.fst) rows.zipIdx).map Prod.fst := by
    rw [sortByKey_map, List.zipIdx_map_fst]
  have hmem : ∀ p, p ∈ sortByKey (Row.first ∘ Prod.fst) rows.zipIdx ↔ p ∈ rows.zipIdx := fun p => (sortByKey_perm _ _).mem_iff
  refine ⟨fun e => ?_, ?_⟩
  · rw [hfold, h1, ← List.findSome?_map, List.zipIdx_map_fst, hmap, List.findSome?_map, findSome?_earliest placedBefore_asymm (sortByKey_placed rows 0)]
    constructor
    · rintro ⟨x, hx, hv, hall⟩
      have hx := (hmem x).mp hx
      refine ⟨x.2, x.1, List.mem_zipIdx_iff_getElem?.mp hx, hv, fun j r hj hs => ?_⟩
      have hy : (r, j) ∈ rows.zipIdx := List.mem_zipIdx_iff_getElem?.mpr hj
      exact hall (r, j) ((hmem _).mpr hy) ((sooner_iff hy hx).mpr hs)
    · rintro ⟨i, row, hi, hv, hall⟩
      have hx : (row, i) ∈ rows.zipIdx := List.mem_zipIdx_iff_getElem?.mpr hi
      refine ⟨(row, i), (hmem _).mpr hx, hv, fun y hy hlt => ?_⟩
      have hy := (hmem y).mp hy
      exact hall y.2 y.1 (List.mem_zipIdx_iff_getElem?.mp hy) ((sooner_iff hy hx).mp hlt)
  · rw [hfold, h2]
    constructor
    · intro h r hr
      obtain ⟨i, hi, he⟩ := List.mem_iff_getElem.mp ((sortByKey_perm Row.first rows).mem_iff.mpr hr)
      exact h (r, i) (by rw [List.mem_zipIdx_iff_getElem?, List.getElem?_eq_getElem hi]; simp [he])
    · intro h x hx
      exact h x.1 ((sortByKey_perm Row.first rows).mem_iff.mp (List.fst_mem_of_mem_zipIdx hx))

theorem rowDetails_verdict (kind : DictionaryKind) (row : Row) :
    ((row.fields.length = 3 ∨ detailedColumns kind ≤ row.fields.length) → ∃ d, (UserCfg.ofKind kind).rowDetails row = .ok d) ∧
    (¬ (row.fields.length = 3 ∨ detailedColumns kind ≤ row.fields.length) → (UserCfg.ofKind kind).rowDetails row = .error (.err .content)) := by
  have hd : (UserCfg.ofKind kind).detailedFields = detailedColumns kind := by cases kind <;> rfl
  constructor
  · rintro h
    by_cases h3 : row.fields.length = 3
    · rcases rowDetails_cases (kind := kind) (row := row) with h | h
      · exact h
      · unfold UserCfg.rowDetails at h
        rw [if_pos (by exact h3)] at h
        obtain ⟨a, rest⟩ := row
        match rest, h3, h with
        | [pos, reading], _, h => cases kind <;> cases h
    · unfold UserCfg.rowDetails
      rw [if_neg (by exact h3), if_pos (by rw [hd]; exact h.resolve_left h3)]
      exact ⟨_, rfl⟩
  · intro h
    unfold UserCfg.rowDetails
    rw [if_neg (show ¬ row.fields.length = (UserCfg.ofKind kind).simpleFields from fun h' => h (.inl h')), if_neg (fun h' => h (.inr (by rw [hd] at h'; exact h')))]

end Verif.Model
