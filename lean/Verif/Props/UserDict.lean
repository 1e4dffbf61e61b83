import Verif.Proofs.UserDict
import Verif.Spec.Details
import Verif.Props.Builder
/-! Properties of user dictionaries and token details: C28-C30. -/
namespace Verif.Props
open Verif.Model Verif.Spec

namespace Usr
/-- A simple row `東京,名詞,トウキョウ`, a detailed row `a,1,2,-3,d0..d8`, and another simple row for 東京. -/
def simple : Row := ⟨['東', '京'], [['名', '詞'], ['ト', 'ウ']]⟩
def detailed : Row := ⟨['a'], [['1'], ['2'], ['-', '3']] ++ (List.range 9).map fun i => ['d', Char.ofNat (48 + i)]⟩
def rows : List Row := [simple, detailed, ⟨['東', '京'], [['地', '名'], []]⟩]

theorem accepted : ∀ row ∈ rows, (readUserRow .ipadic row).isSome := by decide +kernel

theorem fits : UserFits .ipadic rows where
  nonempty := by simp [rows]
  numRows := by decide
  homographs s := by
    have h1 := List.length_filter_le (fun w : SourceWord => decide (w.surface = s)) (rows.filterMap (readUserRow .ipadic))
    have h2 : (rows.filterMap (readUserRow .ipadic)).length = 3 := by decide +kernel
    unfold userWordsFor
    omega
  surfaces := by decide +kernel
  detailBytes := by decide +kernel
end Usr

/-! ### C28 User dictionary rows become lookups -/

/-- C28: a user CSV whose rows are all in the simple or detailed format builds, and the lookup of a surface lists exactly its rows, in file order,
each with its cost, context ids and details, flagged as user words. -/
theorem c28_find_surface {yada : DaBuilder} (hy : YadaContract yada) (kind : DictionaryKind) (rows : List Row)
    (hc : SameColumns kind rows) (ha : ∀ row ∈ rows, (readUserRow kind row).isSome) (hf : UserFits kind rows) :
    ∃ u, buildUserDict yada (UserCfg.ofKind kind) rows = .ok u ∧ ∀ surface, ∃ found, u.dict.findSurface surface = .ok found ∧
      List.Forall₂ (UserDescribes u.wordDetails) found (userWordsFor kind rows surface) := by
  obtain ⟨u, hb, -, ⟨find, h1, h2⟩, -⟩ := buildUserDict_spec hy hc ha hf
  exact ⟨u, hb, fun s => ⟨_, h1 s, h2 s⟩⟩

/-- C28: a prefix lookup lists, for every non-empty prefix of the text by increasing length, the rows with this surface, in file order. -/
theorem c28_prefix {yada : DaBuilder} (hy : YadaContract yada) (kind : DictionaryKind) (rows : List Row)
    (hc : SameColumns kind rows) (ha : ∀ row ∈ rows, (readUserRow kind row).isSome) (hf : UserFits kind rows) :
    ∃ u, buildUserDict yada (UserCfg.ofKind kind) rows = .ok u ∧ ∀ s : Str, ∃ found, u.dict.prefix s = .ok found ∧
      List.Forall₂ (fun (p : Nat × WordEntry) (q : Nat × SourceWord) => p.1 = q.1 ∧ UserDescribes u.wordDetails p.2 q.2) found
        ((List.range s.length).flatMap fun i => (userWordsFor kind rows (s.take (i + 1))).map fun w => (blen w.surface, w)) := by
  obtain ⟨u, hb, hk, ⟨find, hfind, hd⟩, -⟩ := buildUserDict_spec hy hc ha hf
  refine ⟨u, hb, fun s => ⟨_, prefix_eq_findSurface hk hfind s, ?_⟩⟩
  have key : ∀ xs : List Nat, List.Forall₂ (fun (p : Nat × WordEntry) (q : Nat × SourceWord) =>
      p.1 = q.1 ∧ UserDescribes u.wordDetails p.2 q.2)
      (xs.flatMap fun i => (find (s.take (i + 1))).map fun e => (blen (s.take (i + 1)), e))
      (xs.flatMap fun i => (userWordsFor kind rows (s.take (i + 1))).map fun w => (blen w.surface, w)) := by
    intro xs
    induction xs with
    | nil => exact .nil
    | cons i xs ih =>
      rw [List.flatMap_cons, List.flatMap_cons]
      refine List.rel_append ?_ ih
      have h1 := hd (s.take (i + 1))
      have h2 : ∀ w ∈ userWordsFor kind rows (s.take (i + 1)), w.surface = s.take (i + 1) := by
        intro w hw
        simpa [userWordsFor] using (List.mem_filter.mp hw).2
      generalize userWordsFor kind rows (s.take (i + 1)) = ws at h1 h2
      generalize find (s.take (i + 1)) = es at h1
      induction h1 with
      | nil => exact .nil
      | cons he _ ih =>
        refine .cons ⟨?_, he⟩ (ih fun w hw => h2 w (by simp [hw]))
        show blen _ = blen _
        rw [h2 _ (by simp)]
  exact key _

/-- C28: word-details lookups in a compiled user dictionary never panic: ids of rows give details of rows, others nothing. -/
theorem c28_details_total {yada : DaBuilder} (hy : YadaContract yada) (kind : DictionaryKind) (rows : List Row)
    (hc : SameColumns kind rows) (ha : ∀ row ∈ rows, (readUserRow kind row).isSome) (hf : UserFits kind rows) :
    ∃ u, buildUserDict yada (UserCfg.ofKind kind) rows = .ok u ∧ (∀ i, rows.length ≤ i → u.wordDetails i = .ok none) ∧
      ∀ i, i < rows.length → ∃ row ∈ rows, ∃ w, readUserRow kind row = some w ∧ u.wordDetails i = .ok (some w.details) := by
  obtain ⟨u, hb, -, -, hl, hd⟩ := buildUserDict_spec hy hc ha hf
  refine ⟨u, hb, ?_, ?_⟩
  · intro i hi
    unfold UserDictionary.wordDetails
    rw [if_pos (by omega)]
  · intro i hi
    have hp := sortByKey_perm Row.first rows
    have hi' : i < (sortByKey Row.first rows).length := by rw [hp.length_eq]; exact hi
    have hm := hp.mem_iff.mp (List.getElem_mem hi')
    obtain ⟨w, hw⟩ := Option.isSome_iff_exists.mp (ha _ hm)
    exact ⟨_, hm, w, hw, hd i _ w (List.getElem?_eq_getElem hi') hw⟩

/-- Non-vacuity, with homographs and both formats. -/
example : YadaContract Src.yada ∧ SameColumns .ipadic Usr.rows ∧ (∀ row ∈ Usr.rows, (readUserRow .ipadic row).isSome) ∧
    UserFits .ipadic Usr.rows := ⟨Src.yadaOk, .inl rfl, Usr.accepted, Usr.fits⟩
example : (do
    let u ← buildUserDict Src.yada (UserCfg.ofKind .ipadic) Usr.rows
    let found ← u.dict.findSurface ['東', '京']
    found.mapM fun e => do return (e.wordCost, ← u.wordDetails e.wordId.id.toNat)) =
      (.ok [(-10000, some ["名詞".toList, star, star, star, star, star, "東京".toList, "トウ".toList, star]),
        (-10000, some ["地名".toList, star, star, star, star, star, "東京".toList, [], star])] : R _) := by decide +kernel
example : readUserRow .ipadic Usr.detailed =
    some ⟨['a'], -3, 1, 2, (List.range 9).map fun i => ['d', Char.ofNat (48 + i)]⟩ := by decide +kernel
/-- The simple format fills the columns of each dictionary. -/
example : simpleDetails .koDic ['a'] ['p'] ['r'] = [['p'], star, star, ['r'], star, star, star, star] := by decide

/-! ### C29 Malformed user CSV rows are reported as errors -/

/-- C29 fails: a row with one or two columns makes the build panic, for every dictionary kind. -/
theorem c29_short_row_fails (yada : DaBuilder) (kind : DictionaryKind) (row : Row) (h : row.fields.length < 3) :
    buildUserDict yada (UserCfg.ofKind kind) [row] = .error .panic := by
  have h0 : row.fields.length ≠ (UserCfg.ofKind kind).simpleFields := by simp only [UserCfg.ofKind]; omega
  have hs : sortByKey Row.first [row] = [row] := rfl
  have hr : (UserCfg.ofKind kind).readRows [row] = .ok [row] := by simp [UserCfg.readRows]
  have hn : (UserCfg.ofKind kind).numbers row = .error .panic := by
    unfold UserCfg.numbers
    rw [if_neg h0, List.getElem?_eq_none (by omega)]
    rfl
  unfold buildUserDict
  rw [hr, bind_ok]
  simp only [hs, UserCfg.entryMap, List.zipIdx_cons, List.zipIdx_nil, List.foldlM_cons, hn]
  rfl

example : (Row.fields ⟨['猫'], [['名', '詞']]⟩).length < 3 := by decide

theorem foldlM_error {α σ : Type} {f : σ → α → R σ} {e : Fail} {xs : List α}
    (h : ∀ x ∈ xs, ∀ s, (∃ s', f s x = .ok s') ∨ f s x = .error e) (s : σ) :
    ((∃ s', xs.foldlM f s = .ok s') ∧ ∀ x ∈ xs, ∃ s, ∃ s', f s x = .ok s') ∨ xs.foldlM f s = .error e := by
  induction xs generalizing s with
  | nil => exact .inl ⟨⟨s, rfl⟩, by simp⟩
  | cons x xs ih =>
    rw [List.foldlM_cons]
    rcases h x (by simp) s with ⟨s', hs⟩ | hs
    · rw [hs, bind_ok]
      rcases ih (fun y hy => h y (by simp [hy])) s' with ⟨h1, h2⟩ | h1
      · refine .inl ⟨h1, ?_⟩
        intro y hy
        rcases List.mem_cons.mp hy with rfl | hy
        · exact ⟨s, s', hs⟩
        · exact h2 y hy
      · exact .inr h1
    · rw [hs]
      exact .inr rfl

theorem numbers_cases {kind : DictionaryKind} {row : Row} (h : 3 ≤ row.fields.length) :
    (∃ n, (UserCfg.ofKind kind).numbers row = .ok n) ∨ (UserCfg.ofKind kind).numbers row = .error (.err .parse) := by
  obtain ⟨a, rest⟩ := row
  match rest, h with
  | [pos, reading], _ => exact .inl ⟨_, rfl⟩
  | left :: right :: cost :: details, _ =>
    unfold UserCfg.numbers
    rw [if_neg (by simp [Row.fields, UserCfg.ofKind])]
    simp only [Row.fields, List.getElem?_cons_succ, List.getElem?_cons_zero, orPanic_some, bind_ok]
    cases parseI16 cost with
    | none => exact .inr rfl
    | some c =>
      cases parseU16 left with
      | none => exact .inr rfl
      | some l =>
        cases parseU16 right with
        | none => exact .inr rfl
        | some r => exact .inl ⟨_, rfl⟩

theorem rowDetails_cases {kind : DictionaryKind} {row : Row} :
    (∃ n, (UserCfg.ofKind kind).rowDetails row = .ok n) ∨ (UserCfg.ofKind kind).rowDetails row = .error (.err .content) := by
  unfold UserCfg.rowDetails
  split
  · rename_i h
    obtain ⟨a, rest⟩ := row
    match rest, h with
    | [pos, reading], _ => left; cases kind <;> exact ⟨_, rfl⟩
  · split
    · exact .inl ⟨_, rfl⟩
    · exact .inr rfl

theorem readable_of_ok {kind : DictionaryKind} {row : Row} (h1 : ∃ n, (UserCfg.ofKind kind).numbers row = .ok n)
    (h2 : ∃ d, (UserCfg.ofKind kind).rowDetails row = .ok d) : (readUserRow kind row).isSome := by
  obtain ⟨a, rest⟩ := row
  obtain ⟨n, h1⟩ := h1
  obtain ⟨d, h2⟩ := h2
  match rest with
  | [] => simp [UserCfg.numbers, Row.fields, UserCfg.ofKind, orPanic] at h1
  | [_] => simp [UserCfg.numbers, Row.fields, UserCfg.ofKind, orPanic] at h1
  | [_, _] => rfl
  | left :: right :: cost :: details =>
    have hd : detailedColumns kind ≤ 4 + details.length := by
      unfold UserCfg.rowDetails at h2
      rw [if_neg (by simp [Row.fields, UserCfg.ofKind])] at h2
      split at h2
      · rename_i hge
        simp only [Row.fields, List.length_cons] at hge
        cases kind <;> simp only [UserCfg.ofKind] at hge <;> simp only [detailedColumns] <;> omega
      · simp at h2
    unfold UserCfg.numbers at h1
    rw [if_neg (by simp [Row.fields, UserCfg.ofKind])] at h1
    simp only [Row.fields, List.getElem?_cons_succ, List.getElem?_cons_zero, orPanic_some, bind_ok] at h1
    simp only [readUserRow, Row.fields, if_pos hd]
    cases hc : parseI16 cost with
    | none => rw [hc] at h1; simp [orParse] at h1
    | some c =>
      cases hl : parseU16 left with
      | none => rw [hc, hl] at h1; simp [orParse] at h1
      | some l =>
        cases hr : parseU16 right with
        | none => rw [hc, hl, hr] at h1; simp [orParse] at h1
        | some r => rfl

/-- C29 (the part that holds): if every row has at least three columns and some row is in neither format (unsupported number of columns, a number
that cannot be read), the build returns a content or parse error. Missing: rows with one or two columns, see `c29_short_row_fails`. -/
theorem c29_reported_partial (yada : DaBuilder) (kind : DictionaryKind) (rows : List Row) (h3 : ∀ row ∈ rows, 3 ≤ row.fields.length)
    (hbad : ∃ row ∈ rows, readUserRow kind row = none) :
    buildUserDict yada (UserCfg.ofKind kind) rows = .error (.err .parse) ∨
      buildUserDict yada (UserCfg.ofKind kind) rows = .error (.err .content) := by
  unfold buildUserDict
  have hread : (UserCfg.ofKind kind).readRows rows = .ok rows ∨ (UserCfg.ofKind kind).readRows rows = .error (.err .content) := by
    unfold UserCfg.readRows
    split
    · exact .inl rfl
    · split
      · exact .inl rfl
      · exact .inr rfl
  rcases hread with hread | hread
  · rw [hread, bind_ok]
    have hperm := sortByKey_perm Row.first rows
    have hmem : ∀ r, r ∈ sortByKey Row.first rows ↔ r ∈ rows := fun r => hperm.mem_iff
    generalize sortByKey Row.first rows = S at *
    rcases foldlM_error (e := .err .parse) (xs := S.zipIdx) (f := fun m (p : Row × Nat) => (do
        let (cost, left, right) ← (UserCfg.ofKind kind).numbers p.1
        return mapPush p.1.first ⟨⟨UInt32.ofNat p.2, false⟩, cost, left, right⟩ m : R EntryMap)) (by
        intro p hp m
        rcases numbers_cases (kind := kind) (h3 p.1 ((hmem _).mp (List.fst_mem_of_mem_zipIdx hp))) with ⟨n, hn⟩ | hn
        · left; rw [hn]; exact ⟨_, rfl⟩
        · right; rw [hn]; rfl) [] with ⟨⟨m, hm⟩, hall⟩ | hm
    · have hm : (UserCfg.ofKind kind).entryMap S = .ok m := hm
      right
      simp only [hm, bind_ok]
      rcases foldlM_error (e := .err .content) (xs := S) (f := (UserCfg.ofKind kind).pushDetails) (by
          intro r hr st
          unfold UserCfg.pushDetails
          rcases rowDetails_cases (kind := kind) (row := r) with ⟨d, hd⟩ | hd
          · left; rw [hd]; exact ⟨_, rfl⟩
          · right; rw [hd]; rfl) ([], []) with ⟨-, hall'⟩ | hd
      · exfalso
        obtain ⟨row, hr, hnone⟩ := hbad
        obtain ⟨i, hi, he⟩ := List.mem_iff_getElem.mp ((hmem row).mpr hr)
        obtain ⟨s, s', h1⟩ := hall (row, i) (by
          rw [List.mem_zipIdx_iff_getElem?, List.getElem?_eq_getElem hi]
          simp [he])
        obtain ⟨t, t', h2⟩ := hall' row ((hmem row).mpr hr)
        dsimp only at h1
        rw [bind_eq_ok] at h1
        obtain ⟨n, h1, -⟩ := h1
        unfold UserCfg.pushDetails at h2
        rw [bind_eq_ok] at h2
        obtain ⟨d, h2, -⟩ := h2
        have := readable_of_ok ⟨n, h1⟩ ⟨d, h2⟩
        rw [hnone] at this
        simp at this
      · rw [hd]; rfl
    · have hm : (UserCfg.ofKind kind).entryMap S = .error (.err .parse) := hm
      left
      simp only [hm]
      rfl
  · right
    rw [hread]
    rfl

/-- Non-vacuity: a row with a non-numeric cost, and a row with four columns. -/
example : buildUserDict Src.yada (UserCfg.ofKind .ipadic) [Usr.simple, ⟨['a'], [['1'], ['2'], ['x']]⟩] = .error (.err .parse) ∧
    buildUserDict Src.yada (UserCfg.ofKind .ipadic) [Usr.simple, ⟨['a'], [['1'], ['2'], ['3']]⟩] = .error (.err .content) ∧
    readUserRow .ipadic ⟨['a'], [['1'], ['2'], ['3']]⟩ = none := ⟨by decide +kernel, by decide +kernel, by decide +kernel⟩

/-! ### C30 Token details -/

/-- C30: on a token whose details have not been asked or set, `get_details` answers what the dictionaries say. -/
theorem c30_first (dict : Dictionary) (user : Option UserDictionary) (t : Token) (h : t.details = none) (a : Option (List Str))
    (ha : detailsOf dict user t.wordId = .ok a) : (do return (← t.getDetails dict user).1) = (.ok a : R _) := by
  unfold Token.getDetails
  rw [h]
  unfold detailsOf at ha
  by_cases hu : t.wordId.id.toNat = 2 ^ 32 - 1
  · have hu' : t.wordId.isUnknown = true := by
      unfold WordId.isUnknown
      rw [beq_iff_eq]
      exact UInt32.toNat_inj.mp hu
    rw [if_pos hu] at ha
    simp only [Option.isSome_none, hu', if_true]
    exact ha
  · have hu' : ¬ t.wordId.isUnknown = true := by
      unfold WordId.isUnknown
      rw [beq_iff_eq]
      intro he
      exact hu (by rw [he]; rfl)
    rw [if_neg hu] at ha
    simp only [Option.isSome_none, hu']
    unfold Token.lookupDetails WordId.isSystem
    cases hs : t.wordId.sys with
    | true => rw [hs] at ha; simp only at ha; simp [ha]
    | false =>
      rw [hs] at ha
      cases user with
      | none => simp only [Except.ok.injEq] at ha; simp [ha]
      | some u => simp only at ha; simp [ha]

private theorem getDetails_state (dict : Dictionary) (user : Option UserDictionary) (t : Token) (a : Option (List Str))
    (ha : detailsOf dict user t.wordId = .ok a) :
    t.getDetails dict user = .ok (if t.details = none then (a, { t with details := a }) else (t.details, t)) := by
  cases hd : t.details with
  | some d => simp [Token.getDetails, hd]
  | none =>
    rw [if_pos rfl]
    have h1 := c30_first dict user t hd a ha
    rw [bind_eq_ok] at h1
    obtain ⟨⟨d, t'⟩, h1, h2⟩ := h1
    simp only [pure_eq_ok, Except.ok.injEq] at h2
    subst h2
    rw [h1]
    have h3 : t' = { t with details := d } := by
      unfold Token.getDetails at h1
      rw [hd] at h1
      simp only [Option.isSome_none, Bool.false_eq_true, if_false] at h1
      split at h1
      · simp only [Except.ok.injEq, Prod.mk.injEq] at h1
        rw [← h1.2, ← h1.1]
        rfl
      · rw [bind_eq_ok] at h1
        obtain ⟨x, -, h1⟩ := h1
        simp only [pure_eq_ok, Except.ok.injEq, Prod.mk.injEq] at h1
        rw [← h1.2, ← h1.1]
    rw [h3]

/-- C30: through every history of `get_details` and `set_details` calls on a fresh token, each `get_details` answers the value set last, or what the
dictionaries say if nothing (or `None`) was set last. -/
theorem c30_history (dict : Dictionary) (user : Option UserDictionary) (t : Token) (h : t.details = none) (a : Option (List Str))
    (ha : detailsOf dict user t.wordId = .ok a) (calls : List TokenCall) :
    runCalls dict user t calls = .ok (answers a none calls) := by
  have key : ∀ (calls : List TokenCall) (t : Token) (last : Option (List Str)), detailsOf dict user t.wordId = .ok a →
      (t.details = last ∨ (last = none ∧ t.details = a)) → runCalls dict user t calls = .ok (answers a last calls) := by
    intro calls
    induction calls with
    | nil => intro t last _ _; rfl
    | cons c cs ih =>
      intro t last ha hl
      cases c with
      | set d => exact ih _ d ha (.inl rfl)
      | get =>
        unfold runCalls
        rw [getDetails_state dict user t a ha, bind_ok]
        cases hd : t.details with
        | none =>
          rw [if_pos rfl]
          have hlast : last = none := by
            rcases hl with hl | hl
            · rw [← hl, hd]
            · exact hl.1
          subst hlast
          dsimp only
          rw [ih { t with details := a } none ha (.inr ⟨rfl, rfl⟩)]
          rfl
        | some d =>
          rw [if_neg (by simp)]
          dsimp only
          rw [ih t last ha hl]
          rcases hl with hl | ⟨rfl, hl⟩
          · rw [hd] at hl
            subst hl
            rfl
          · rw [hd] at hl
            subst hl
            rfl
  exact key calls t none ha (.inl h)

/-- C30: the calls change nothing else of the token. -/
theorem c30_frame (dict : Dictionary) (user : Option UserDictionary) (t t' : Token) (d : Option (List Str))
    (h : t.getDetails dict user = .ok (d, t')) : { t' with details := t.details } = t := by
  unfold Token.getDetails at h
  split at h
  · simp only [Except.ok.injEq, Prod.mk.injEq] at h
    rw [← h.2]
  · split at h
    · simp only [Except.ok.injEq, Prod.mk.injEq] at h
      rw [← h.2]
      rfl
    · rw [bind_eq_ok] at h
      obtain ⟨x, -, h⟩ := h
      simp only [pure_eq_ok, Except.ok.injEq, Prod.mk.injEq] at h
      rw [← h.2]

example (dict : Dictionary) (user : Option UserDictionary) :
    detailsOf dict user WordId.default = .ok (some [['U', 'N', 'K']]) := rfl
/-- Non-vacuity: a user word of a small user dictionary, with a history of calls. -/
example : (do
    let u ← buildUserDict Src.yada (UserCfg.ofKind .koDic) [⟨['가'], [['N'], ['가']]⟩]
    u.wordDetails 0) = (.ok (some [['N'], star, star, ['가'], star, star, star, star]) : R _) := by decide +kernel
example (dict : Dictionary) (u : UserDictionary) (d : List Str) (h : u.wordDetails 0 = .ok (some d)) :
    runCalls dict (some u) (Token.new ['가'] 0 3 0 ⟨0, false⟩) [.set (some [['x']]), .get, .set none, .get, .get] =
      .ok [some [['x']], some d, some d] :=
  c30_history dict (some u) (Token.new ['가'] 0 3 0 ⟨0, false⟩) rfl (some d) h _

/-! ### C54 User dictionaries with many words for one surface -/

/-- C54, exactly, for user dictionaries: the build succeeds however many words share a surface, a lookup finds `n % 32` of the `n` words with this surface, never other words, and so all of them exactly if
fewer than 32 words have the surface. -/
theorem c54_user {yada : DaBuilder} (hy : YadaContract yada) (kind : DictionaryKind) (rows : List Row)
    (hc : SameColumns kind rows) (ha : ∀ row ∈ rows, (readUserRow kind row).isSome) (hf : UserFitsApart kind rows) :
    ∃ u, buildUserDict yada (UserCfg.ofKind kind) rows = .ok u ∧ ∀ surface, (∃ found, u.dict.findSurface surface = .ok found ∧
      found.length = (userWordsFor kind rows surface).length % 32 ∧
      List.Forall₂ (UserDescribes u.wordDetails) found (leftOver (userWordsBefore kind rows surface) (userWordsFor kind rows surface))) ∧
      ((∃ found, u.dict.findSurface surface = .ok found ∧ List.Forall₂ (UserDescribes u.wordDetails) found (userWordsFor kind rows surface)) ↔
        (userWordsFor kind rows surface).length < 32) := by
  obtain ⟨u, hb, -, ⟨find, hfind, hd⟩, -⟩ := buildUserDict_any hy hc ha hf
  refine ⟨u, hb, fun s => ⟨⟨_, hfind s, by rw [(hd s).length_eq, leftOver_length], hd s⟩, ?_, fun h => ⟨_, hfind s, ?_⟩⟩⟩
  · rintro ⟨found, h1, h2⟩
    rw [hfind s] at h1
    cases h1
    have h3 := h2.length_eq
    rw [(hd s).length_eq, leftOver_length] at h3
    omega
  · have := hd s
    rwa [leftOver_small _ h] at this

/-- 40 words with the same surface, of which the second to the ninth are found. -/
example : (∃ u, buildUserDict Src.yada (UserCfg.ofKind .ipadic) (List.replicate 40 Usr.simple) = .ok u ∧ ∃ found, u.dict.findSurface ['東', '京'] = .ok found ∧ found.length = 8) ∧
    leftOver 0 (List.range 40) = [1, 2, 3, 4, 5, 6, 7, 8] := by
  obtain ⟨u, hb, h⟩ := c54_user Src.yadaOk .ipadic (List.replicate 40 Usr.simple) (.inl rfl) (by decide +kernel)
    ⟨by simp, by simp, by decide +kernel, by decide +kernel⟩
  obtain ⟨⟨found, h1, h2, -⟩, -⟩ := h ['東', '京']
  refine ⟨⟨u, hb, found, h1, ?_⟩, by decide +kernel⟩
  rw [h2]
  decide +kernel

end Verif.Props
