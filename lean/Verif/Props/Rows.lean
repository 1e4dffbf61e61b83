import Verif.Proofs.Rows
import Verif.Props.Reported
/-! C29 and C102: exactly which rows of a user dictionary make the build panic, and which error is returned otherwise. -/
namespace Verif.Props
open Verif.Model Verif.Spec

private theorem afterNumbers {yada : DaBuilder} {kind : DictionaryKind} {rows : List Row} (hs : SameColumns kind rows) (hv : ∀ r ∈ rows, verdict r = none) :
    ((∀ r ∈ rows, r.fields.length = 3 ∨ detailedColumns kind ≤ r.fields.length) →
      (∃ u, buildUserDict yada (UserCfg.ofKind kind) rows = .ok u) ∨ buildUserDict yada (UserCfg.ofKind kind) rows = .error (.err .io)) ∧
    ((∃ r ∈ rows, ¬ (r.fields.length = 3 ∨ detailedColumns kind ≤ r.fields.length)) → buildUserDict yada (UserCfg.ofKind kind) rows = .error (.err .content)) := by
  have hread := (readRows_cases kind rows).resolve_right (fun h => h.1 hs)
  obtain ⟨m, hm⟩ := (entryMap_verdict kind rows).2.mpr hv
  have hmem : ∀ r, r ∈ sortByKey Row.first rows ↔ r ∈ rows := fun r => (sortByKey_perm Row.first rows).mem_iff
  classical
  obtain ⟨hf1, hf2⟩ := foldlM_verdict (f := (UserCfg.ofKind kind).pushDetails)
    (g := fun r => if r.fields.length = 3 ∨ detailedColumns kind ≤ r.fields.length then none else some (.err .content))
    (fun s x h => by
      obtain ⟨d, hd⟩ := (rowDetails_verdict kind x).1 (by by_contra hc; rw [if_neg hc] at h; cases h)
      unfold UserCfg.pushDetails; rw [hd]; exact ⟨_, rfl⟩)
    (fun s x e h => by
      by_cases hc : x.fields.length = 3 ∨ detailedColumns kind ≤ x.fields.length
      · rw [if_pos hc] at h; cases h
      · rw [if_neg hc] at h; cases h
        unfold UserCfg.pushDetails; rw [(rowDetails_verdict kind x).2 hc]; rfl) (sortByKey Row.first rows) ([], [])
  unfold buildUserDict
  rw [hread.2, bind_ok]
  dsimp only
  rw [hm, bind_ok]
  constructor
  · intro h
    obtain ⟨s, hs⟩ := hf2.mpr fun x hx => if_pos (h x ((hmem x).mp hx))
    rw [hs, bind_ok]
    cases yada (keyset 0 m) with
    | none => exact .inr rfl
    | some da => exact .inl ⟨_, rfl⟩
  · rintro ⟨r, hr, hc⟩
    have he : List.foldlM (UserCfg.ofKind kind).pushDetails ([], []) (sortByKey Row.first rows) = .error (.err .content) := by
      rw [hf1]
      cases hfs : (sortByKey Row.first rows).findSome? fun r => if r.fields.length = 3 ∨ detailedColumns kind ≤ r.fields.length then none else some (Fail.err .content) with
      | none =>
        have := List.findSome?_eq_none_iff.mp hfs r ((hmem r).mpr hr)
        rw [if_neg hc] at this; cases this
      | some e =>
        obtain ⟨x, _, hx⟩ := List.exists_of_findSome?_eq_some hfs
        split at hx
        · cases hx
        · rw [← hx]
    rw [he]; rfl

private theorem reportedOrPanic (yada : DaBuilder) (kind : DictionaryKind) (rows : List Row) :
    Reported (buildUserDict yada (UserCfg.ofKind kind) rows) ∨ buildUserDict yada (UserCfg.ofKind kind) rows = .error .panic := by
  rcases readRows_cases kind rows with ⟨hs, hread⟩ | ⟨hs, hread⟩
  · obtain ⟨h1, h2⟩ := entryMap_verdict kind rows
    cases hm : (UserCfg.ofKind kind).entryMap (sortByKey Row.first rows) with
    | ok m =>
      obtain ⟨a1, a2⟩ := afterNumbers (yada := yada) hs (h2.mp ⟨m, hm⟩)
      by_cases hc : ∀ r ∈ rows, r.fields.length = 3 ∨ detailedColumns kind ≤ r.fields.length
      · rcases a1 hc with ⟨u, hu⟩ | hu
        · exact .inl (.inl ⟨u, hu⟩)
        · exact .inl (.inr ⟨_, hu⟩)
      · push Not at hc
        obtain ⟨r, hr, hc⟩ := hc
        exact .inl (.inr ⟨_, a2 ⟨r, hr, by omega⟩⟩)
    | error e =>
      have hb : buildUserDict yada (UserCfg.ofKind kind) rows = .error e := by
        unfold buildUserDict; rw [hread, bind_ok]; dsimp only; rw [hm]; rfl
      rw [hb]
      obtain ⟨i, row, -, hvr, -⟩ := (h1 _).mp hm
      rcases verdict_cases row with h | h | h <;> rw [h] at hvr <;> cases hvr
      · exact .inr rfl
      · exact .inl (reported_err _)
  · unfold buildUserDict
    rw [hread]
    exact .inl (reported_err _)

/-- C29: exactly when the build panics, for every list of rows. Rows are read in the order of their first columns. It panics if the rows are not rejected for differing in their number of columns and
some row with one or two columns comes before all rows with a bad number. -/
theorem c29_panic_exact (yada : DaBuilder) (kind : DictionaryKind) (rows : List Row) :
    buildUserDict yada (UserCfg.ofKind kind) rows = .error .panic ↔
      SameColumns kind rows ∧ ∃ i row, rows[i]? = some row ∧ row.fields.length < 3 ∧ ∀ j r, rows[j]? = some r → Sooner rows j i → ¬ BadNumber r := by
  rcases readRows_cases kind rows with ⟨hs, hread⟩ | ⟨hs, hread⟩
  · obtain ⟨h1, h2⟩ := entryMap_verdict kind rows
    by_cases hv : ∀ r ∈ rows, verdict r = none
    · constructor
      · intro h
        obtain ⟨a1, a2⟩ := afterNumbers (yada := yada) hs hv
        by_cases hc : ∀ r ∈ rows, r.fields.length = 3 ∨ detailedColumns kind ≤ r.fields.length
        · rcases a1 hc with ⟨u, hu⟩ | hu <;> rw [hu] at h <;> cases h
        · push Not at hc
          obtain ⟨r, hr, hc⟩ := hc
          rw [a2 ⟨r, hr, by omega⟩] at h; cases h
      · rintro ⟨-, i, row, hi, h3, -⟩
        have := (verdict_none.mp (hv row (List.mem_of_getElem? hi))).1
        omega
    · cases hm : (UserCfg.ofKind kind).entryMap (sortByKey Row.first rows) with
      | ok m => exact absurd (h2.mp ⟨m, hm⟩) hv
      | error e =>
        have hb : buildUserDict yada (UserCfg.ofKind kind) rows = .error e := by
          unfold buildUserDict; rw [hread, bind_ok]; dsimp only; rw [hm]; rfl
        rw [hb, show (Except.error e : R UserDictionary) = .error .panic ↔ (UserCfg.ofKind kind).entryMap (sortByKey Row.first rows) = .error .panic by rw [hm]; simp, h1]
        simp only [hs, true_and]
        refine exists_congr fun i => exists_congr fun row => and_congr_right fun _ => and_congr verdict_panic (forall_congr' fun j => forall_congr' fun r => forall_congr' fun _ => forall_congr' fun _ => ?_)
        rw [← verdict_parse]
        rcases verdict_cases r with h | h | h <;> rw [h] <;> simp
  · unfold buildUserDict
    rw [hread]
    simp [hs]

/-- C29: exactly when the build returns a parse error: some row with a bad number comes before all rows with one or two columns. -/
theorem c29_parse_exact (yada : DaBuilder) (kind : DictionaryKind) (rows : List Row) :
    buildUserDict yada (UserCfg.ofKind kind) rows = .error (.err .parse) ↔
      SameColumns kind rows ∧ ∃ i row, rows[i]? = some row ∧ BadNumber row ∧ ∀ j r, rows[j]? = some r → Sooner rows j i → 3 ≤ r.fields.length := by
  rcases readRows_cases kind rows with ⟨hs, hread⟩ | ⟨hs, hread⟩
  · obtain ⟨h1, h2⟩ := entryMap_verdict kind rows
    by_cases hv : ∀ r ∈ rows, verdict r = none
    · constructor
      · intro h
        obtain ⟨a1, a2⟩ := afterNumbers (yada := yada) hs hv
        by_cases hc : ∀ r ∈ rows, r.fields.length = 3 ∨ detailedColumns kind ≤ r.fields.length
        · rcases a1 hc with ⟨u, hu⟩ | hu <;> rw [hu] at h <;> cases h
        · push Not at hc
          obtain ⟨r, hr, hc⟩ := hc
          rw [a2 ⟨r, hr, by omega⟩] at h; cases h
      · rintro ⟨-, i, row, hi, hb, -⟩
        exact absurd hb (verdict_none.mp (hv row (List.mem_of_getElem? hi))).2
    · cases hm : (UserCfg.ofKind kind).entryMap (sortByKey Row.first rows) with
      | ok m => exact absurd (h2.mp ⟨m, hm⟩) hv
      | error e =>
        have hb : buildUserDict yada (UserCfg.ofKind kind) rows = .error e := by
          unfold buildUserDict; rw [hread, bind_ok]; dsimp only; rw [hm]; rfl
        rw [hb, show (Except.error e : R UserDictionary) = .error (.err .parse) ↔ (UserCfg.ofKind kind).entryMap (sortByKey Row.first rows) = .error (.err .parse) by rw [hm]; simp, h1]
        simp only [hs, true_and]
        refine exists_congr fun i => exists_congr fun row => and_congr_right fun _ => and_congr verdict_parse (forall_congr' fun j => forall_congr' fun r => forall_congr' fun _ => forall_congr' fun _ => ?_)
        rw [← Nat.not_lt, ← verdict_panic]
        rcases verdict_cases r with h | h | h <;> rw [h] <;> simp
  · unfold buildUserDict
    rw [hread]
    simp [hs]

/-- C29: exactly when the build returns a content error: the rows differ in their number of columns where they must not, or all numbers can be read and some row has neither three columns nor as many
as the detailed format. -/
theorem c29_content_exact (yada : DaBuilder) (kind : DictionaryKind) (rows : List Row) :
    buildUserDict yada (UserCfg.ofKind kind) rows = .error (.err .content) ↔
      ¬ SameColumns kind rows ∨ (∀ r ∈ rows, 3 ≤ r.fields.length ∧ ¬ BadNumber r) ∧ ∃ r ∈ rows, r.fields.length ≠ 3 ∧ r.fields.length < detailedColumns kind := by
  rcases readRows_cases kind rows with ⟨hs, hread⟩ | ⟨hs, hread⟩
  · simp only [hs, not_true_eq_false, false_or]
    obtain ⟨h1, h2⟩ := entryMap_verdict kind rows
    by_cases hv : ∀ r ∈ rows, verdict r = none
    · obtain ⟨a1, a2⟩ := afterNumbers (yada := yada) hs hv
      constructor
      · intro h
        refine ⟨fun r hr => verdict_none.mp (hv r hr), ?_⟩
        by_contra hc
        push Not at hc
        rcases a1 fun r hr => (by have := hc r hr; omega) with ⟨u, hu⟩ | hu <;> rw [hu] at h <;> cases h
      · rintro ⟨-, r, hr, hc⟩
        exact a2 ⟨r, hr, by omega⟩
    · constructor
      · intro h
        exfalso
        cases hm : (UserCfg.ofKind kind).entryMap (sortByKey Row.first rows) with
        | ok m => exact absurd (h2.mp ⟨m, hm⟩) hv
        | error e =>
          have hb : buildUserDict yada (UserCfg.ofKind kind) rows = .error e := by
            unfold buildUserDict; rw [hread, bind_ok]; dsimp only; rw [hm]; rfl
          rw [hb] at h
          cases h
          obtain ⟨i, row, -, hvr, -⟩ := (h1 _).mp hm
          rcases verdict_cases row with h | h | h <;> rw [h] at hvr <;> cases hvr
      · rintro ⟨h, -⟩
        exact absurd (fun r hr => verdict_none.mpr (h r hr)) hv
  · unfold buildUserDict
    rw [hread]
    simp [hs]

/-- C102: exactly when loading a user dictionary panics: it is a `csv` file with a kind, it can be read as CSV and its rows make the build panic (see `c29_panic_exact`). Everything else is loaded or is
reported as an error. -/
theorem c102_user_exact (env : LoadEnv) (path : Path) (kind : Option DictionaryKind) :
    (env.loadUserFromConfig ⟨path, kind⟩ = .error .panic ↔ HasExtension path (utf8 "csv".toList) ∧ ∃ k data rows, kind = some k ∧ env.files path = some data ∧ env.csv data = some rows ∧ SameColumns k rows ∧
      ∃ i row, rows[i]? = some row ∧ row.fields.length < 3 ∧ ∀ j r, rows[j]? = some r → Sooner rows j i → ¬ BadNumber r) ∧
    (Reported (env.loadUserFromConfig ⟨path, kind⟩) ∨ env.loadUserFromConfig ⟨path, kind⟩ = .error .panic) := by
  obtain ⟨hc, hb, ho⟩ := c50_user env path kind
  by_cases h1 : HasExtension path (utf8 "csv".toList)
  · obtain ⟨hn, hk⟩ := hc h1
    cases kind with
    | none =>
      rw [hn rfl]
      exact ⟨⟨fun h => (by cases h), by rintro ⟨-, k, data, rows, hk, -⟩; cases hk⟩, .inl (reported_err _)⟩
    | some k =>
      have hload : env.loadUserFromConfig ⟨path, some k⟩ = mapErr .dictionaryBuildError (env.buildUserDict k path) := by
        unfold LoadEnv.loadUserFromConfig
        rw [(extension_iff (by decide)).mpr h1]
        dsimp only
        rw [if_pos (by decide +kernel)]
        rfl
      cases hf : env.files path with
      | none =>
        have hbd : env.buildUserDict k path = .error (.err .io) := by unfold LoadEnv.buildUserDict LoadEnv.readFile; rw [hf]; rfl
        rw [hload, hbd]
        exact ⟨⟨fun h => (by cases h), by rintro ⟨-, _, data, rows, -, hd, -⟩; cases hd⟩, .inl (reported_err _)⟩
      | some data =>
        cases hr : env.csv data with
        | none =>
          have hbd : env.buildUserDict k path = .error (.err .content) := by unfold LoadEnv.buildUserDict LoadEnv.readFile; rw [hf]; simp only [bind_ok]; rw [hr]
          rw [hload, hbd]
          refine ⟨⟨fun h => (by cases h), ?_⟩, .inl (reported_err _)⟩
          rintro ⟨-, _, data', rows, -, hd, hr', -⟩
          cases hd; rw [hr] at hr'; cases hr'
        | some rows =>
          have hbd : env.buildUserDict k path = buildUserDict env.yada (UserCfg.ofKind k) rows := by unfold LoadEnv.buildUserDict LoadEnv.readFile; rw [hf]; simp only [bind_ok]; rw [hr]
          rw [hload, hbd]
          have hexact := c29_panic_exact env.yada k rows
          have hpan : mapErr .dictionaryBuildError (buildUserDict env.yada (UserCfg.ofKind k) rows) = .error .panic ↔ buildUserDict env.yada (UserCfg.ofKind k) rows = .error .panic := by
            cases buildUserDict env.yada (UserCfg.ofKind k) rows with
            | ok u => rfl
            | error e => cases e <;> simp [mapErr]
          refine ⟨?_, ?_⟩
          · rw [hpan, hexact]
            constructor
            · rintro ⟨hs, h⟩; exact ⟨h1, k, data, rows, rfl, rfl, hr, hs, h⟩
            · rintro ⟨-, k', data', rows', hk', hd, hr', hs, h⟩
              cases hk'; cases hd; rw [hr] at hr'; cases hr'
              exact ⟨hs, h⟩
          · by_cases hp : buildUserDict env.yada (UserCfg.ofKind k) rows = .error .panic
            · exact .inr (hpan.mpr hp)
            · exact .inl (reported_mapErr ((reportedOrPanic env.yada k rows).resolve_right hp))
  · by_cases h2 : HasExtension path (utf8 "bin".toList)
    · obtain ⟨h3, h4⟩ := hb h2
      have : Reported (env.loadUserFromConfig ⟨path, kind⟩) := by
        cases hf : env.files path with
        | none => rw [h3 hf]; exact reported_err _
        | some data => rw [h4 data hf]; exact reported_bind (reported_codec _ _) fun _ _ => reported_ok _
      refine ⟨⟨fun h => ?_, fun h => absurd h.1 h1⟩, .inl this⟩
      rcases this with ⟨a, h'⟩ | ⟨k, h'⟩ <;> rw [h'] at h <;> cases h
    · rw [ho h1 h2]
      exact ⟨⟨fun h => (by cases h), fun h => absurd h.1 h1⟩, .inl (reported_err _)⟩

/-! ### Non-vacuity -/

/-- A short row whose surface comes first makes an IPADIC build panic; after a row with a bad number it does not. -/
example : (buildUserDict Src.yada (UserCfg.ofKind .ipadic) [⟨['b'], [['x'], ['0'], ['0'], ['n']]⟩, ⟨['a'], [['x']]⟩] = .error .panic) ∧
    (buildUserDict Src.yada (UserCfg.ofKind .ipadic) [⟨['a'], [['x'], ['0'], ['0'], ['n']]⟩, ⟨['b'], [['x']]⟩] = .error (.err .parse)) ∧
    (buildUserDict Src.yada (UserCfg.ofKind .ipadic) [⟨['a'], [['1'], ['0'], ['0'], ['n']]⟩, Usr.simple] = .error (.err .content)) := by
  refine ⟨(c29_panic_exact _ _ _).mpr ⟨.inl rfl, 1, ⟨['a'], [['x']]⟩, rfl, by decide, fun j r hj hs => ?_⟩,
    (c29_parse_exact _ _ _).mpr ⟨.inl rfl, 0, ⟨['a'], [['x'], ['0'], ['0'], ['n']]⟩, rfl, ⟨_, _, _, _, _, rfl, .inl (by decide +kernel)⟩, fun j r hj hs => ?_⟩, by decide +kernel⟩
  · match j with
    | 0 =>
      obtain ⟨_, _, h1, h2, h⟩ := hs
      cases h1; cases h2
      rw [← bytesLe_false_iff] at h
      exact absurd h (by decide +kernel)
    | 1 => cases hj; rintro ⟨_, _, _, _, _, h, -⟩; cases h
    | j + 2 => cases hj
  · match j with
    | 0 => cases hj; decide
    | 1 =>
      obtain ⟨_, _, h1, h2, h⟩ := hs
      cases h1; cases h2
      rw [← bytesLe_false_iff] at h
      exact absurd h (by decide +kernel)
    | j + 2 => cases hj

/-- A user dictionary file with a row of one column. -/
def Ushort.env : LoadEnv := ⟨⟨true, false, false, false, false⟩, fun _ => .error (.err .io), fun _ => some (utf8 "猫\n".toList), Stored.format, Src.yada, fun _ => some [⟨['猫'], []⟩]⟩

/-- C102 is violated: such a file makes the program panic while it is loaded. -/
theorem c102_rows_fails : Ushort.env.loadUserFromConfig ⟨utf8 "words.csv".toList, some .ipadic⟩ = .error .panic := by
  refine (c102_user_exact _ _ _).1.mpr ⟨(extension_iff (by decide)).mp (by decide +kernel), _, _, _, rfl, rfl, rfl, .inl rfl, 0, _, rfl, by decide, fun j r hj hs => ?_⟩
  match j with
  | 0 => cases hj; rintro ⟨_, _, _, _, _, h, -⟩; cases h
  | j + 1 => cases hj

end Verif.Props
