import Verif.Spec.AnalyzerConfig
import Verif.Proofs.Config
import Verif.Proofs.Readers
import Verif.Proofs.TokenFilter
/-! Reading the configuration of analyzers and filters. -/
namespace Verif.Model
open Verif.Spec

/-! ### Members -/

theorem get_eq_some {j : Json} {name : String} {v : Json} : j.get name.toList = some v ↔ HasMember j name v := by
  unfold HasMember
  cases j with
  | obj kvs =>
    simp only [Json.get, Option.map_eq_some_iff, Json.obj.injEq]
    constructor
    · rintro ⟨p, hp, rfl⟩
      rw [List.find?_eq_some_iff_append] at hp
      obtain ⟨h1, as, bs, h2, h3⟩ := hp
      have h4 : kvs = bs.reverse ++ p :: as.reverse := by
        have := congrArg List.reverse h2
        simpa using this
      refine ⟨bs.reverse, as.reverse, ?_, ?_⟩
      · rw [h4, ← (by simpa using h1 : p.1 = name.toList)]
      · intro hm
        obtain ⟨q, hq, hq'⟩ := List.mem_map.mp hm
        have := h3 q (List.mem_reverse.mp hq)
        simp [hq'] at this
    · rintro ⟨pre, post, rfl, hn⟩
      refine ⟨(name.toList, v), ?_, rfl⟩
      rw [List.find?_eq_some_iff_append]
      refine ⟨by simp, post.reverse, pre.reverse, by simp, ?_⟩
      intro q hq
      have : q.1 ≠ name.toList := fun h => hn (List.mem_map.mpr ⟨q, List.mem_reverse.mp hq, h⟩)
      simpa using this
  | _ => simp [Json.get]

theorem get_eq_none {j : Json} {name : String} : j.get name.toList = none ↔ ∀ v, ¬ HasMember j name v := by
  rw [Option.eq_none_iff_forall_ne_some]
  exact forall_congr' fun v => not_congr get_eq_some

theorem index_array {j : Json} {name : String} {xs : List Json} : (j.index name.toList).asArray = some xs ↔ HasMember j name (.arr xs) := by
  rw [← get_eq_some, Json.index]
  cases h : j.get name.toList with
  | none => simp [Json.asArray]
  | some v => cases v <;> simp [Json.asArray]

theorem index_str {j : Json} {name : String} {s : Str} : (j.index name.toList).asStr = some s ↔ HasMember j name (.str s) := by
  rw [← get_eq_some, Json.index]
  cases h : j.get name.toList with
  | none => simp [Json.asStr]
  | some v => cases v <;> simp [Json.asStr]

theorem index_object {j v : Json} {name : String} : (j.index name.toList).asObject = some v ↔ ∃ kvs, HasMember j name (.obj kvs) ∧ v = .obj kvs := by
  simp only [← get_eq_some, Json.index]
  cases h : j.get name.toList with
  | none => simp [Json.asObject]
  | some v => cases v <;> simp [Json.asObject, eq_comm]

/-! ### Values -/

theorem string_de {j : Json} {s : Str} : De.string j = some s ↔ StrValue j s := by
  unfold De.string StrValue
  cases j <;> simp [Json.asStr]

theorem bool_de {j : Json} {b : Bool} : De.bool j = some b ↔ BoolValue j b := by
  unfold BoolValue
  cases j <;> simp [De.bool]

theorem strs_iff {xs : List Json} {ss : List Str} : xs.mapM Json.asStr = some ss ↔ xs = ss.map .str := by
  induction xs generalizing ss with
  | nil => cases ss <;> simp
  | cons x xs ih =>
    rw [List.mapM_cons]
    simp only [Option.bind_eq_bind, Option.bind_eq_some_iff, ih, Option.pure_def, Option.some.injEq]
    cases ss with
    | nil => simp
    | cons s ss =>
      simp only [List.cons.injEq, List.map_cons]
      constructor
      · rintro ⟨a, ha, b, rfl, rfl, rfl⟩
        exact ⟨string_de.mp ha, rfl⟩
      · rintro ⟨rfl, rfl⟩
        exact ⟨s, rfl, ss, rfl, rfl, rfl⟩

theorem strs_de {j : Json} {ss : List Str} : De.set De.string j = some ss ↔ StrsValue j ss := by
  unfold StrsValue
  cases j with
  | arr xs => simp only [De.set, Json.arr.injEq]; exact strs_iff
  | _ => simp [De.set]

theorem notOverridden_iff {all m : StrMap} :
    all.foldr (fun p m => if p.1 ∈ m.map (·.1) then m else p :: m) ([] : StrMap) = m ↔ NotOverridden all m := by
  have hkeys : ∀ (all : StrMap) k, k ∈ (all.foldr (fun p m => if p.1 ∈ m.map (·.1) then m else p :: m) ([] : StrMap)).map (·.1) ↔ k ∈ all.map (·.1) := by
    intro all k
    induction all with
    | nil => simp
    | cons p all ih =>
      rw [List.foldr_cons]
      split
      · rename_i h
        rw [ih, List.map_cons, List.mem_cons]
        constructor
        · exact .inr
        · rintro (rfl | h')
          · exact ih.mp h
          · exact h'
      · rw [List.map_cons, List.mem_cons, ih, List.map_cons, List.mem_cons]
  constructor
  · rintro rfl
    induction all with
    | nil => exact .nil
    | cons p all ih =>
      rw [List.foldr_cons]
      split
      · rename_i h; exact .drop ((hkeys _ _).mp h) ih
      · rename_i h; exact .keep (fun h' => h ((hkeys _ _).mpr h')) ih
  · intro h
    induction h with
    | nil => rfl
    | keep hk _ ih => rw [List.foldr_cons, if_neg (fun h' => hk ((hkeys _ _).mp h')), ih]
    | drop hk _ ih => rw [List.foldr_cons, if_pos ((hkeys _ _).mpr hk), ih]

theorem pairs_iff {kvs : List (Str × Json)} {all : StrMap} :
    (kvs.mapM fun p => (De.string p.2).map (p.1, ·)) = some all ↔ kvs = all.map fun p => (p.1, .str p.2) := by
  induction kvs generalizing all with
  | nil => cases all <;> simp
  | cons x xs ih =>
    rw [List.mapM_cons]
    simp only [Option.bind_eq_bind, Option.bind_eq_some_iff, ih, Option.pure_def, Option.some.injEq, Option.map_eq_some_iff]
    cases all with
    | nil => simp
    | cons s ss =>
      simp only [List.cons.injEq, List.map_cons]
      constructor
      · rintro ⟨a, ⟨t, ht, rfl⟩, b, rfl, rfl, rfl⟩
        exact ⟨by rw [← string_de.mp ht], rfl⟩
      · rintro ⟨rfl, rfl⟩
        exact ⟨s, ⟨s.2, rfl, rfl⟩, ss, rfl, rfl, rfl⟩

theorem strMap_de {j : Json} {m : StrMap} : De.map De.string j = some m ↔ StrMapValue j m := by
  unfold StrMapValue
  cases j with
  | obj kvs =>
    simp only [De.map, Option.map_eq_some_iff, pairs_iff, Json.obj.injEq, notOverridden_iff]
  | _ => simp [De.map]

theorem unit_de {α : Type} {named : Str → Option α} {name : α → String} (h : ∀ s a, named s = some a ↔ s = (name a).toList) {j : Json} {a : α} :
    De.unitVariant named j = some a ↔ NameValue (name a) j := by
  unfold De.unitVariant NameValue
  split
  · rw [h]; simp
  · rw [h]; simp
  · rename_i h1 h2
    constructor
    · intro h; cases h
    · rintro (rfl | rfl)
      · exact absurd rfl (h1 _)
      · exact absurd rfl (h2 _)

theorem normalForm_named (s : Str) (f : NormalForm) : NormalForm.named s = some f ↔ s = (normalFormName f).toList := by
  unfold NormalForm.named
  constructor
  · intro h
    repeat' split at h
    all_goals first | (cases h; assumption) | cases h
  · rintro rfl
    cases f <;> decide +kernel

theorem kana_named (s : Str) (f : KanaKind) : KanaKind.named s = some f ↔ s = (kanaName f).toList := by
  unfold KanaKind.named
  constructor
  · intro h
    repeat' split at h
    all_goals first | (cases h; assumption) | cases h
  · rintro rfl
    cases f <;> decide +kernel

/-! ### Structs -/

theorem struct1_iff {α : Type} {name : String} {d : De α} {V : Json → α → Prop} (h : ∀ j a, d j = some a ↔ V j a) {j : Json} {a : α} :
    De.struct1 name.toList d j = some a ↔ Fields1 j name (ReqValue V · a) := by
  unfold De.struct1 Fields1
  simp only [field_iff]
  cases j with
  | obj kvs =>
    simp only [De.fields, List.mapM_cons, List.mapM_nil, Option.bind_eq_bind, Option.pure_def, Option.bind_some]
    constructor
    · intro h'
      simp only [Option.bind_eq_some_iff, Option.some.injEq] at h'
      obtain ⟨fs, ⟨v, hv, rfl⟩, h'⟩ := h'
      exact .inl ⟨kvs, rfl, v, hv, (required_iff h).mp h'⟩
    · rintro (⟨kvs', h', v, hv, ha⟩ | ⟨_, h', _⟩)
      · cases h'
        rw [hv]; exact (required_iff h).mpr ha
      · cases h'
  | arr xs =>
    simp only [De.fields]
    match xs with
    | [] => simp
    | [x] =>
      simp only [List.length_cons, List.length_nil, if_true, Option.bind_eq_bind, Option.bind_some, List.map_cons, List.map_nil, required_iff h]
      constructor
      · intro ha; exact .inr ⟨x, rfl, ha⟩
      · rintro (⟨_, h', _⟩ | ⟨x', h', ha⟩)
        · cases h'
        · cases h'; exact ha
    | _ :: _ :: _ => simp
  | _ => simp [De.fields]

theorem fields2_iff {n1 n2 : String} {j : Json} {P1 P2 : Option Json → Prop} :
    (∃ a b, De.fields [n1.toList, n2.toList] j = some [a, b] ∧ P1 a ∧ P2 b) ↔ Fields2 j n1 n2 P1 P2 := by
  unfold Fields2
  simp only [field_iff]
  cases j with
  | obj kvs =>
    simp only [De.fields, List.mapM_cons, List.mapM_nil, Option.bind_eq_bind, Option.pure_def, Option.bind_some, Option.bind_eq_some_iff, Option.some.injEq]
    constructor
    · rintro ⟨a, b, ⟨v, hv, ws, ⟨w, hw, rfl⟩, h⟩, h1, h2⟩
      cases h
      exact .inl ⟨kvs, rfl, ⟨_, hv, h1⟩, _, hw, h2⟩
    · rintro (⟨kvs', h', ⟨v, hv, h1⟩, w, hw, h2⟩ | ⟨_, _, h', _⟩)
      · cases h'
        exact ⟨v, w, ⟨v, hv, _, ⟨w, hw, rfl⟩, rfl⟩, h1, h2⟩
      · cases h'
  | arr xs =>
    simp only [De.fields]
    match xs with
    | [] => simp
    | [_] => simp
    | [x, y] => simp
    | _ :: _ :: _ :: _ => simp
  | _ => simp [De.fields]

theorem fields3_iff {n1 n2 n3 : String} {j : Json} {P1 P2 P3 : Option Json → Prop} :
    (∃ a b c, De.fields [n1.toList, n2.toList, n3.toList] j = some [a, b, c] ∧ P1 a ∧ P2 b ∧ P3 c) ↔ Fields3 j n1 n2 n3 P1 P2 P3 := by
  unfold Fields3
  simp only [field_iff]
  cases j with
  | obj kvs =>
    simp only [De.fields, List.mapM_cons, List.mapM_nil, Option.bind_eq_bind, Option.pure_def, Option.bind_some, Option.bind_eq_some_iff, Option.some.injEq]
    constructor
    · rintro ⟨a, b, c, ⟨v, hv, ws, ⟨w, hw, us, ⟨u, hu, rfl⟩, rfl⟩, h⟩, h1, h2, h3⟩
      cases h
      exact .inl ⟨kvs, rfl, ⟨_, hv, h1⟩, ⟨_, hw, h2⟩, _, hu, h3⟩
    · rintro (⟨kvs', h', ⟨v, hv, h1⟩, ⟨w, hw, h2⟩, u, hu, h3⟩ | ⟨_, _, _, h', _⟩)
      · cases h'
        exact ⟨v, w, u, ⟨v, hv, _, ⟨w, hw, _, ⟨u, hu, rfl⟩, rfl⟩, rfl⟩, h1, h2, h3⟩
      · cases h'
  | arr xs =>
    simp only [De.fields]
    match xs with
    | [] => simp
    | [_] => simp
    | [_, _] => simp
    | [x, y, z] => simp
    | _ :: _ :: _ :: _ :: _ => simp
  | _ => simp [De.fields]

theorem fields_length {names : List Str} {j : Json} {fs : List (Option Json)} (h : De.fields names j = some fs) : fs.length = names.length := by
  unfold De.fields at h
  split at h
  · exact (optMapM_iff.mp h).length_eq.symm
  · split at h
    · rename_i hl; cases h; simpa using hl
    · cases h
  · cases h

theorem len2 {α : Type} {l : List α} (h : l.length = 2) : ∃ a b, l = [a, b] := by
  match l, h with
  | [a, b], _ => exact ⟨a, b, rfl⟩

theorem len3 {α : Type} {l : List α} (h : l.length = 3) : ∃ a b c, l = [a, b, c] := by
  match l, h with
  | [a, b, c], _ => exact ⟨a, b, c, rfl⟩

theorem iterationMark_de {j : Json} {s : CharFilterSetting} : De.iterationMark j = some s ↔
    ∃ a b, s = .iterationMark a b ∧ Fields2 j "normalize_kanji" "normalize_kana" (ReqValue BoolValue · a) (ReqValue BoolValue · b) := by
  simp only [← fields2_iff]
  unfold De.iterationMark
  simp only [Option.bind_eq_bind, Option.bind_eq_some_iff]
  constructor
  · rintro ⟨fs, hfs, h⟩
    obtain ⟨x, y, rfl⟩ := len2 (fields_length hfs)
    simp only [Option.bind_eq_some_iff, Option.pure_def, Option.some.injEq] at h
    obtain ⟨a, ha, b, hb, rfl⟩ := h
    exact ⟨a, b, rfl, x, y, hfs, (required_iff fun _ _ => bool_de).mp ha, (required_iff fun _ _ => bool_de).mp hb⟩
  · rintro ⟨a, b, rfl, x, y, hfs, ha, hb⟩
    refine ⟨_, hfs, ?_⟩
    simp only [(required_iff fun _ _ => bool_de).mpr ha, (required_iff fun _ _ => bool_de).mpr hb, Option.bind_some, Option.pure_def]

theorem regex_de {j : Json} {s : CharFilterSetting} : De.regex j = some s ↔
    ∃ a b, s = .regex a b ∧ Fields2 j "pattern" "replacement" (ReqValue StrValue · a) (ReqValue StrValue · b) := by
  simp only [← fields2_iff]
  unfold De.regex
  simp only [Option.bind_eq_bind, Option.bind_eq_some_iff]
  constructor
  · rintro ⟨fs, hfs, h⟩
    obtain ⟨x, y, rfl⟩ := len2 (fields_length hfs)
    simp only [Option.bind_eq_some_iff, Option.pure_def, Option.some.injEq] at h
    obtain ⟨a, ha, b, hb, rfl⟩ := h
    exact ⟨a, b, rfl, x, y, hfs, (required_iff fun _ _ => string_de).mp ha, (required_iff fun _ _ => string_de).mp hb⟩
  · rintro ⟨a, b, rfl, x, y, hfs, ha, hb⟩
    refine ⟨_, hfs, ?_⟩
    simp only [(required_iff fun _ _ => string_de).mpr ha, (required_iff fun _ _ => string_de).mpr hb, Option.bind_some, Option.pure_def]

theorem length_de {j : Json} {s : TokenFilterSetting} : De.length j = some s ↔
    ∃ a b, s = .length a b ∧ Fields2 j "min" "max" (OptValue NatValue · a) (OptValue NatValue · b) := by
  simp only [← fields2_iff]
  unfold De.length
  simp only [Option.bind_eq_bind, Option.bind_eq_some_iff]
  constructor
  · rintro ⟨fs, hfs, h⟩
    obtain ⟨x, y, rfl⟩ := len2 (fields_length hfs)
    simp only [Option.bind_eq_some_iff, Option.pure_def, Option.some.injEq] at h
    obtain ⟨a, ha, b, hb, rfl⟩ := h
    exact ⟨a, b, rfl, x, y, hfs, (optional_iff fun _ _ => usize_de).mp ha, (optional_iff fun _ _ => usize_de).mp hb⟩
  · rintro ⟨a, b, rfl, x, y, hfs, ha, hb⟩
    refine ⟨_, hfs, ?_⟩
    simp only [(optional_iff fun _ _ => usize_de).mpr ha, (optional_iff fun _ _ => usize_de).mpr hb, Option.bind_some, Option.pure_def]

theorem compoundWord_de {j : Json} {s : TokenFilterSetting} : De.compoundWord j = some s ↔
    ∃ a b c, s = .japaneseCompoundWord a b c ∧ Fields3 j "kind" "tags" "new_tag" (ReqValue KindValue · a) (ReqValue StrsValue · b) (OptValue StrValue · c) := by
  simp only [← fields3_iff]
  unfold De.compoundWord
  simp only [Option.bind_eq_bind, Option.bind_eq_some_iff]
  constructor
  · rintro ⟨fs, hfs, h⟩
    obtain ⟨x, y, z, rfl⟩ := len3 (fields_length hfs)
    simp only [Option.bind_eq_some_iff, Option.pure_def, Option.some.injEq] at h
    obtain ⟨a, ha, b, hb, c, hc, rfl⟩ := h
    exact ⟨a, b, c, rfl, x, y, z, hfs, (required_iff fun _ _ => kind_de).mp ha, (required_iff fun _ _ => strs_de).mp hb, (optional_iff fun _ _ => string_de).mp hc⟩
  · rintro ⟨a, b, c, rfl, x, y, z, hfs, ha, hb, hc⟩
    refine ⟨_, hfs, ?_⟩
    simp only [(required_iff fun _ _ => kind_de).mpr ha, (required_iff fun _ _ => strs_de).mpr hb, (optional_iff fun _ _ => string_de).mpr hc, Option.bind_some, Option.pure_def]

theorem nonZero_de {j : Json} {n : Nat} : De.nonZeroUsize j = some n ↔ NatValue j n ∧ n ≠ 0 := by
  unfold De.nonZeroUsize
  rw [Option.bind_eq_some_iff]
  simp only [usize_de]
  constructor
  · rintro ⟨a, ha, h⟩
    split at h
    · cases h
    · cases h; exact ⟨ha, by assumption⟩
  · rintro ⟨ha, hn⟩
    exact ⟨n, ha, by rw [if_neg hn]⟩

theorem katakanaStem_de {j : Json} {s : TokenFilterSetting} : De.katakanaStem j = some s ↔
    ∃ min, s = .japaneseKatakanaStem min ∧ min ≠ 0 ∧
      (Fields1 j "min" (ReqValue NatValue · min) ∨ (min = 3 ∧ ((∃ kvs, j = .obj kvs ∧ "min".toList ∉ kvs.map (·.1)) ∨ j = .arr []))) := by
  unfold De.katakanaStem Fields1
  simp only [field_iff]
  cases j with
  | obj kvs =>
    dsimp only
    rw [Option.bind_eq_some_iff]
    have hnone : De.field kvs "min".toList = some none ↔ "min".toList ∉ kvs.map (·.1) := by
      have := field_iff (kvs := kvs) (name := "min") (P := fun v => v = none)
      unfold Member at this
      simp only [exists_eq_right, and_true, reduceCtorEq, and_false, exists_false, false_or] at this
      exact this.symm
    constructor
    · rintro ⟨v, hv, h⟩
      cases v with
      | none =>
        cases h
        exact ⟨3, rfl, by omega, .inr ⟨rfl, .inl ⟨kvs, rfl, hnone.mp hv⟩⟩⟩
      | some x =>
        simp only [Option.map_eq_some_iff] at h
        obtain ⟨n, hn, rfl⟩ := h
        obtain ⟨h1, h2⟩ := nonZero_de.mp hn
        exact ⟨n, rfl, h2, .inl (.inl ⟨kvs, rfl, _, hv, x, rfl, h1⟩)⟩
    · rintro ⟨n, rfl, hn, (⟨kvs', h, v, hv, x, rfl, hx⟩ | ⟨_, h, _⟩) | ⟨rfl, ⟨kvs', h, hk⟩ | h⟩⟩
      · cases h
        exact ⟨_, hv, by simp only [nonZero_de.mpr ⟨hx, hn⟩, Option.map_some]⟩
      · cases h
      · cases h
        exact ⟨_, hnone.mpr hk, rfl⟩
      · cases h
  | arr xs =>
    match xs with
    | [] =>
      simp only [Option.some.injEq, Json.arr.injEq, reduceCtorEq, false_and, exists_false, false_or, or_true, and_true]
      constructor
      · rintro rfl; exact ⟨3, rfl, by omega, by simp⟩
      · rintro ⟨n, rfl, _, h⟩
        rw [h]
    | [x] =>
      simp only [Option.map_eq_some_iff, Json.arr.injEq, reduceCtorEq, false_and, exists_false, false_or, or_false, and_false, List.cons.injEq, and_true]
      constructor
      · rintro ⟨n, hn, rfl⟩
        obtain ⟨h1, h2⟩ := nonZero_de.mp hn
        exact ⟨n, rfl, h2, x, rfl, x, rfl, h1⟩
      · rintro ⟨n, rfl, hn, y, rfl, z, hz, hx⟩
        cases hz
        exact ⟨n, nonZero_de.mpr ⟨hx, hn⟩, rfl⟩
    | _ :: _ :: _ => simp
  | _ => simp

theorem tags_de {j : Json} {ts : List Str} : De.tags j = some ts ↔ HasMember j "tags" (.arr (ts.map .str)) := by
  unfold De.tags
  simp only [Option.bind_eq_bind, Option.bind_eq_some_iff, index_array, strs_iff]
  constructor
  · rintro ⟨xs, h, rfl⟩; exact h
  · intro h; exact ⟨_, h, rfl⟩

theorem numberTags_de {j : Json} {ts : Option (List Str)} : De.numberTags j = some ts ↔
    (∃ l, ts = some l ∧ HasMember j "tags" (.arr (l.map .str))) ∨ (ts = none ∧ ∀ xs, ¬ HasMember j "tags" (.arr xs)) := by
  unfold De.numberTags
  simp only [← get_eq_some]
  split
  · rename_i xs h
    simp only [Option.map_eq_some_iff, strs_iff, h, Option.some.injEq, Json.arr.injEq]
    constructor
    · rintro ⟨l, rfl, rfl⟩; exact .inl ⟨l, rfl, rfl⟩
    · rintro (⟨l, rfl, rfl⟩ | ⟨_, h⟩)
      · exact ⟨l, rfl, rfl⟩
      · exact absurd rfl (h _)
  · rename_i h
    constructor
    · intro h'; cases h'; exact .inr ⟨rfl, h⟩
    · rintro (⟨l, rfl, hl⟩ | ⟨rfl, _⟩)
      · exact absurd hl (h _)
      · rfl

/-! ### Filters -/

theorem charFilter_iff {kind : Str} {args : Json} {s : CharFilterSetting} : readCharFilter kind args = some s ↔ CharSetting kind args s := by
  constructor
  · intro h
    unfold readCharFilter at h
    split at h
    · rename_i hk
      obtain ⟨a, b, rfl, hf⟩ := iterationMark_de.mp h
      exact ⟨hk, hf⟩
    split at h
    · rename_i hk
      obtain ⟨m, hm, rfl⟩ := Option.map_eq_some_iff.mp h
      exact ⟨hk, (struct1_iff fun _ _ => strMap_de).mp hm⟩
    split at h
    · rename_i hk
      obtain ⟨a, b, rfl, hf⟩ := regex_de.mp h
      exact ⟨hk, hf⟩
    split at h
    · rename_i hk
      obtain ⟨m, hm, rfl⟩ := Option.map_eq_some_iff.mp h
      exact ⟨hk, (struct1_iff fun _ _ => unit_de normalForm_named).mp hm⟩
    · cases h
  · intro h
    cases s with
    | iterationMark a b => obtain ⟨rfl, h⟩ := h; exact iterationMark_de.mpr ⟨a, b, rfl, h⟩
    | mapping m =>
      obtain ⟨rfl, h⟩ := h
      exact Option.map_eq_some_iff.mpr ⟨m, (struct1_iff fun _ _ => strMap_de).mpr h, rfl⟩
    | regex a b => obtain ⟨rfl, h⟩ := h; exact regex_de.mpr ⟨a, b, rfl, h⟩
    | unicodeNormalize f =>
      obtain ⟨rfl, h⟩ := h
      exact Option.map_eq_some_iff.mpr ⟨f, (struct1_iff fun _ _ => unit_de normalForm_named).mpr h, rfl⟩

theorem ite_or {α : Type} {c : Prop} [Decidable c] {a b : α} {s : α} (h : (if c then a else b) = s) : (c ∧ a = s) ∨ (¬ c ∧ b = s) := by
  by_cases hc : c
  · rw [if_pos hc] at h; exact .inl ⟨hc, h⟩
  · rw [if_neg hc] at h; exact .inr ⟨hc, h⟩

theorem tokenFilter_iff {kind : Str} {args : Json} {s : TokenFilterSetting} : readTokenFilter kind args = some s ↔ TokenSetting kind args s := by
  have hmap : ∀ {α : Type} {o : Option α} {f : α → TokenFilterSetting} {P : TokenFilterSetting → Prop}, o.map f = some s → (∀ a, o = some a → P (f a)) → P s := by
    intro α o f P h hP
    obtain ⟨a, ha, rfl⟩ := Option.map_eq_some_iff.mp h
    exact hP a ha
  constructor
  · intro h
    unfold readTokenFilter at h
    rcases ite_or h with ⟨hk, h⟩ | ⟨_, h⟩
    · exact hmap h fun a ha => ⟨hk, (struct1_iff fun _ _ => kind_de).mp ha⟩
    rcases ite_or h with ⟨hk, h⟩ | ⟨_, h⟩
    · obtain ⟨a, b, c, rfl, hf⟩ := compoundWord_de.mp h; exact ⟨hk, hf⟩
    rcases ite_or h with ⟨hk, h⟩ | ⟨_, h⟩
    · exact hmap h fun a ha => ⟨hk, (struct1_iff fun _ _ => unit_de kana_named).mp ha⟩
    rcases ite_or h with ⟨hk, h⟩ | ⟨_, h⟩
    · obtain ⟨m, rfl, hf⟩ := katakanaStem_de.mp h; exact ⟨hk, hf⟩
    rcases ite_or h with ⟨hk, h⟩ | ⟨_, h⟩
    · exact hmap h fun a ha => ⟨hk, tags_de.mp ha⟩
    rcases ite_or h with ⟨hk, h⟩ | ⟨_, h⟩
    · exact hmap h fun a ha => ⟨hk, numberTags_de.mp ha⟩
    rcases ite_or h with ⟨hk, h⟩ | ⟨_, h⟩
    · exact hmap h fun a ha => ⟨hk, (struct1_iff fun _ _ => kind_de).mp ha⟩
    rcases ite_or h with ⟨hk, h⟩ | ⟨_, h⟩
    · exact hmap h fun a ha => ⟨hk, tags_de.mp ha⟩
    rcases ite_or h with ⟨hk, h⟩ | ⟨_, h⟩
    · exact hmap h fun a ha => ⟨hk, (struct1_iff fun _ _ => strs_de).mp ha⟩
    rcases ite_or h with ⟨hk, h⟩ | ⟨_, h⟩
    · exact hmap h fun a ha => ⟨hk, (struct1_iff fun _ _ => strs_de).mp ha⟩
    rcases ite_or h with ⟨hk, h⟩ | ⟨_, h⟩
    · cases h; exact hk
    rcases ite_or h with ⟨hk, h⟩ | ⟨_, h⟩
    · exact hmap h fun a ha => ⟨hk, (struct1_iff fun _ _ => strs_de).mp ha⟩
    rcases ite_or h with ⟨hk, h⟩ | ⟨_, h⟩
    · obtain ⟨a, b, rfl, hf⟩ := length_de.mp h; exact ⟨hk, hf⟩
    rcases ite_or h with ⟨hk, h⟩ | ⟨_, h⟩
    · cases h; exact hk
    rcases ite_or h with ⟨hk, h⟩ | ⟨_, h⟩
    · exact hmap h fun a ha => ⟨hk, (struct1_iff fun _ _ => strMap_de).mp ha⟩
    rcases ite_or h with ⟨hk, h⟩ | ⟨_, h⟩
    · exact hmap h fun a ha => ⟨hk, (struct1_iff fun _ _ => strs_de).mp ha⟩
    rcases ite_or h with ⟨hk, h⟩ | ⟨_, h⟩
    · cases h; exact hk
    cases h
  · intro h
    cases s with
    | japaneseBaseForm k => obtain ⟨rfl, h⟩ := h; exact Option.map_eq_some_iff.mpr ⟨k, (struct1_iff fun _ _ => kind_de).mpr h, rfl⟩
    | japaneseCompoundWord a b c => obtain ⟨rfl, h⟩ := h; exact compoundWord_de.mpr ⟨a, b, c, rfl, h⟩
    | japaneseKana k => obtain ⟨rfl, h⟩ := h; exact Option.map_eq_some_iff.mpr ⟨k, (struct1_iff fun _ _ => unit_de kana_named).mpr h, rfl⟩
    | japaneseKatakanaStem m => obtain ⟨rfl, h⟩ := h; exact katakanaStem_de.mpr ⟨m, rfl, h⟩
    | japaneseKeepTags t => obtain ⟨rfl, h⟩ := h; exact Option.map_eq_some_iff.mpr ⟨t, tags_de.mpr h, rfl⟩
    | japaneseNumber t => obtain ⟨rfl, h⟩ := h; exact Option.map_eq_some_iff.mpr ⟨t, numberTags_de.mpr h, rfl⟩
    | japaneseReadingForm k => obtain ⟨rfl, h⟩ := h; exact Option.map_eq_some_iff.mpr ⟨k, (struct1_iff fun _ _ => kind_de).mpr h, rfl⟩
    | japaneseStopTags t => obtain ⟨rfl, h⟩ := h; exact Option.map_eq_some_iff.mpr ⟨t, tags_de.mpr h, rfl⟩
    | keepWords w => obtain ⟨rfl, h⟩ := h; exact Option.map_eq_some_iff.mpr ⟨w, (struct1_iff fun _ _ => strs_de).mpr h, rfl⟩
    | koreanKeepTags w => obtain ⟨rfl, h⟩ := h; exact Option.map_eq_some_iff.mpr ⟨w, (struct1_iff fun _ _ => strs_de).mpr h, rfl⟩
    | koreanReadingForm => subst h; rfl
    | koreanStopTags w => obtain ⟨rfl, h⟩ := h; exact Option.map_eq_some_iff.mpr ⟨w, (struct1_iff fun _ _ => strs_de).mpr h, rfl⟩
    | length a b => obtain ⟨rfl, h⟩ := h; exact length_de.mpr ⟨a, b, rfl, h⟩
    | lowercase => subst h; rfl
    | mapping m => obtain ⟨rfl, h⟩ := h; exact Option.map_eq_some_iff.mpr ⟨m, (struct1_iff fun _ _ => strMap_de).mpr h, rfl⟩
    | stopWords w => obtain ⟨rfl, h⟩ := h; exact Option.map_eq_some_iff.mpr ⟨w, (struct1_iff fun _ _ => strs_de).mpr h, rfl⟩
    | uppercase => subst h; rfl

/-! ### Entries -/

theorem entry_iff {j : Json} {kind : Str} {args : Json} :
    IsEntry j kind args ↔ (j.index "kind".toList).asStr = some kind ∧ args = j.index "args".toList := by
  unfold IsEntry
  rw [index_str]
  refine and_congr_right fun _ => ?_
  rw [← get_eq_none, ← get_eq_some, Json.index]
  cases h : j.get "args".toList with
  | none => simp
  | some v => simp [eq_comm]

theorem loadEntry_entry {α : Type} {loader : Str → Json → R α} {j : Json} {kind : Str} {args : Json} (h : IsEntry j kind args) (acc : List α) :
    loadEntry loader acc j = loader kind args >>= fun f => .ok (acc ++ [f]) := by
  obtain ⟨h1, h2⟩ := entry_iff.mp h
  unfold loadEntry
  rw [h1, ← h2]; rfl

theorem loadEntry_skip {α : Type} {loader : Str → Json → R α} {j : Json} (hn : ∀ kind args, ¬ IsEntry j kind args) (acc : List α) :
    loadEntry loader acc j = .ok acc := by
  unfold loadEntry
  have : (j.index "kind".toList).asStr = none := by
    rw [Option.eq_none_iff_forall_ne_some]
    exact fun k hk => hn k _ (entry_iff.mpr ⟨hk, rfl⟩)
  rw [this]

theorem foldlM_entries {α : Type} {loader : Str → Json → R α} {xs : List Json} {es : List (Str × Json)} (h : Entries xs es) (acc : List α) :
    xs.foldlM (loadEntry loader) acc = (es.mapM fun e => loader e.1 e.2) >>= fun fs => .ok (acc ++ fs) := by
  induction h generalizing acc with
  | nil => simp [pure_eq_ok, bind_ok]
  | entry he _ ih =>
    rw [List.foldlM_cons, List.mapM_cons, loadEntry_entry he]
    simp only [bind_assoc, pure_eq_ok, bind_ok]
    congr 1
    funext f
    rw [ih]
    congr 1
    funext fs
    rw [List.append_assoc]; rfl
  | skip hn _ ih =>
    rw [List.foldlM_cons, loadEntry_skip hn, bind_ok, ih]

theorem entries_exist (xs : List Json) : ∃ es, Entries xs es := by
  induction xs with
  | nil => exact ⟨[], .nil⟩
  | cons x xs ih =>
    obtain ⟨es, h⟩ := ih
    by_cases hx : ∃ k a, IsEntry x k a
    · obtain ⟨k, a, hx⟩ := hx; exact ⟨_, .entry hx h⟩
    · exact ⟨es, .skip (fun k a h => hx ⟨k, a, h⟩) h⟩

theorem entries_unique {xs : List Json} {es es' : List (Str × Json)} (h : Entries xs es) (h' : Entries xs es') : es = es' := by
  induction h generalizing es' with
  | nil => cases h'; rfl
  | entry he _ ih =>
    cases h' with
    | entry he' h' =>
      obtain ⟨h1, h2⟩ := entry_iff.mp he
      obtain ⟨h1', h2'⟩ := entry_iff.mp he'
      rw [h1] at h1'; cases h1'
      rw [ih h', h2, h2']
    | skip hn _ => exact absurd he (hn _ _)
  | skip hn _ ih =>
    cases h' with
    | entry he' h' => exact absurd he' (hn _ _)
    | skip _ h' => exact ih h'

theorem listed_exist (doc : Json) (name : String) : ∃ es, Listed doc name es := by
  by_cases h : ∃ xs, HasMember doc name (.arr xs)
  · obtain ⟨xs, h⟩ := h
    obtain ⟨es, he⟩ := entries_exist xs
    exact ⟨es, .inl ⟨xs, h, he⟩⟩
  · exact ⟨[], .inr ⟨fun xs hx => h ⟨xs, hx⟩, rfl⟩⟩

theorem listed_unique {doc : Json} {name : String} {es es' : List (Str × Json)} (h : Listed doc name es) (h' : Listed doc name es') : es = es' := by
  rcases h with ⟨xs, h1, h2⟩ | ⟨h1, rfl⟩ <;> rcases h' with ⟨xs', h1', h2'⟩ | ⟨h1', rfl⟩
  · rw [← get_eq_some] at h1 h1'
    rw [h1] at h1'; cases h1'
    exact entries_unique h2 h2'
  · exact absurd h1 (h1' _)
  · exact absurd h1' (h1 _)
  · rfl

theorem loadEntries_listed {α : Type} {loader : Str → Json → R α} {doc : Json} {name : String} {es : List (Str × Json)} (h : Listed doc name es) :
    loadEntries loader (doc.index name.toList) = es.mapM fun e => loader e.1 e.2 := by
  unfold loadEntries
  rcases h with ⟨xs, h1, h2⟩ | ⟨h1, rfl⟩
  · rw [index_array.mpr h1]
    dsimp only
    rw [foldlM_entries h2]
    cases (es.mapM fun e => loader e.1 e.2) <;> simp [bind_ok, bind_error]
  · have : (doc.index name.toList).asArray = none := by
      rw [Option.eq_none_iff_forall_ne_some]
      exact fun xs hx => h1 xs (index_array.mp hx)
    rw [this, List.mapM_nil]; rfl

theorem charLoad_iff {env : FilterEnv} {kind : Str} {args : Json} {f : CharFilter} :
    env.charFilter kind args = .ok f ↔ ∃ s, CharSetting kind args s ∧ s.new env = .ok f := by
  unfold FilterEnv.charFilter
  simp only [← charFilter_iff]
  cases h : readCharFilter kind args <;> simp

theorem tokenLoad_iff {env : FilterEnv} {kind : Str} {args : Json} {f : TokenFilter} :
    env.tokenFilter kind args = .ok f ↔ ∃ s, TokenSetting kind args s ∧ s.new env = .ok f := by
  unfold FilterEnv.tokenFilter
  simp only [← tokenFilter_iff]
  cases h : readTokenFilter kind args <;> simp

theorem tokenizerMember_iff {doc : Json} {c : TokenizerConfig} :
    tokenizerMember doc = .ok c ↔ ∃ kvs, HasMember doc "tokenizer" (.obj kvs) ∧ ConfigMembers kvs c := by
  unfold tokenizerMember
  constructor
  · intro h
    split at h
    · rename_i v hv
      obtain ⟨kvs, h1, rfl⟩ := index_object.mp hv
      split at h
      · rename_i c' hc
        cases h
        exact ⟨kvs, h1, config_de.mp hc⟩
      · cases h
    · cases h
  · rintro ⟨kvs, h1, h2⟩
    rw [index_object.mpr ⟨kvs, h1, rfl⟩]
    dsimp only
    rw [config_de.mpr h2]

theorem fromValue_iff {env : AnalyzerEnv} {doc : Json} {a : Analyzer} : env.fromValue doc = .ok a ↔ Configured env doc a := by
  obtain ⟨ces, hc⟩ := listed_exist doc "character_filters"
  obtain ⟨tes, ht⟩ := listed_exist doc "token_filters"
  unfold AnalyzerEnv.fromValue
  rw [loadEntries_listed hc, loadEntries_listed ht]
  simp only [bind_eq_ok, mapM_ok_iff, charLoad_iff, tokenLoad_iff, tokenizerMember_iff, pure_eq_ok]
  constructor
  · rintro ⟨fs, hfs, c, ⟨kvs, hk, hcm⟩, t, htk, gs, hgs, h⟩
    cases h
    exact ⟨⟨ces, hc, hfs⟩, ⟨kvs, c, hk, hcm, htk⟩, ⟨tes, ht, hgs⟩⟩
  · rintro ⟨⟨ces', hc', hfs⟩, ⟨kvs, c, hk, hcm, htk⟩, ⟨tes', ht', hgs⟩⟩
    cases listed_unique hc hc'
    cases listed_unique ht ht'
    exact ⟨_, hfs, c, ⟨kvs, hk, hcm⟩, _, htk, _, hgs, rfl⟩

end Verif.Model
