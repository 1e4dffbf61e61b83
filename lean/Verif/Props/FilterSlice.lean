import Verif.Proofs.SliceValue
import Verif.Props.AnalyzerConfig
/-! Properties of filters that are made from bytes: C95. -/
namespace Verif.Props
open Verif.Model Verif.Spec

/-! ### C95 A filter made from bytes is the filter of the document they hold -/

theorem charFields_eq {kind : String} {names : List String} (h : (kind, names) ∈ charFields) : charFilterFields kind.toList = names.map (·.toList) := by
  simp only [charFields, List.mem_cons, Prod.mk.injEq, List.not_mem_nil, or_false] at h
  rcases h with ⟨rfl, rfl⟩ | ⟨rfl, rfl⟩ | ⟨rfl, rfl⟩ | ⟨rfl, rfl⟩ <;> decide +kernel

theorem tokenFields_eq {kind : String} {names : List String} (h : (kind, names) ∈ tokenFields) : tokenFilterFields kind.toList = some (names.map (·.toList)) := by
  simp only [tokenFields, List.mem_cons, Prod.mk.injEq, List.not_mem_nil, or_false] at h
  rcases h with ⟨rfl, rfl⟩ | ⟨rfl, rfl⟩ | ⟨rfl, rfl⟩ | ⟨rfl, rfl⟩ | ⟨rfl, rfl⟩ | ⟨rfl, rfl⟩ | ⟨rfl, rfl⟩ | ⟨rfl, rfl⟩ | ⟨rfl, rfl⟩ | ⟨rfl, rfl⟩ | ⟨rfl, rfl⟩ <;> decide +kernel

theorem tokenValues_eq {kind : String} (h : kind ∈ tokenValues) : tokenFilterFields kind.toList = none := by
  simp only [tokenValues, List.mem_cons, List.not_mem_nil, or_false] at h
  rcases h with rfl | rfl | rfl <;> decide +kernel

theorem readCharFilter_scalar (kind : Str) {j : Json} (h1 : ∀ kvs, j ≠ .obj kvs) (h2 : ∀ xs, j ≠ .arr xs) : readCharFilter kind j = none := by
  cases j with
  | obj kvs => exact absurd rfl (h1 kvs)
  | arr xs => exact absurd rfl (h2 xs)
  | _ => unfold readCharFilter; repeat' split
         all_goals rfl

theorem readTokenFilter_scalar {kind : String} {names : List String} (h : (kind, names) ∈ tokenFields) {j : Json} (h1 : ∀ kvs, j ≠ .obj kvs) (h2 : ∀ xs, j ≠ .arr xs) :
    readTokenFilter kind.toList j = none := by
  simp only [tokenFields, List.mem_cons, Prod.mk.injEq, List.not_mem_nil, or_false] at h
  cases j with
  | obj kvs => exact absurd rfl (h1 kvs)
  | arr xs => exact absurd rfl (h2 xs)
  | _ =>
    rcases h with ⟨rfl, rfl⟩ | ⟨rfl, rfl⟩ | ⟨rfl, rfl⟩ | ⟨rfl, rfl⟩ | ⟨rfl, rfl⟩ | ⟨rfl, rfl⟩ | ⟨rfl, rfl⟩ | ⟨rfl, rfl⟩ | ⟨rfl, rfl⟩ | ⟨rfl, rfl⟩ | ⟨rfl, rfl⟩ <;> rfl

theorem value_scalar {j : Json} (h1 : ∀ kvs, j ≠ .obj kvs) (h2 : ∀ xs, j ≠ .arr xs) : j.value = j := by
  cases j with
  | obj kvs => exact absurd rfl (h1 kvs)
  | arr xs => exact absurd rfl (h2 xs)
  | _ => rfl

/-- C95: bytes that hold a JSON document never give another character filter than the document: `from_slice` does the same as loading the document, including the errors, or reports a deserialization
error; the latter is only possible if an object of the document has two members with the same name. -/
theorem c95_char (env : FilterEnv) (finite : Str → Bool) (kind : Str) (data : List UInt8) (j v : Json) (h : JsonText.File finite data j) (hs : SameDoc j v) (hv : Canonical v) :
    (env.charFilterOf finite kind data = env.charFilter kind v ∨ env.charFilterOf finite kind data = .error (.err .deserialize)) ∧
    (Json.Unrepeated j → env.charFilterOf finite kind data = env.charFilter kind v) := by
  obtain rfl : j.value = v := value_iff.mpr ⟨hs, hv⟩
  unfold FilterEnv.charFilterOf
  rcases parseConfig_json (names := charFilterFields kind) h with ⟨-, hp⟩ | ⟨⟨h1, h2⟩, hp⟩
  · rw [hp]
    simp only [FilterEnv.charFilter, readCharFilter_only]
    rcases readCharFilter_agrees kind j with ⟨e, hu⟩ | ⟨a, b, e, e', hab⟩
    · rw [e]
      exact ⟨.inr rfl, fun hj => by rw [hu hj]⟩
    · rw [e, e']
      exact ⟨.inl (hab.new env), fun _ => hab.new env⟩
  · rw [hp, value_scalar h1 h2, FilterEnv.charFilter, readCharFilter_scalar kind h1 h2]
    exact ⟨.inl rfl, fun _ => rfl⟩

/-- C95: likewise for the token filters that have a `from_slice`. -/
theorem c95_token (env : FilterEnv) (finite : Str → Bool) (kind : String) (hk : kind ∈ tokenFields.map (·.1) ∨ kind ∈ tokenValues) (data : List UInt8) (j v : Json)
    (h : JsonText.File finite data j) (hs : SameDoc j v) (hv : Canonical v) :
    (env.tokenFilterOf finite kind.toList data = env.tokenFilter kind.toList v ∨ env.tokenFilterOf finite kind.toList data = .error (.err .deserialize)) ∧
    ((Json.Unrepeated j ∨ kind ∈ tokenValues) → env.tokenFilterOf finite kind.toList data = env.tokenFilter kind.toList v) := by
  obtain rfl : j.value = v := value_iff.mpr ⟨hs, hv⟩
  unfold FilterEnv.tokenFilterOf tokenFilterText
  rcases hk with hk | hk
  · obtain ⟨⟨kind, names⟩, hm, rfl⟩ := List.mem_map.mp hk
    have hn := tokenFields_eq hm
    have hnv : kind ∉ tokenValues := fun h => by rw [tokenValues_eq h] at hn; cases hn
    rw [hn]
    dsimp only
    rcases parseConfig_json (names := names.map (·.toList)) h with ⟨-, hp⟩ | ⟨⟨h1, h2⟩, hp⟩
    · rw [hp]
      simp only [FilterEnv.tokenFilter, readTokenFilter_only hn]
      rcases readTokenFilter_agrees (by rw [hn]; simp) j with ⟨e, hu⟩ | ⟨a, b, e, e', hab⟩
      · rw [e]
        exact ⟨.inr rfl, fun hj => by rw [hu (hj.resolve_right hnv)]⟩
      · rw [e, e']
        exact ⟨.inl (hab.new env), fun _ => hab.new env⟩
    · rw [hp, value_scalar h1 h2, FilterEnv.tokenFilter, readTokenFilter_scalar hm h1 h2]
      exact ⟨.inl rfl, fun _ => rfl⟩
  · rw [tokenValues_eq hk]
    dsimp only
    rw [parseJsonBytes_iff.mpr h]
    exact ⟨.inl rfl, fun _ => rfl⟩

/-- C95: what `from_slice` of a character filter accepts, and what it makes of it: bytes that are UTF-8 and hold an object or an array, in which the fields are JSON and make up a setting; members that are not
fields need only have the outer form of JSON. All other bytes are a deserialization error. -/
theorem c95_char_text (env : FilterEnv) (finite : Str → Bool) (kind : String) (names : List String) (hk : (kind, names) ∈ charFields) (data : List UInt8) :
    (∀ j s, ConfigText.File finite (names.map (·.toList)) data j → CharSetting kind.toList j s → env.charFilterOf finite kind.toList data = s.new env) ∧
    ((∀ j s, ConfigText.File finite (names.map (·.toList)) data j → ¬ CharSetting kind.toList j s) → env.charFilterOf finite kind.toList data = .error (.err .deserialize)) := by
  unfold FilterEnv.charFilterOf
  rw [charFields_eq hk]
  constructor
  · intro j s hj hs
    rw [parseConfig_iff.mpr hj]
    exact (c66_char env kind.toList j).1 s hs
  · intro hn
    cases hp : parseConfig finite (names.map (·.toList)) data with
    | none => rfl
    | some j => exact (c66_char env kind.toList j).2.1 fun s => hn j s (parseConfig_iff.mp hp)

/-- C95: likewise for token filters. -/
theorem c95_token_text (env : FilterEnv) (finite : Str → Bool) (kind : String) (names : List String) (hk : (kind, names) ∈ tokenFields) (data : List UInt8) :
    (∀ j s, ConfigText.File finite (names.map (·.toList)) data j → TokenSetting kind.toList j s → env.tokenFilterOf finite kind.toList data = s.new env) ∧
    ((∀ j s, ConfigText.File finite (names.map (·.toList)) data j → ¬ TokenSetting kind.toList j s) → env.tokenFilterOf finite kind.toList data = .error (.err .deserialize)) := by
  unfold FilterEnv.tokenFilterOf tokenFilterText
  rw [tokenFields_eq hk]
  dsimp only
  constructor
  · intro j s hj hs
    rw [parseConfig_iff.mpr hj]
    exact (c66_token_partial env kind.toList j).1 s hs
  · intro hn
    cases hp : parseConfig finite (names.map (·.toList)) data with
    | none => rfl
    | some j => exact (c66_token_partial env kind.toList j).2.1 fun s => hn j s (parseConfig_iff.mp hp)

/-- C95: for the filters that read JSON first, bytes that are no JSON are a deserialization error. -/
theorem c95_value_text (env : FilterEnv) (finite : Str → Bool) (kind : String) (hk : kind ∈ tokenValues) (data : List UInt8) (h : ∀ j, ¬ JsonText.File finite data j) :
    env.tokenFilterOf finite kind.toList data = .error (.err .deserialize) := by
  unfold FilterEnv.tokenFilterOf tokenFilterText
  rw [tokenValues_eq hk]
  dsimp only
  rw [parseJsonBytes_none.mpr h]
  rfl

/-- C95 as one would like it: bytes give a filter exactly if they hold a JSON document, and then the filter of the document. -/
def SliceIsValue (env : FilterEnv) (finite : Str → Bool) : Prop :=
  (∀ kind ∈ tokenFields.map (·.1), ∀ data j v, JsonText.File finite data j → SameDoc j v → Canonical v → env.tokenFilterOf finite kind.toList data = env.tokenFilter kind.toList v) ∧
  ∀ kind ∈ tokenFields.map (·.1), ∀ data f, env.tokenFilterOf finite kind.toList data = .ok f → ∃ j, JsonText.File finite data j

theorem parse_same {finite : Str → Bool} {names : List Str} {s : Str} {j : Json} (h : (parseConfig finite names (utf8 s)).map (Json.same j) = some true) : parseConfig finite names (utf8 s) = some j := by
  obtain ⟨j', h1, h2⟩ := Option.map_eq_some_iff.mp h
  rw [h1, (same_iff j j').mp h2]

theorem doc_same {finite : Str → Bool} {s : Str} {j : Json} (h : (parseJson finite s).map (Json.same j) = some true) : JsonText.File finite (utf8 s) j := by
  obtain ⟨j', h1, h2⟩ := Option.map_eq_some_iff.mp h
  rw [← (same_iff j j').mp h2] at h1
  exact ⟨s, rfl, parseJson_read.mp h1⟩

namespace Slice
/-- A length filter with a field that occurs twice. -/
def twice : Str := "{\"min\": 1, \"min\": 2}".toList
/-- A length filter with an additional member that is no JSON string. -/
def lone : Str := "{\"min\": 1, \"note\": \"\\ud800\"}".toList
end Slice

/-- C95: both parts of `SliceIsValue` fail. A field that occurs twice is an error, while the last one counts in a document; and a lone surrogate in a member that is not a field is accepted, although the text is no JSON
(whatever numbers are). -/
theorem c95_fails (env : FilterEnv) :
    (∃ data j v, JsonText.File (fun _ => true) data j ∧ SameDoc j v ∧ Canonical v ∧ env.tokenFilterOf (fun _ => true) "length".toList data = .error (.err .deserialize) ∧
      env.tokenFilter "length".toList v = .ok (lengthFilter (some 2) none)) ∧
    (∃ data, (∀ j, ¬ JsonText.File (fun _ => true) data j) ∧ env.tokenFilterOf (fun _ => true) "length".toList data = .ok (lengthFilter (some 1) none)) ∧ ¬ SliceIsValue env fun _ => true := by
  have hf : tokenFilterFields "length".toList = some ["min".toList, "max".toList] := by decide +kernel
  have e1 : JsonText.File (fun _ => true) (utf8 Slice.twice) (.obj [("min".toList, .int 1), ("min".toList, .int 2)]) := doc_same (by decide +kernel)
  have e2 : env.tokenFilterOf (fun _ => true) "length".toList (utf8 Slice.twice) = .error (.err .deserialize) := by
    unfold FilterEnv.tokenFilterOf tokenFilterText
    rw [hf]
    dsimp only
    rw [parse_same (j := .obj [("min".toList, .int 1), ("min".toList, .int 2)]) (by decide +kernel)]
    rfl
  have e3 : env.tokenFilter "length".toList (.obj [("min".toList, .int 2)]) = .ok (lengthFilter (some 2) none) := rfl
  have e4 : SameDoc (.obj [("min".toList, .int 1), ("min".toList, .int 2)]) (.obj [("min".toList, .int 2)]) := .overridden [] ("min".toList, .int 1) [("min".toList, .int 2)] (by simp)
  have e5 : Canonical (.obj [("min".toList, .int 2)]) := by simp [Canonical, CanonicalMembers]
  have e6 : ∀ j, ¬ JsonText.File (fun _ => true) (utf8 Slice.lone) j := by
    rw [← parseJsonBytes_none, parseJsonBytes_utf8, ← Option.isNone_iff_eq_none]
    decide +kernel
  have e7 : env.tokenFilterOf (fun _ => true) "length".toList (utf8 Slice.lone) = .ok (lengthFilter (some 1) none) := by
    unfold FilterEnv.tokenFilterOf tokenFilterText
    rw [hf]
    dsimp only
    rw [parse_same (j := .obj [("min".toList, .int 1)]) (by decide +kernel)]
    rfl
  refine ⟨⟨_, _, _, e1, e4, e5, e2, e3⟩, ⟨_, e6, e7⟩, fun h => ?_⟩
  obtain ⟨j, hj⟩ := h.2 "length" (by simp [tokenFields]) _ _ e7
  exact e6 j hj

/-- C95: a field that occurs twice is always an error. -/
theorem c95_repeated (env : FilterEnv) (finite : Str → Bool) (kind : String) (names : List String) (name : String) (hn : name ∈ names) (data : List UInt8) (pre mid post : List (Str × Json)) (x y : Json)
    (h : JsonText.File finite data (.obj (pre ++ (name.toList, x) :: mid ++ (name.toList, y) :: post))) :
    ((kind, names) ∈ charFields → env.charFilterOf finite kind.toList data = .error (.err .deserialize)) ∧
    ((kind, names) ∈ tokenFields → env.tokenFilterOf finite kind.toList data = .error (.err .deserialize)) := by
  have hfield : De.field (pre ++ (name.toList, x) :: mid ++ (name.toList, y) :: post) name.toList = none := by
    unfold De.field
    rw [List.filter_append, List.filter_append, List.filter_cons, if_pos (by simp), List.filter_cons, if_pos (by simp)]
    split
    · rename_i h; simp at h
    · rename_i p h
      have := congrArg List.length h
      simp at this
      omega
    · rfl
  have hfields : ∀ names' : List Str, name.toList ∈ names' → De.fields names' (.obj (pre ++ (name.toList, x) :: mid ++ (name.toList, y) :: post)) = none := by
    intro names' hm
    show List.mapM _ names' = none
    induction names' with
    | nil => cases hm
    | cons n names' ih =>
      rw [List.mapM_cons]
      rcases List.mem_cons.mp hm with rfl | hm
      · rw [hfield]; rfl
      · rw [ih hm]
        cases De.field (pre ++ (name.toList, x) :: mid ++ (name.toList, y) :: post) n <;> rfl
  have hmem : name.toList ∈ names.map (·.toList) := List.mem_map_of_mem hn
  constructor
  · intro hk
    have e := charFields_eq hk
    unfold FilterEnv.charFilterOf
    rcases parseConfig_json (names := charFilterFields kind.toList) h with ⟨-, hp⟩ | ⟨-, hp⟩
    · rw [hp]
      have : readCharFilter kind.toList (.obj (pre ++ (name.toList, x) :: mid ++ (name.toList, y) :: post)) = none := by
        have hz := hfields _ hmem
        generalize Json.obj (pre ++ (name.toList, x) :: mid ++ (name.toList, y) :: post) = j at hz
        simp only [charFields, List.mem_cons, Prod.mk.injEq, List.not_mem_nil, or_false] at hk
        rcases hk with ⟨rfl, rfl⟩ | ⟨rfl, rfl⟩ | ⟨rfl, rfl⟩ | ⟨rfl, rfl⟩
        · show De.iterationMark j = none
          unfold De.iterationMark; rw [show De.fields ["normalize_kanji".toList, "normalize_kana".toList] j = none from hz]; rfl
        · show (De.struct1 _ _ j).map _ = none
          unfold De.struct1; rw [show De.fields ["mapping".toList] j = none from hz]; rfl
        · show De.regex j = none
          unfold De.regex; rw [show De.fields ["pattern".toList, "replacement".toList] j = none from hz]; rfl
        · show (De.struct1 _ _ j).map _ = none
          unfold De.struct1; rw [show De.fields ["kind".toList] j = none from hz]; rfl
      simp only [FilterEnv.charFilter, readCharFilter_only, this]
    · rw [hp]
  · intro hk
    have e := tokenFields_eq hk
    unfold FilterEnv.tokenFilterOf tokenFilterText
    rw [e]
    dsimp only
    rcases parseConfig_json (names := names.map (·.toList)) h with ⟨-, hp⟩ | ⟨-, hp⟩
    · rw [hp]
      have : readTokenFilter kind.toList (.obj (pre ++ (name.toList, x) :: mid ++ (name.toList, y) :: post)) = none := by
        have hz := hfields _ hmem
        simp only [tokenFields, List.mem_cons, Prod.mk.injEq, List.not_mem_nil, or_false] at hk
        by_cases hks : kind = "japanese_katakana_stem"
        · subst hks
          have : names = ["min"] := by
            simpa using hk
          subst this
          rw [List.mem_singleton] at hn
          subst hn
          show (De.field _ _).bind _ = none
          rw [hfield]; rfl
        generalize Json.obj (pre ++ (name.toList, x) :: mid ++ (name.toList, y) :: post) = j at hz
        have one : ∀ {α : Type} (d : De α) (n : String), De.fields [n.toList] j = none → De.struct1 n.toList d j = none := by
          intro α d n h; unfold De.struct1; rw [h]; rfl
        rcases hk with ⟨rfl, rfl⟩ | ⟨rfl, rfl⟩ | ⟨rfl, rfl⟩ | ⟨rfl, rfl⟩ | ⟨rfl, rfl⟩ | ⟨rfl, rfl⟩ | ⟨rfl, rfl⟩ | ⟨rfl, rfl⟩ | ⟨rfl, rfl⟩ | ⟨rfl, rfl⟩ | ⟨rfl, rfl⟩
        · show (De.struct1 _ _ j).map _ = none; rw [one _ _ hz]; rfl
        · show De.compoundWord j = none
          unfold De.compoundWord; rw [show De.fields ["kind".toList, "tags".toList, "new_tag".toList] j = none from hz]; rfl
        · show (De.struct1 _ _ j).map _ = none; rw [one _ _ hz]; rfl
        · exact absurd rfl hks
        · show (De.struct1 _ _ j).map _ = none; rw [one _ _ hz]; rfl
        · show (De.struct1 _ _ j).map _ = none; rw [one _ _ hz]; rfl
        · show (De.struct1 _ _ j).map _ = none; rw [one _ _ hz]; rfl
        · show (De.struct1 _ _ j).map _ = none; rw [one _ _ hz]; rfl
        · show De.length j = none
          unfold De.length; rw [show De.fields ["min".toList, "max".toList] j = none from hz]; rfl
        · show (De.struct1 _ _ j).map _ = none; rw [one _ _ hz]; rfl
        · show (De.struct1 _ _ j).map _ = none; rw [one _ _ hz]; rfl
      simp only [FilterEnv.tokenFilter, readTokenFilter_only e, this]
    · rw [hp]

/-- The hypotheses of `c95_token` are met: a mapping whose members are not in order, with another member. -/
example : ∃ j v, JsonText.File (fun _ => true) (utf8 "{ \"note\": [1.5, {}], \"mapping\": {\"b\": \"x\", \"a\": \"y\"} }".toList) j ∧ SameDoc j v ∧ Canonical v ∧ Json.Unrepeated j :=
  ⟨.obj [("note".toList, .arr [.float, .obj []]), ("mapping".toList, .obj [("b".toList, .str "x".toList), ("a".toList, .str "y".toList)])], _,
    doc_same (by decide +kernel), value_sameDoc _, canonical_value _, by simp [Json.Unrepeated, UnrepeatedPairs, UnrepeatedList]⟩

/-- The hypotheses of `c95_char_text` are met, also with a member that is no JSON. -/
example : ∃ j s, ConfigText.File (fun _ => false) (["kind"].map (·.toList)) (utf8 "{\"x\": [[1e9999], \"\\udc00\"], \"kind\": \"nfkc\"}".toList) j ∧ CharSetting "unicode_normalize".toList j s :=
  ⟨.obj [("kind".toList, .str "nfkc".toList)], .unicodeNormalize .nfkc, parseConfig_iff.mp (parse_same (by decide +kernel)), charFilter_iff.mp rfl⟩

/-- Bytes that are rejected although the fields are fine: a member that is not a field must have the form of JSON. -/
example (env : FilterEnv) : env.charFilterOf (fun _ => true) "unicode_normalize".toList (utf8 "{\"x\": [1,], \"kind\": \"nfkc\"}".toList) = .error (.err .deserialize) := by
  have : parseConfig (fun _ => true) (charFilterFields "unicode_normalize".toList) (utf8 "{\"x\": [1,], \"kind\": \"nfkc\"}".toList) = none := by
    rw [← Option.isNone_iff_eq_none]; decide +kernel
  unfold FilterEnv.charFilterOf
  rw [this]

end Verif.Props
